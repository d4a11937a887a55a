import Verif.PathName.Props

/-!
# Names of files: expand_path and what the system is asked (C145)
-/

namespace Verif.PathName

/-- a component that names an entry -/
def Plain (x : Str) : Prop := Word x ∧ x ≠ ['.'] ∧ x ≠ ['.', '.']

theorem foldl_clean_names (s : Str) (acc : List Str) :
    (splitSl s).foldl cleanStep acc = (names s).foldl cleanStep acc := by
  unfold names
  generalize splitSl s = l
  induction l generalizing acc with
  | nil => rfl
  | cons x l ih =>
    by_cases h : x = []
    · subst h
      rw [List.foldl_cons, List.filter_cons_of_neg (by simp), ← ih]
      simp [cleanStep]
    · rw [List.foldl_cons, List.filter_cons_of_pos (by simpa using h), List.foldl_cons, ih]

theorem clean_plain (ns acc : List Str) (hn : ∀ x ∈ ns, Word x) (ha : ∀ x ∈ acc, Plain x) :
    ∀ x ∈ ns.foldl cleanStep acc, Plain x := by
  induction ns generalizing acc with
  | nil => exact ha
  | cons n ns ih =>
    rw [List.foldl_cons]
    apply ih _ (fun x h => hn x (List.mem_cons_of_mem _ h))
    intro x hx
    unfold cleanStep at hx
    split_ifs at hx with h1 h2
    · exact ha x hx
    · exact ha x (List.dropLast_subset _ hx)
    · rcases List.mem_append.1 hx with h | h
      · exact ha x h
      · simp at h
        subst h
        exact ⟨hn _ List.mem_cons_self, fun e => h1 (Or.inr e), h2⟩

theorem clean_id (ns acc : List Str) (h : ∀ x ∈ ns, Plain x) : ns.foldl cleanStep acc = acc ++ ns := by
  induction ns generalizing acc with
  | nil => simp
  | cons n ns ih =>
    obtain ⟨hw, h1, h2⟩ := h n List.mem_cons_self
    rw [List.foldl_cons, ih _ (fun x hx => h x (List.mem_cons_of_mem _ hx))]
    simp [cleanStep, hw.1, h1, h2]

theorem walk_iff (ns : List Str) (hn : ∀ x ∈ ns, x ≠ []) (d r : List Str) :
    Walk d ns r ↔ r = ns.foldl cleanStep d := by
  induction ns generalizing d with
  | nil =>
    constructor
    · intro h; cases h; rfl
    · rintro rfl; exact Walk.done _
  | cons n ns ih =>
    have ih' := fun d => ih (fun x h => hn x (List.mem_cons_of_mem _ h)) d
    have hne := hn n List.mem_cons_self
    rw [List.foldl_cons]
    by_cases h1 : n = ['.']
    · subst h1
      have : cleanStep d ['.'] = d := by simp [cleanStep]
      rw [this, ← ih']
      constructor
      · intro h; cases h with
        | here _ _ _ h => exact h
        | down _ _ _ _ h _ _ => exact absurd rfl h
      · exact fun h => Walk.here _ _ _ h
    · by_cases h2 : n = ['.', '.']
      · subst h2
        have : cleanStep d ['.', '.'] = d.dropLast := by simp [cleanStep]
        rw [this, ← ih']
        constructor
        · intro h; cases h with
          | top _ _ h => exact h
          | up d x _ _ h => simpa using h
          | down _ _ _ _ _ h _ => exact absurd rfl h
        · intro h
          by_cases hd : d = []
          · subst hd; exact Walk.top _ _ h
          · rw [← List.dropLast_concat_getLast hd]
            exact Walk.up _ _ _ _ h
      · have : cleanStep d n = d ++ [n] := by simp [cleanStep, hne, h1, h2]
        rw [this, ← ih']
        constructor
        · intro h; cases h with
          | here _ _ _ h => exact absurd rfl h1
          | top _ _ h => exact absurd rfl h2
          | up _ _ _ _ h => exact absurd rfl h2
          | down _ _ _ _ _ _ h => exact h
        · exact fun h => Walk.down _ _ _ _ h1 h2 h

theorem names_drop_lead (s : Str) (h : Abs s) :
    names (s.drop (max 1 (s.takeWhile (· == '/')).length)) = names s := by
  have hl : 1 ≤ (s.takeWhile (· == '/')).length := by
    have := (lead_ne s).2 h
    exact List.length_pos_iff.2 this
  have hs : s = s.takeWhile (· == '/') ++ s.dropWhile (· == '/') := (List.takeWhile_append_dropWhile).symm
  have hd : s.drop (s.takeWhile (· == '/')).length = s.dropWhile (· == '/') := by
    generalize s.takeWhile (· == '/') = a at hs ⊢
    generalize s.dropWhile (· == '/') = b at hs ⊢
    rw [hs]; simp
  rw [Nat.max_eq_right hl, hd]
  conv => rhs; rw [hs]
  exact (names_lead _ _ (lead_slashes s)).symm

/-- an absolute name, normalised: its leading slashes and the cleaned components -/
theorem normalizeAbs_eq (s : Str) (h : Abs s) :
    normalizeAbs s = lead s ++ withSlashes ((names s).foldl cleanStep []) := by
  have hl : 1 ≤ (s.takeWhile (· == '/')).length := List.length_pos_iff.2 ((lead_ne s).2 h)
  unfold normalizeAbs
  simp only
  rw [foldl_clean_names, names_drop_lead s h, Nat.max_eq_right hl]
  congr 1
  have := lead_slashes s
  symm
  rw [List.eq_replicate_iff]
  exact ⟨rfl, this⟩

theorem lead_append (sl t : Str) (h : Slashes sl) (ht : t.head? ≠ some '/') : lead (sl ++ t) = sl := by
  induction sl with
  | nil =>
    cases t with
    | nil => rfl
    | cons c r =>
      unfold lead
      rw [List.nil_append, List.takeWhile_cons_of_neg]
      simpa using ht
  | cons c r ih =>
    rw [h c List.mem_cons_self]
    unfold lead at ih ⊢
    rw [List.cons_append, List.takeWhile_cons_of_pos (by simp), ih (fun c hc => h c (List.mem_cons_of_mem _ hc))]

/-- a name that has been expanded -/
def Expanded (r : Str) : Prop := Abs r ∧ ∃ ns, (∀ x ∈ ns, Plain x) ∧ r = lead r ++ withSlashes ns

theorem names_clean_ws (s : Str) : ∀ x ∈ (names s).foldl cleanStep [], Plain x :=
  clean_plain (names s) [] (names_mem s) (by simp)

theorem abs_lead_append (s t : Str) (h : Abs s) : Abs (lead s ++ t) := by
  have := (lead_ne s).2 h
  obtain ⟨c, r, e⟩ := List.exists_cons_of_ne_nil this
  have hc := lead_slashes s c (by rw [e]; exact List.mem_cons_self)
  rw [e, hc]
  rfl

theorem normalizeAbs_expanded (s : Str) (h : Abs s) : Expanded (normalizeAbs s) ∧
    names (normalizeAbs s) = (names s).foldl cleanStep [] ∧ lead (normalizeAbs s) = lead s := by
  have hp := names_clean_ws s
  have hw : ∀ x ∈ (names s).foldl cleanStep [], Word x := fun x hx => (hp x hx).1
  have hl : lead (normalizeAbs s) = lead s := by
    rw [normalizeAbs_eq s h, lead_append _ _ (lead_slashes s) (withSlashes_head _ hw)]
  refine ⟨⟨?_, _, hp, ?_⟩, ?_, hl⟩
  · rw [normalizeAbs_eq s h]; exact abs_lead_append s _ h
  · rw [hl, normalizeAbs_eq s h]
  · rw [normalizeAbs_eq s h, names_lead _ _ (lead_slashes s), names_withSlashes _ hw]

theorem normalizeAbs_of_expanded (r : Str) (h : Expanded r) : normalizeAbs r = r := by
  obtain ⟨ha, ns, hp, hr⟩ := h
  have hw : ∀ x ∈ ns, Word x := fun x hx => (hp x hx).1
  have hn : names r = ns := by
    rw [hr, names_lead _ _ (lead_slashes r), names_withSlashes _ hw]
  rw [normalizeAbs_eq r ha, hn, clean_id ns [] hp, List.nil_append]
  exact hr.symm

/-! ## expand_path -/

theorem abs_append (b t : Str) (h : Abs b) : Abs (b ++ t) := by
  obtain ⟨q, rfl⟩ := cons_of_head b _ h
  rfl

/-- the base with a slash -/
theorem names_base (b p : Str) : names ((if b.getLast? = some '/' then b else b ++ ['/']) ++ p) = names b ++ names p := by
  split_ifs with h
  · obtain ⟨q, rfl⟩ := concat_of_last b _ h
    rw [List.append_assoc, List.singleton_append, names_slash, names_trail]
    intro c hc; simpa using hc
  · rw [List.append_assoc, List.singleton_append, names_slash]

theorem expand1_expanded (cwd : Str) (home : Str → Option Str) (path r : Str) (hc : Abs cwd)
    (h : expand1 cwd home path = some r) : Expanded r := by
  unfold expand1 at h
  split at h
  · split at h
    · cases h
    · split_ifs at h with ha
      cases h
      exact (normalizeAbs_expanded _ (abs_append _ _ ha)).1
  · cases h
    rename_i t
    exact (normalizeAbs_expanded ('/' :: t) rfl).1
  · cases h
    refine (normalizeAbs_expanded _ ?_).1
    apply abs_append
    split_ifs
    · exact hc
    · exact abs_append _ _ hc

theorem expandPath_expanded (cwd : Str) (home : Str → Option Str) (path : Str) (dir : Option Str) (r : Str) (hc : Abs cwd)
    (h : expandPath cwd home path dir = some r) : Expanded r := by
  unfold expandPath at h
  split at h
  · exact expand1_expanded cwd home _ r hc h
  · split at h
    · exact expand1_expanded cwd home _ r hc h
    · exact expand1_expanded cwd home _ r hc h
    · split at h
      · cases h
      · rename_i b hb
        cases h
        have := (expand1_expanded cwd home _ b hc hb).1
        refine (normalizeAbs_expanded _ ?_).1
        apply abs_append
        split_ifs
        · exact this
        · exact abs_append _ _ this

/-- C145: an expanded name begins at the root, has no component `.` or `..`, no empty one, no slash at the end, and
expanding it again, from anywhere, leaves it as it is -/
theorem C145_expand (cwd : Str) (home : Str → Option Str) (path : Str) (dir : Option Str) (r : Str)
    (hc : cwd.head? = some '/') (h : expandPath cwd home path dir = some r) :
    r.head? = some '/' ∧ ['.'] ∉ names r ∧ ['.', '.'] ∉ names r ∧
    (names r ≠ [] → r = lead r ++ withSlashes (names r)) ∧
    ∀ cwd' home' dir', expandPath cwd' home' r dir' = some r := by
  have hx := expandPath_expanded cwd home path dir r hc h
  obtain ⟨ha, ns, hp, hr⟩ := hx
  have hw : ∀ x ∈ ns, Word x := fun x hx => (hp x hx).1
  have hn : names r = ns := by
    rw [hr, names_lead _ _ (lead_slashes r), names_withSlashes _ hw]
  refine ⟨ha, ?_, ?_, ?_, ?_⟩
  · rw [hn]; exact fun hm => (hp _ hm).2.1 rfl
  · rw [hn]; exact fun hm => (hp _ hm).2.2 rfl
  · rw [hn]; exact fun _ => hr
  · intro cwd' home' dir'
    have hne := normalizeAbs_of_expanded r ⟨ha, ns, hp, hr⟩
    obtain ⟨q, hq⟩ := cons_of_head r _ ha
    have h1 : expand1 cwd' home' r = some r := by
      conv => rhs; rw [← hne]
      rw [hq]; rfl
    unfold expandPath
    cases dir' with
    | none => exact h1
    | some d => rw [hq] at h1 ⊢; exact h1

/-- C145: expanding a relative name goes from the directory, which is expanded itself, along the components -/
theorem C145_expand_walk (cwd : Str) (home : Str → Option Str) (path d : Str) (hc : cwd.head? = some '/')
    (hp : path.head? ≠ some '/' ∧ path.head? ≠ some '~') :
    expandPath cwd home path none = expandPath cwd home path (some cwd) ∧
    (expandPath cwd home d none = none → expandPath cwd home path (some d) = none) ∧
    ∀ b, expandPath cwd home d none = some b → ∃ r, expandPath cwd home path (some d) = some r ∧
      Walk (names b) (names path) (names r) ∧ lead r = lead b := by
  have key : ∀ b, Abs b → (names b).foldl cleanStep [] = names b →
      let r := normalizeAbs ((if b.getLast? = some '/' then b else b ++ ['/']) ++ path)
      names r = (names path).foldl cleanStep (names b) := by
    intro b hb hcl r
    have habs : Abs ((if b.getLast? = some '/' then b else b ++ ['/']) ++ path) := by
      apply abs_append
      split_ifs
      · exact hb
      · exact abs_append _ _ hb
    show names (normalizeAbs _) = _
    rw [(normalizeAbs_expanded _ habs).2.1, names_base, List.foldl_append, hcl]
  have hexp : ∀ b, Abs b → expandPath cwd home path (some d) = (match expand1 cwd home d with
      | none => none
      | some b => some (normalizeAbs ((if b.getLast? = some '/' then b else b ++ ['/']) ++ path))) := by
    intro b _
    unfold expandPath
    cases path with
    | nil => rfl
    | cons c t =>
      simp only [List.head?_cons, ne_eq, Option.some.injEq] at hp
      split
      · rename_i e; cases e
      · rename_i e
        split
        · rename_i e2; cases e2; exact absurd rfl hp.2
        · rename_i e2; cases e2; exact absurd rfl hp.1
        · cases e; rfl
  have hleadb : ∀ b, Abs b → Expanded b → lead (normalizeAbs ((if b.getLast? = some '/' then b else b ++ ['/']) ++ path)) = lead b := by
    intro b hb hx
    have habs : Abs ((if b.getLast? = some '/' then b else b ++ ['/']) ++ path) := by
      apply abs_append
      split_ifs
      · exact hb
      · exact abs_append _ _ hb
    rw [(normalizeAbs_expanded _ habs).2.2]
    obtain ⟨_, ns, hpl, hr⟩ := hx
    have hw : ∀ x ∈ ns, Word x := fun x hx => (hpl x hx).1
    cases ns with
    | nil =>
      simp only [withSlashes, List.append_nil] at hr
      have hsl : Slashes b := by rw [hr]; exact lead_slashes b
      have hlast : b.getLast? = some '/' := by
        obtain ⟨q, rfl⟩ := cons_of_head b _ hb
        rw [List.getLast?_eq_some_getLast (by simp)]
        rw [hsl _ (List.getLast_mem _)]
      rw [if_pos hlast, lead_append _ _ hsl hp.1, lead_of_slashes b hsl]
    | cons x ns =>
      have hlast : b.getLast? ≠ some '/' := by
        rw [hr, getLast?_app]
        · exact withSlashes_last _ hw
        · intro e
          have := names_withSlashes _ hw
          rw [e, names_nil] at this
          cases this
      rw [if_neg hlast]
      conv => lhs; rw [hr]
      rw [List.append_assoc, List.append_assoc, lead_append _ _ (lead_slashes b)]
      have hh := withSlashes_head _ hw
      cases e : withSlashes (x :: ns) with
      | nil =>
        have := names_withSlashes _ hw
        rw [e, names_nil] at this
        cases this
      | cons c t => rw [e] at hh; exact hh
  refine ⟨?_, ?_, ?_⟩
  · have h1 : expand1 cwd home cwd = some (normalizeAbs cwd) := by
      obtain ⟨q, rfl⟩ := cons_of_head cwd _ hc
      rfl
    have h2 : ∀ b : Str, Abs b → normalizeAbs ((if (normalizeAbs b).getLast? = some '/' then normalizeAbs b else normalizeAbs b ++ ['/']) ++ path)
        = normalizeAbs ((if b.getLast? = some '/' then b else b ++ ['/']) ++ path) := by
      intro b hb
      obtain ⟨hx, hn, hl⟩ := normalizeAbs_expanded b hb
      have hidem := congrArg names (normalizeAbs_of_expanded _ hx)
      rw [(normalizeAbs_expanded _ hx.1).2.1] at hidem
      have ha : ∀ b : Str, Abs b → Abs ((if b.getLast? = some '/' then b else b ++ ['/']) ++ path) := by
        intro b hb
        apply abs_append
        split_ifs
        · exact hb
        · exact abs_append _ _ hb
      rw [normalizeAbs_eq _ (ha _ hx.1), normalizeAbs_eq _ (ha b hb)]
      rw [names_base, names_base, List.foldl_append, List.foldl_append, hidem, hn]
      congr 1
      have l1 := (normalizeAbs_expanded _ (ha _ hx.1)).2.2
      rw [← l1, hleadb _ hx.1 hx, hl]
      have hbd : ∀ t : Str, t.head? ≠ some '/' → lead (b ++ '/' :: t) = lead b ∨ Slashes b := by
        intro t _
        rcases decompose b with hs | ⟨pre, w, sl, rfl, hw, hsl, hp⟩
        · exact Or.inr hs
        · left
          rw [List.append_assoc _ sl, lead_pre pre w _ hw, lead_pre pre w _ hw]
      rcases decompose b with hs | ⟨pre, w, sl, rfl, hw, hsl, hpp⟩
      · have hlast : b.getLast? = some '/' := by
          obtain ⟨q, rfl⟩ := cons_of_head b _ hb
          rw [List.getLast?_eq_some_getLast (by simp)]
          rw [hs _ (List.getLast_mem _)]
        rw [if_pos hlast, lead_append _ _ hs hp.1, lead_of_slashes b hs]
      · split_ifs
        · rw [List.append_assoc _ sl, lead_pre pre w _ hw, lead_pre pre w _ hw]
        · rw [List.append_assoc _ ['/'], List.append_assoc _ sl, lead_pre pre w _ hw, lead_pre pre w _ hw]
    have hrel : expand1 cwd home path = some (normalizeAbs ((if cwd.getLast? = some '/' then cwd else cwd ++ ['/']) ++ path)) := by
      unfold expand1
      cases path with
      | nil => rfl
      | cons c t =>
        simp only [List.head?_cons, ne_eq, Option.some.injEq] at hp
        split
        · rename_i e; cases e; exact absurd rfl hp.2
        · rename_i e; cases e; exact absurd rfl hp.1
        · rfl
    have hr2 : expandPath cwd home path (some cwd) = (match expand1 cwd home cwd with
        | none => none
        | some b => some (normalizeAbs ((if b.getLast? = some '/' then b else b ++ ['/']) ++ path))) := by
      unfold expandPath
      cases path with
      | nil => rfl
      | cons c t =>
        simp only [List.head?_cons, ne_eq, Option.some.injEq] at hp
        split
        · rename_i e; cases e
        · rename_i e
          split
          · rename_i e2; cases e2; exact absurd rfl hp.2
          · rename_i e2; cases e2; exact absurd rfl hp.1
          · cases e; rfl
    rw [hr2, h1]
    show expand1 cwd home path = _
    rw [hrel]
    simp only [h2 cwd hc]
  · intro h
    rw [hexp ['/'] rfl]
    have : expand1 cwd home d = none := h
    rw [this]
  · intro b hb
    have hb' : expand1 cwd home d = some b := hb
    have hx := expand1_expanded cwd home d b hc hb'
    refine ⟨_, by rw [hexp ['/'] rfl, hb'], ?_, hleadb b hx.1 hx⟩
    rw [walk_iff _ (fun x h => (names_mem path x h).1)]
    apply key b hx.1
    have hidem := congrArg names (normalizeAbs_of_expanded _ hx)
    rw [(normalizeAbs_expanded _ hx.1).2.1] at hidem
    exact hidem

example : expandPath "/home/u".toList (fun _ => none) "../x/./y//".toList none = some "/home/x/y".toList := by decide +kernel
example : expandPath "/w".toList (fun _ => none) "b".toList (some "a/..".toList) = some "/w/b".toList := by decide +kernel

/-- C145: a name that begins with `~` is followed from the home directory; without one, or with one that is not
absolute, ArgumentError is raised -/
theorem C145_expand_home (cwd : Str) (home : Str → Option Str) (user rest : Str) (dir : Option Str) (hu : '/' ∉ user)
    (hr : rest = [] ∨ rest.head? = some '/') :
    (∀ h, home user = some h → h.head? = some '/' → ∃ r, expandPath cwd home ('~' :: (user ++ rest)) dir = some r ∧
      Walk [] (names h ++ names rest) (names r)) ∧
    (home user = none → expandPath cwd home ('~' :: (user ++ rest)) dir = none) ∧
    (∀ h, home user = some h → h.head? ≠ some '/' → expandPath cwd home ('~' :: (user ++ rest)) dir = none) := by
  have htw : (user ++ rest).takeWhile (· != '/') = user ∧ (user ++ rest).dropWhile (· != '/') = rest := by
    induction user with
    | nil =>
      rcases hr with rfl | hr
      · exact ⟨rfl, rfl⟩
      · obtain ⟨q, rfl⟩ := cons_of_head rest _ hr
        exact ⟨by simp, by simp⟩
    | cons c u ih =>
      simp only [List.mem_cons, not_or] at hu
      obtain ⟨i1, i2⟩ := ih hu.2
      have : (c != '/') = true := by simpa using Ne.symm hu.1
      rw [List.cons_append, List.takeWhile_cons, List.dropWhile_cons]
      simp [this, i1, i2]
  have hred : expandPath cwd home ('~' :: (user ++ rest)) dir = (match home user with
      | none => none
      | some h => if h.head? = some '/' then some (normalizeAbs (h ++ rest)) else none) := by
    have : expand1 cwd home ('~' :: (user ++ rest)) = (match home user with
      | none => none
      | some h => if h.head? = some '/' then some (normalizeAbs (h ++ rest)) else none) := by
      unfold expand1
      simp only [htw.1, htw.2]
      cases home user <;> rfl
    unfold expandPath
    cases dir with
    | none => exact this
    | some d => exact this
  rw [hred]
  refine ⟨fun h hh ha => ?_, fun h => by rw [h], fun h hh ha => by rw [hh]; simp [ha]⟩
  rw [hh]
  refine ⟨normalizeAbs (h ++ rest), by simp [ha], ?_⟩
  have hnm : names (h ++ rest) = names h ++ names rest := by
    rcases hr with rfl | hr
    · simp [names_nil]
    · obtain ⟨q, rfl⟩ := cons_of_head rest _ hr
      rw [names_slash, names_cons_slash]
  rw [walk_iff]
  · rw [(normalizeAbs_expanded _ (abs_append _ _ ha)).2.1, hnm]
  · intro x hx
    rcases List.mem_append.1 hx with h | h
    · exact (names_mem _ x h).1
    · exact (names_mem _ x h).1

/-- C145: the directory of a name does not end with a slash, unless it is the root, and begins with no more than one -/
theorem C145_dirname_shape (p : Str) : dirnameOnce p = ['/'] ∨
    (dirnameOnce p ≠ [] ∧ (dirnameOnce p).getLast? ≠ some '/' ∧ ¬ ['/', '/'] <+: dirnameOnce p) := by
  rcases decompose p with hs | ⟨pre, b, sl, rfl, hb, hsl, hp⟩
  · rw [dirnameOnce_slashes p hs]
    split_ifs
    · right; exact ⟨by simp, by simp, by simp⟩
    · left; rfl
  · rcases hp with rfl | hp
    · rw [List.nil_append, dirnameOnce_one b sl hb hsl]
      right; exact ⟨by simp, by simp, by simp⟩
    · obtain ⟨q, rfl⟩ := concat_of_last pre _ hp
      rw [dirnameOnce_pre q b sl hb hsl]
      split_ifs with h
      · left; rfl
      · right
        obtain ⟨-, -, -, hl⟩ := dropTrail_eq q
        generalize dropTrail q = t at h hl ⊢
        have ht : t = lead t ++ t.dropWhile (· == '/') := (List.takeWhile_append_dropWhile).symm
        have hd := List.head?_dropWhile_not (· == '/') t
        generalize hu : t.dropWhile (· == '/') = u at ht hd
        unfold squeezeLead
        split_ifs with ha
        · rw [hu]
          have hne : u ≠ [] := by
            rintro rfl
            rw [List.append_nil] at ht
            have hsl := lead_slashes t
            rw [← ht] at hsl
            rw [List.getLast?_eq_some_getLast h, hsl _ (List.getLast_mem h)] at hl
            exact hl rfl
          refine ⟨by simp, ?_, ?_⟩
          · rw [ht, getLast?_app _ _ hne] at hl
            rw [← List.singleton_append, getLast?_app _ _ hne]
            exact hl
          · rintro ⟨w, hw⟩
            simp only [List.cons_append, List.nil_append, List.cons.injEq, true_and] at hw
            rw [← hw] at hd
            simp at hd
        · refine ⟨h, hl, ?_⟩
          rintro ⟨w, hw⟩
          rw [← hw] at ha
          simp at ha

example : dirnameOnce "///a//b".toList = "/a".toList := by decide +kernel

/-! ## absolute_path -/

/-- C145: `absolute_path` with a relative directory is relative, and does not resolve `..` -/
theorem C145_absolute_fails (cwd : Str) :
    absolutePath cwd "x".toList (some "y".toList) = "y/x".toList ∧
    absolutePath cwd "/a/../b".toList none = "/a/../b".toList :=
  ⟨rfl, rfl⟩

/-- C145: `absolute_path` is that of the joined components, from the root when the directory is.  Missing: the
directory is not made absolute, and nothing is resolved. -/
theorem C145_absolute_partial (cwd path : Str) (dir : Option Str) (hd : (dir.getD cwd).head? = some '/') :
    (absolutePath cwd path dir).head? = some '/' ∧
    names (absolutePath cwd path dir) = (if path.head? = some '/' then [] else names (dir.getD cwd)) ++ names path := by
  unfold absolutePath
  by_cases h : path.head? = some '/'
  · simp [h]
  · simp only [if_neg h]
    unfold pushPath
    split_ifs with h2
    · refine ⟨abs_append _ _ hd, ?_⟩
      rcases h2 with h2 | h2
      · rw [h2] at hd; cases hd
      · obtain ⟨q, e⟩ := concat_of_last _ _ h2
        rw [e, List.append_assoc, List.singleton_append, names_slash, names_trail]
        intro c hc; simpa using hc
    · exact ⟨abs_append _ _ hd, names_slash _ _⟩

/-! ## What the system is asked -/

/-- C145: `.` and `..` are taken out of a name before the system is asked: the name `a/..`, which is the current
directory, becomes the empty name, which names nothing; a slash at the end, which the system follows a link for and
refuses after a file, is dropped; `l/../x` asks for `x` also when `l` is a link to elsewhere -/
theorem C145_system_fails : toPath "a/..".toList = [] ∧ toPath "f/".toList = "f".toList ∧
    toPath "l/../x".toList = "x".toList ∧ toPath "/..".toList = "/..".toList := by decide +kernel

/-- C145: the system is asked for the name given, if its components are plain, one slash between each two.
Missing: every other name. -/
theorem C145_system_partial (ns : List Str) (root : Bool) (h : ∀ x ∈ ns, Plain x) (hne : ns ≠ []) :
    toPath ((if root then ['/'] else []) ++ withSlashes ns) = (if root then ['/'] else []) ++ withSlashes ns := by
  have hw : ∀ x ∈ ns, Word x := fun x hx => (h x hx).1
  have hhd : (((if root then ['/'] else []) ++ withSlashes ns).head? == some '/') = root := by
    cases root with
    | true => rfl
    | false => simpa using withSlashes_head ns hw
  have hsplit : ((splitSl ((if root then ['/'] else []) ++ withSlashes ns)).filter (fun c => c ≠ [] && c ≠ ['.'])) = ns := by
    have h1 : ns.filter (fun c => c ≠ [] && c ≠ ['.']) = ns := by
      rw [List.filter_eq_self]
      intro x hx
      simp [(h x hx).1.1, (h x hx).2.1]
    cases root with
    | true =>
      show (splitSl ('/' :: withSlashes ns)).filter _ = ns
      rw [show splitSl ('/' :: withSlashes ns) = [] :: splitSl (withSlashes ns) from by simp [splitSl],
        splitSl_withSlashes ns hne (fun x hx => (hw x hx).2), List.filter_cons_of_neg (by simp)]
      exact h1
    | false =>
      show (splitSl (withSlashes ns)).filter _ = ns
      rw [splitSl_withSlashes ns hne (fun x hx => (hw x hx).2)]
      exact h1
  have hdot : ¬ (((if root then ['/'] else []) ++ withSlashes ns) = ['.'] ∨
      ['.', '/'].isPrefixOf ((if root then ['/'] else []) ++ withSlashes ns) = true) := by
    cases root with
    | true => simp
    | false =>
      simp only [Bool.false_eq_true, if_false, List.nil_append]
      obtain ⟨x, r, rfl⟩ := List.exists_cons_of_ne_nil hne
      have hx := h x List.mem_cons_self
      have hs := splitSl_withSlashes (x :: r) hne (fun x hx => (hw x hx).2)
      rintro (e | e)
      · rw [e] at hs
        simp [splitSl] at hs
        exact hx.2.1 hs.1.symm
      · rw [List.isPrefixOf_iff_prefix] at e
        obtain ⟨t, ht⟩ := e
        rw [← ht] at hs
        simp [splitSl] at hs
        exact hx.2.1 hs.1.symm
  have hfold : ∀ (xs acc : List Str), (∀ x ∈ xs, Plain x) → xs.foldl normStep acc = acc ++ xs := by
    intro xs
    induction xs with
    | nil => simp
    | cons x xs ih =>
      intro acc hx
      have hn : normStep acc x = acc ++ [x] := by
        unfold normStep
        split
        · rw [if_neg (fun e => (hx x List.mem_cons_self).2.2 e.1)]
        · rfl
      rw [List.foldl_cons, hn, ih _ (fun y hy => hx y (List.mem_cons_of_mem _ hy))]
      simp
  have hc : components ((if root then ['/'] else []) ++ withSlashes ns) = ns := by
    unfold components
    simp only [if_neg hdot]
    exact hsplit
  unfold toPath normPath
  rw [hc, hfold ns [] h, hhd, List.nil_append]

example : toPath "/usr/lib".toList = "/usr/lib".toList := by decide +kernel

/-- C145: `File.split` is not the directory and the basename -/
theorem C145_split_fails :
    fileSplit "/".toList = (".".toList, "/".toList) ∧ dirnameOnce "/".toList = "/".toList ∧
    fileSplit "a/../b".toList = (".".toList, "b".toList) ∧ dirnameOnce "a/../b".toList = "a/..".toList ∧
    fileSplit "a/..".toList = (".".toList, []) ∧ base "a/..".toList = "..".toList := by decide +kernel

theorem dropLast_withSlashes (ns : List Str) (x : Str) (hx : ∀ y ∈ ns ++ [x], Word y) (hne : ns ≠ []) :
    dirnameOnce (withSlashes (ns ++ [x])) = withSlashes ns := by
  have hw : ∀ y ∈ ns, Word y := fun y hy => hx y (by simp [hy])
  rw [withSlashes_concat ns hne]
  have := dirnameOnce_pre (withSlashes ns) x [] (hx x (by simp)) (by intro c hc; cases hc)
  simp only [List.append_nil, List.append_assoc, List.singleton_append] at this
  have hd : dropTrail (withSlashes ns) = withSlashes ns := by
    have := dropTrail_append (withSlashes ns) [] (by intro c hc; cases hc) (withSlashes_last ns hw)
    simpa using this
  have hnn : withSlashes ns ≠ [] := by
    intro e
    have := names_withSlashes ns hw
    rw [e, names_nil] at this
    exact hne this.symm
  rw [this, hd, if_neg hnn]
  unfold squeezeLead
  rw [if_neg (withSlashes_head ns hw)]

/-- C145: of a relative name with plain components `File.split` is the directory and the basename.  Missing: names
with `.` or `..`, and the root. -/
theorem C145_split_partial (ns : List Str) (x : Str) (h : ∀ y ∈ ns ++ [x], Plain y) :
    fileSplit (withSlashes (ns ++ [x])) = (dirnameOnce (withSlashes (ns ++ [x])), base (withSlashes (ns ++ [x]))) ∧
    fileSplit ('/' :: withSlashes (ns ++ [x])) =
      (if ns = [] then ['/'] else '/' :: withSlashes ns, x) := by
  have hw : ∀ y ∈ ns ++ [x], Word y := fun y hy => (h y hy).1
  have hnp : ∀ root : Bool, normPath ((if root then ['/'] else []) ++ withSlashes (ns ++ [x])) = (root, ns ++ [x]) := by
    intro root
    have h1 : (normPath ((if root then ['/'] else []) ++ withSlashes (ns ++ [x]))).1 = root := by
      cases root with
      | true => rfl
      | false => simpa [normPath] using withSlashes_head (ns ++ [x]) hw
    have h2 := C145_system_partial (ns ++ [x]) root h (by simp)
    unfold toPath at h2
    rw [h1] at h2
    have h3 := List.append_cancel_left h2
    have hpl : ∀ y ∈ (normPath ((if root then ['/'] else []) ++ withSlashes (ns ++ [x]))).2, Word y := by
      have hcomp : ∀ s, ∀ y ∈ components s, Word y := by
        intro s y hy
        unfold components at hy
        simp only at hy
        have hf : y ∈ (splitSl s).filter (fun c => c ≠ [] && c ≠ ['.']) → Word y := by
          intro hm
          simp only [List.mem_filter, Bool.and_eq_true, decide_eq_true_eq] at hm
          exact ⟨hm.2.1, splitSl_mem s y hm.1⟩
        split_ifs at hy
        · rcases List.mem_cons.1 hy with rfl | hy
          · exact ⟨by simp, by simp⟩
          · exact hf hy
        · exact hf hy
      have hfold : ∀ (xs acc : List Str), (∀ y ∈ xs, Word y) → (∀ y ∈ acc, Word y) → ∀ y ∈ xs.foldl normStep acc, Word y := by
        intro xs
        induction xs with
        | nil => intro acc _ h; exact h
        | cons z zs ih =>
          intro acc hz ha
          rw [List.foldl_cons]
          apply ih _ (fun y hy => hz y (List.mem_cons_of_mem _ hy))
          have hcat : ∀ y ∈ acc ++ [z], Word y := by
            intro y hy
            rcases List.mem_append.1 hy with h | h
            · exact ha y h
            · simp at h; subst h; exact hz _ List.mem_cons_self
          intro y hy
          unfold normStep at hy
          split at hy
          · split_ifs at hy
            · exact ha y (List.dropLast_subset _ hy)
            · exact hcat y hy
          · exact hcat y hy
      exact hfold _ _ (hcomp _) (by simp)
    have h4 := congrArg names h3
    rw [names_withSlashes _ hpl, names_withSlashes _ hw] at h4
    exact Prod.ext h1 h4
  have hx := h x (by simp)
  have hr := hnp false
  have ha := hnp true
  simp only [Bool.false_eq_true, if_false, List.nil_append, if_true, List.singleton_append] at hr ha
  constructor
  · unfold fileSplit
    rw [hr]
    simp only [List.append_eq_nil_iff, List.cons_ne_self, and_false, if_false, Bool.false_eq_true, List.nil_append,
      List.dropLast_concat, List.getLast?_concat, hx.2.1, hx.2.2, or_self, reduceCtorEq]
    have hb : base (withSlashes (ns ++ [x])) = x := by
      rw [C145_basename, names_withSlashes _ hw]
      simp
    rw [hb]
    by_cases hne : ns = []
    · subst hne
      have : dirnameOnce x = ['.'] := by
        have := dirnameOnce_one x [] hx.1 (by intro c hc; cases hc)
        simpa using this
      simp [withSlashes, this]
    · rw [dropLast_withSlashes ns x hw hne, if_neg]
      intro e
      have := names_withSlashes ns (fun y hy => hw y (by simp [hy]))
      rw [e, names_nil] at this
      exact hne this.symm
  · unfold fileSplit
    rw [ha]
    simp only [List.append_eq_nil_iff, List.cons_ne_self, and_false, if_false, if_true,
      List.dropLast_concat, List.getLast?_concat, hx.2.1, hx.2.2, or_self, reduceCtorEq]
    by_cases hne : ns = []
    · subst hne; rfl
    · simp [hne]

example : fileSplit "a/b/c".toList = ("a/b".toList, "c".toList) := by decide +kernel

end Verif.PathName
