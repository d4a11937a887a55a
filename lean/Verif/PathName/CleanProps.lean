import Verif.PathName.ExpandProps

/-!
# Pathname: properties (C146)
-/

namespace Verif.PathName

/-- the components that are left of a name's -/
def aggr (ns : List Str) : List Str := ns.foldr aggrStep []

theorem plain_of_word (x : Str) (h : Word x) (h1 : x ≠ ['.']) (h2 : x ≠ ['.', '.']) : Plain x := ⟨h, h1, h2⟩

theorem aggr_shape (ns : List Str) (h : ∀ x ∈ ns, Word x) :
    ∃ k ps, aggr ns = List.replicate k ['.', '.'] ++ ps ∧ ∀ x ∈ ps, Plain x := by
  induction ns with
  | nil => exact ⟨0, [], rfl, by simp⟩
  | cons n ns ih =>
    obtain ⟨k, ps, e, hp⟩ := ih (fun x hx => h x (List.mem_cons_of_mem _ hx))
    have hs : aggr (n :: ns) = aggrStep n (aggr ns) := rfl
    rw [hs, e]
    unfold aggrStep
    split_ifs with h1 h2
    · exact ⟨k, ps, rfl, hp⟩
    · exact ⟨k + 1, ps, by rw [h2, List.replicate_succ, List.cons_append], hp⟩
    · have hn := plain_of_word n (h n List.mem_cons_self) h1 h2
      cases k with
      | zero =>
        refine ⟨0, n :: ps, ?_, ?_⟩
        · simp only [List.replicate_zero, List.nil_append]
          cases ps with
          | nil => rfl
          | cons p ps => simp [(hp p List.mem_cons_self).2.2]
        · intro x hx
          rcases List.mem_cons.1 hx with rfl | hx
          · exact hn
          · exact hp x hx
      | succ k =>
        refine ⟨k, ps, ?_, hp⟩
        simp [List.replicate_succ]

theorem aggr_walk (ns : List Str) (h : ∀ x ∈ ns, Word x) (d : List Str) :
    (aggr ns).foldl cleanStep d = ns.foldl cleanStep d := by
  induction ns generalizing d with
  | nil => rfl
  | cons n ns ih =>
    have ih' := ih (fun x hx => h x (List.mem_cons_of_mem _ hx))
    have hs : aggr (n :: ns) = aggrStep n (aggr ns) := rfl
    rw [List.foldl_cons, ← ih', hs]
    unfold aggrStep
    split_ifs with h1 h2
    · subst h1; simp [cleanStep]
    · rfl
    · have hw := h n List.mem_cons_self
      have hc : cleanStep d n = d ++ [n] := by simp [cleanStep, hw.1, h1, h2]
      rw [hc]
      generalize aggr ns = l
      cases l with
      | nil => simp [hc]
      | cons m l =>
        simp only
        split_ifs with h3
        · subst h3
          rw [List.foldl_cons]
          have : cleanStep (d ++ [n]) ['.', '.'] = d := by simp [cleanStep]
          rw [this]
        · rw [List.foldl_cons, hc]

theorem drop_dots (k : Nat) (ps : List Str) (h : ∀ x ∈ ps, Plain x) :
    (List.replicate k ['.', '.'] ++ ps).dropWhile (· == ['.', '.']) = ps := by
  induction k with
  | zero =>
    rw [List.replicate_zero, List.nil_append]
    cases ps with
    | nil => rfl
    | cons p ps => rw [List.dropWhile_cons_of_neg]; simpa using (h p List.mem_cons_self).2.2
  | succ k ih => rw [List.replicate_succ, List.cons_append, List.dropWhile_cons_of_pos (by simp), ih]

theorem word_dots : Word ['.', '.'] := ⟨by simp, by simp⟩

theorem shape_words (k : Nat) (ps : List Str) (h : ∀ x ∈ ps, Plain x) :
    ∀ x ∈ List.replicate k ['.', '.'] ++ ps, Word x := by
  intro x hx
  rcases List.mem_append.1 hx with hx | hx
  · rw [List.eq_of_mem_replicate hx]; exact word_dots
  · exact (h x hx).1

theorem withSlashes_ne (ns : List Str) (h : ∀ x ∈ ns, Word x) (hne : ns ≠ []) : withSlashes ns ≠ [] := by
  intro e
  have := names_withSlashes ns h
  rw [e, names_nil] at this
  exact hne this.symm

/-- what `cleanpath` gives -/
theorem cleanpath_eq (p : Str) :
    cleanpath p = if Abs p then '/' :: withSlashes ((aggr (names p)).dropWhile (· == ['.', '.']))
      else if aggr (names p) = [] then ['.'] else withSlashes (aggr (names p)) := by
  obtain ⟨k, ps, e, hp⟩ := aggr_shape (names p) (names_mem p)
  have hw := shape_words k ps hp
  have hpw : ∀ x ∈ ps, Word x := fun x hx => (hp x hx).1
  have hcp : cleanpath p = prepend (lead p) (join (if '/' ∈ base (lead p) then
      (aggr (names p)).dropWhile (· == ['.', '.']) else aggr (names p))) := by
    unfold cleanpath
    rw [splitNames_eq]
    rfl
  rw [hcp, base_slashes _ (lead_slashes p)]
  by_cases ha : Abs p
  · have hl := (lead_ne p).2 ha
    rw [if_neg hl, if_pos (by simp), if_pos ha, e, drop_dots k ps hp, join_words ps hpw]
    obtain ⟨c, r, hc⟩ := List.exists_cons_of_ne_nil hl
    have hcs := lead_slashes p c (by rw [hc]; exact List.mem_cons_self)
    have hd : dirnameOnce (lead p) = ['/'] := by rw [dirnameOnce_slashes _ (lead_slashes p), if_neg hl]
    unfold prepend
    rw [hd]
    have hb : base (['/'] ++ ['a']) = ['a'] := by decide +kernel
    simp only [hb, ne_eq, not_true_eq_false, if_false]
    split_ifs with h1 h2
    · rw [h1]
    · rfl
    · exact absurd (by rw [hc, hcs]; exact List.mem_cons_self) h2
  · have hl : lead p = [] := by
      apply Decidable.byContradiction
      intro h
      exact ha ((lead_ne p).1 h)
    rw [hl, if_pos rfl, if_neg (by simp), if_neg ha, e, join_words _ hw]
    unfold prepend
    by_cases hz : List.replicate k ['.', '.'] ++ ps = []
    · rw [if_pos hz, hz]; rfl
    · rw [if_neg hz, if_neg (withSlashes_ne _ hw hz), if_neg (by simp), List.nil_append]

/-- C146: a cleaned name begins at the root if the name does; its components are plain, behind as many `..` as
are left at the beginning of a relative name; one slash is between each two.  The name of the place itself is `.`. -/
theorem C146_cleanpath_shape (p : Str) :
    (p.head? = some '/' → ∃ ps, (∀ x ∈ ps, Plain x) ∧ cleanpath p = '/' :: withSlashes ps) ∧
    (p.head? ≠ some '/' → ∃ k ps, (∀ x ∈ ps, Plain x) ∧
      cleanpath p = if k = 0 ∧ ps = [] then ['.'] else withSlashes (List.replicate k ['.', '.'] ++ ps)) := by
  obtain ⟨k, ps, e, hp⟩ := aggr_shape (names p) (names_mem p)
  constructor
  · intro ha
    have ha : Abs p := ha
    refine ⟨ps, hp, ?_⟩
    rw [cleanpath_eq, if_pos ha, e, drop_dots k ps hp]
  · intro ha
    have ha : ¬ Abs p := ha
    refine ⟨k, ps, hp, ?_⟩
    rw [cleanpath_eq, if_neg ha, e]
    congr 1
    simp

example : cleanpath "a/.././../b//c/.".toList = "../b/c".toList ∧ cleanpath "/../a".toList = "/a".toList ∧
    cleanpath "a/..".toList = ".".toList := by decide +kernel

theorem foldl_drop_dots (k : Nat) (ps : List Str) (hp : ∀ x ∈ ps, Plain x) :
    (List.replicate k ['.', '.'] ++ ps).foldl cleanStep [] = ps := by
  induction k with
  | zero => rw [List.replicate_zero, List.nil_append, clean_id ps [] hp, List.nil_append]
  | succ k ih => rw [List.replicate_succ, List.cons_append, List.foldl_cons]; simpa [cleanStep] using ih

theorem names_cleanpath (p : Str) : names (cleanpath p) =
    if Abs p then (aggr (names p)).dropWhile (· == ['.', '.'])
    else if aggr (names p) = [] then [['.']] else aggr (names p) := by
  obtain ⟨k, ps, e, hp⟩ := aggr_shape (names p) (names_mem p)
  rw [cleanpath_eq]
  split_ifs with h1 h2
  · rw [names_cons_slash, names_withSlashes]
    rw [e, drop_dots k ps hp]; exact fun x hx => (hp x hx).1
  · exact names_word ['.'] ⟨by simp, by simp⟩
  · rw [names_withSlashes]
    rw [e]; exact shape_words k ps hp

theorem abs_cleanpath (p : Str) : Abs (cleanpath p) ↔ Abs p := by
  obtain ⟨k, ps, e, hp⟩ := aggr_shape (names p) (names_mem p)
  rw [cleanpath_eq]
  split_ifs with h1 h2
  · exact ⟨fun _ => h1, fun _ => rfl⟩
  · exact ⟨fun h => by simp [Abs] at h, fun h => absurd h h1⟩
  · have := withSlashes_head (aggr (names p)) (by rw [e]; exact shape_words k ps hp)
    exact ⟨fun h => absurd h this, fun h => absurd h h1⟩

theorem clean_foldl (p : Str) (d : List Str) (hd : Abs p → d = []) :
    (names (cleanpath p)).foldl cleanStep d = (names p).foldl cleanStep d := by
  obtain ⟨k, ps, e, hp⟩ := aggr_shape (names p) (names_mem p)
  rw [names_cleanpath, ← aggr_walk (names p) (names_mem p)]
  split_ifs with h1 h2
  · rw [hd h1, e, drop_dots k ps hp, clean_id ps [] hp, foldl_drop_dots k ps hp, List.nil_append]
  · rw [h2]; simp [cleanStep]
  · rfl

/-- C146: the cleaned name leads to the same place as the name, from every directory -/
theorem C146_cleanpath_walk (p : Str) (d r : List Str) (hd : p.head? = some '/' → d = []) :
    Walk d (names (cleanpath p)) r ↔ Walk d (names p) r := by
  rw [walk_iff _ (fun x h => (names_mem _ x h).1), walk_iff _ (fun x h => (names_mem _ x h).1), clean_foldl p d hd]

/-- C146: cleaning a cleaned name changes nothing -/
theorem C146_cleanpath_idempotent (p : Str) : cleanpath (cleanpath p) = cleanpath p := by
  obtain ⟨k, ps, e, hp⟩ := aggr_shape (names p) (names_mem p)
  have haggr : ∀ k, aggr (List.replicate k ['.', '.'] ++ ps) = List.replicate k ['.', '.'] ++ ps := by
    intro k
    have hps : aggr ps = ps := by
      clear e
      induction ps with
      | nil => rfl
      | cons x ps ih =>
        have hx := hp x List.mem_cons_self
        have hs : aggr (x :: ps) = aggrStep x (aggr ps) := rfl
        rw [hs, ih (fun y hy => hp y (List.mem_cons_of_mem _ hy))]
        unfold aggrStep
        rw [if_neg hx.2.1, if_neg hx.2.2]
        cases ps with
        | nil => rfl
        | cons y ps => simp [(hp y (by simp)).2.2]
    induction k with
    | zero => simpa using hps
    | succ k ih =>
      rw [List.replicate_succ, List.cons_append]
      have hs : ∀ l, aggr (['.', '.'] :: l) = aggrStep ['.', '.'] (aggr l) := fun _ => rfl
      rw [hs, ih]
      simp [aggrStep]
  rw [cleanpath_eq (cleanpath p), cleanpath_eq p]
  by_cases ha : Abs p
  · have h0 := names_cleanpath p
    rw [if_pos ha, e, drop_dots k ps hp, cleanpath_eq p, if_pos ha, e, drop_dots k ps hp] at h0
    have ha2 := haggr 0
    simp only [List.replicate_zero, List.nil_append] at ha2
    have hd := drop_dots 0 ps hp
    simp only [List.replicate_zero, List.nil_append] at hd
    rw [if_pos ha, e, drop_dots k ps hp, if_pos (show Abs ('/' :: withSlashes ps) from rfl), h0, ha2, hd]
  · have h0 := names_cleanpath p
    have h1 := abs_cleanpath p
    rw [cleanpath_eq p] at h0 h1
    simp only [if_neg ha] at h0 h1 ⊢
    rw [if_neg (fun h => ha (h1.1 h)), h0]
    split_ifs with h2 h3 h4 h5
    · rfl
    · exact absurd (by decide +kernel) h3
    · rw [e] at h4 h2
      rw [haggr k] at h4
      exact absurd h4 h2
    · rw [e, haggr k]

theorem foldl_up (k : Nat) (ps : List Str) (hps : ∀ x ∈ ps, Plain x) (d : List Str) :
    (List.replicate k ['.', '.'] ++ ps).foldl cleanStep d = d.take (d.length - k) ++ ps := by
  induction k generalizing d with
  | zero => rw [List.replicate_zero, List.nil_append, clean_id ps d hps]; simp
  | succ k ih =>
    rw [List.replicate_succ, List.cons_append, List.foldl_cons]
    have : cleanStep d ['.', '.'] = d.dropLast := by simp [cleanStep]
    rw [this, ih, List.dropLast_eq_take, List.take_take, List.length_take]
    congr 2
    omega

/-- C146: of relative names, `cleanpath` is the same exactly when they lead to the same place from everywhere -/
theorem C146_cleanpath_canonical (p q : Str) (hp : p.head? ≠ some '/') (hq : q.head? ≠ some '/') :
    cleanpath p = cleanpath q ↔ ∀ d r, (∀ x ∈ d, Plain x) → (Walk d (names p) r ↔ Walk d (names q) r) := by
  constructor
  · intro h d r _
    rw [← C146_cleanpath_walk p d r (fun e => absurd e hp), ← C146_cleanpath_walk q d r (fun e => absurd e hq), h]
  · intro h
    obtain ⟨k, ps, ep, hps⟩ := aggr_shape (names p) (names_mem p)
    obtain ⟨j, qs, eq, hqs⟩ := aggr_shape (names q) (names_mem q)
    -- a name longer than all
    have hfresh : ∀ l : List Str, ∃ n, ∀ x ∈ l, x.length < n := by
      intro l
      induction l with
      | nil => exact ⟨0, by simp⟩
      | cons y l ih =>
        obtain ⟨n, hn⟩ := ih
        refine ⟨n + y.length + 1, ?_⟩
        intro x hx
        rcases List.mem_cons.1 hx with rfl | hx
        · omega
        · have := hn x hx; omega
    obtain ⟨n, hn⟩ := hfresh (ps ++ qs)
    have hx : Plain (List.replicate (n + 1) 'x') := by
      refine ⟨⟨by simp, ?_⟩, ?_, ?_⟩
      · intro hm; exact absurd (List.eq_of_mem_replicate hm) (by decide)
      · intro e; rw [List.replicate_succ] at e; simp at e
      · intro e; rw [List.replicate_succ] at e; simp at e
    generalize hw : List.replicate (n + 1) 'x' = w at hx
    have hwl : w.length = n + 1 := by rw [← hw]; simp
    have hwp : w ∉ ps := fun hm => by have := hn w (by simp [hm]); omega
    have hwq : w ∉ qs := fun hm => by have := hn w (by simp [hm]); omega
    have hup := foldl_up
    have hsame := (h (List.replicate (k + j) w) ((names p).foldl cleanStep (List.replicate (k + j) w))
      (fun x hm => by rw [List.eq_of_mem_replicate hm]; exact hx)).1
      ((walk_iff _ (fun x h => (names_mem _ x h).1) _ _).2 rfl)
    rw [walk_iff _ (fun x h => (names_mem _ x h).1), ← aggr_walk (names p) (names_mem p), ← aggr_walk (names q) (names_mem q),
      ep, eq, hup k ps hps, hup j qs hqs, List.length_replicate, List.take_replicate, List.take_replicate,
      Nat.min_eq_left (by omega), Nat.min_eq_left (by omega)] at hsame
    have hc := congrArg (List.count w) hsame
    rw [List.count_append, List.count_append, List.count_replicate_self, List.count_replicate_self,
      List.count_eq_zero_of_not_mem hwp, List.count_eq_zero_of_not_mem hwq] at hc
    have hkj : k = j := by omega
    subst hkj
    have hpq : ps = qs := List.append_cancel_left hsame
    rw [cleanpath_eq p, cleanpath_eq q, if_neg (show ¬ Abs p from hp), if_neg (show ¬ Abs q from hq), ep, eq, hpq]

/-- C146: of a name that begins with one slash `cleanpath` is `File.expand_path` -/
theorem C146_cleanpath_expand (p cwd : Str) (home : Str → Option Str) (dir : Option Str) (h : lead p = ['/']) :
    expandPath cwd home p dir = some (cleanpath p) := by
  have ha : Abs p := (lead_ne p).1 (by rw [h]; simp)
  have h1 : expandPath cwd home p dir = some (normalizeAbs p) := by
    obtain ⟨q, rfl⟩ := cons_of_head p _ ha
    cases dir <;> rfl
  obtain ⟨k, ps, e, hp⟩ := aggr_shape (names p) (names_mem p)
  rw [h1, normalizeAbs_eq p ha, h, cleanpath_eq, if_pos ha, ← aggr_walk (names p) (names_mem p), e, drop_dots k ps hp,
    foldl_drop_dots k ps hp]
  rfl

/-! ## relative_path_from -/

theorem stripCommon_spec (ds bs : List Str) : ∃ cm, ds = cm ++ (stripCommon ds bs).1 ∧ bs = cm ++ (stripCommon ds bs).2 ∧
    (∀ x, (stripCommon ds bs).1.head? = some x → (stripCommon ds bs).2.head? ≠ some x) := by
  induction ds generalizing bs with
  | nil => exact ⟨[], by simp [stripCommon], by simp [stripCommon], by simp [stripCommon]⟩
  | cons d ds ih =>
    cases bs with
    | nil => exact ⟨[], by simp [stripCommon], by simp [stripCommon], by simp [stripCommon]⟩
    | cons b bs =>
      rw [stripCommon]
      split_ifs with h
      · subst h
        obtain ⟨cm, e1, e2, e3⟩ := ih bs
        exact ⟨d :: cm, by rw [List.cons_append, ← e1], by rw [List.cons_append, ← e2], e3⟩
      · refine ⟨[], rfl, rfl, ?_⟩
        simp only [List.head?_cons, Option.some.injEq, ne_eq]
        rintro x rfl hx
        exact h hx.symm

/-- the components left of a cleaned name, `.` taken out -/
def core (p : Str) : List Str := (names (cleanpath p)).filter (fun n => n ≠ ['.'])

theorem core_eq (p : Str) : core p = if Abs p then (aggr (names p)).dropWhile (· == ['.', '.']) else aggr (names p) := by
  obtain ⟨k, ps, e, hp⟩ := aggr_shape (names p) (names_mem p)
  have hf : ∀ k, (List.replicate k ['.', '.'] ++ ps).filter (fun n => decide (n ≠ ['.'])) = List.replicate k ['.', '.'] ++ ps := by
    intro k
    rw [List.filter_eq_self]
    intro x hx
    rcases List.mem_append.1 hx with hx | hx
    · rw [List.eq_of_mem_replicate hx]; decide
    · simpa using (hp x hx).2.1
  unfold core
  rw [names_cleanpath]
  split_ifs with h1 h2
  · rw [e, drop_dots k ps hp]
    simpa using hf 0
  · rw [h2]; rfl
  · rw [e]; exact hf k

theorem core_shape (p : Str) : ∃ k ps, core p = List.replicate k ['.', '.'] ++ ps ∧ (∀ x ∈ ps, Plain x) ∧
    (Abs p → k = 0) := by
  obtain ⟨k, ps, e, hp⟩ := aggr_shape (names p) (names_mem p)
  rw [core_eq]
  split_ifs with h
  · exact ⟨0, ps, by rw [e, drop_dots k ps hp]; rfl, hp, fun _ => rfl⟩
  · exact ⟨k, ps, e, hp, fun h' => absurd h' h⟩

theorem core_walk (p : Str) (d : List Str) (hd : Abs p → d = []) :
    (core p).foldl cleanStep d = (names p).foldl cleanStep d := by
  obtain ⟨k, ps, e, hp⟩ := aggr_shape (names p) (names_mem p)
  rw [core_eq, ← aggr_walk (names p) (names_mem p)]
  split_ifs with h
  · rw [hd h, e, drop_dots k ps hp, clean_id ps [] hp, foldl_drop_dots k ps hp, List.nil_append]
  · rfl

theorem lead_cleanpath (p : Str) : lead (cleanpath p) = if Abs p then ['/'] else [] := by
  obtain ⟨k, ps, e, hp⟩ := aggr_shape (names p) (names_mem p)
  by_cases ha : Abs p
  · rw [if_pos ha, cleanpath_eq, if_pos ha, e, drop_dots k ps hp]
    have := lead_append ['/'] (withSlashes ps) (by intro c hc; simpa using hc) (withSlashes_head ps (fun x hx => (hp x hx).1))
    exact this
  · rw [if_neg ha]
    apply Decidable.byContradiction
    intro h
    exact ha ((abs_cleanpath p).1 ((lead_ne _).1 h))

theorem relative_eq (dest bdir : Str) : relativePathFrom dest bdir =
    if ¬ (Abs dest ↔ Abs bdir) then none
    else if (stripCommon (core dest) (core bdir)).2.contains ['.', '.'] then none
    else
      let rel := (stripCommon (core dest) (core bdir)).2.map (fun _ => ['.', '.']) ++ (stripCommon (core dest) (core bdir)).1
      if rel = [] then some ['.'] else some (join rel) := by
  unfold relativePathFrom
  simp only [splitNames_eq, lead_cleanpath]
  by_cases h1 : Abs dest <;> by_cases h2 : Abs bdir
  · simp only [h1, h2, if_true, if_false, ne_eq, not_true_eq_false, iff_self]; rfl
  · rw [if_pos (by simp [h1, h2]), if_pos (by simp [h1, h2])]
  · rw [if_pos (by simp [h1, h2]), if_pos (by simp [h1, h2])]
  · simp only [h1, h2, if_true, if_false, ne_eq, not_true_eq_false, iff_self]; rfl

theorem plain_of_mem_shape (k : Nat) (ps : List Str) (hp : ∀ x ∈ ps, Plain x) (x : Str)
    (h : x ∈ List.replicate k ['.', '.'] ++ ps) (hx : x ≠ ['.', '.']) : Plain x := by
  rcases List.mem_append.1 h with h | h
  · exact absurd (List.eq_of_mem_replicate h) hx
  · exact hp x h

/-- C146: from the base, the relative path leads to the destination -/
theorem C146_relative (dest bdir rel : Str) (h : relativePathFrom dest bdir = some rel) (d b r : List Str)
    (hd : dest.head? = some '/' → d = []) (hb : Walk d (names bdir) b) (hr : Walk d (names dest) r) :
    rel.head? ≠ some '/' ∧ Walk b (names rel) r := by
  rw [relative_eq] at h
  split_ifs at h with h1 h2
  have h1' := h1
  obtain ⟨cm, e1, e2, -⟩ := stripCommon_spec (core dest) (core bdir)
  generalize hds : (stripCommon (core dest) (core bdir)).1 = ds at *
  generalize hbs : (stripCommon (core dest) (core bdir)).2 = bs at *
  obtain ⟨k, ps, ek, hps, _⟩ := core_shape dest
  obtain ⟨j, qs, ej, hqs, _⟩ := core_shape bdir
  have hdw : ∀ x ∈ ds, Word x := by
    intro x hx
    have : x ∈ core dest := by rw [e1]; exact List.mem_append_right _ hx
    rw [ek] at this
    exact shape_words k ps hps x this
  have hbp : ∀ x ∈ bs, Plain x := by
    intro x hx
    have : x ∈ core bdir := by rw [e2]; exact List.mem_append_right _ hx
    rw [ej] at this
    refine plain_of_mem_shape j qs hqs x this ?_
    rintro rfl
    exact h2 (by simpa using hx)
  rw [walk_iff _ (fun x h => (names_mem _ x h).1)] at hb hr
  rw [← core_walk bdir d (fun e => hd (h1'.2 e)), e2, List.foldl_append, clean_id bs _ hbp] at hb
  rw [← core_walk dest d hd, e1, List.foldl_append] at hr
  generalize cm.foldl cleanStep d = m at hb hr
  have hup : ∀ (bs m : List Str), (bs.map (fun _ => ['.', '.'])).foldl cleanStep (m ++ bs) = m := by
    intro bs m
    have := foldl_up bs.length [] (by simp) (m ++ bs)
    rw [List.append_nil, List.append_nil] at this
    rw [List.map_const', this]
    simp
  have hrw : ∀ x ∈ bs.map (fun _ => ['.', '.']) ++ ds, Word x := by
    intro x hx
    rcases List.mem_append.1 hx with hx | hx
    · obtain ⟨_, _, rfl⟩ := List.mem_map.1 hx; exact word_dots
    · exact hdw x hx
  simp only at h
  split_ifs at h with h3
  · cases h
    refine ⟨by simp, ?_⟩
    rw [walk_iff _ (fun x h => (names_mem _ x h).1), names_word ['.'] ⟨by simp, by simp⟩]
    simp only [List.append_eq_nil_iff, List.map_eq_nil_iff] at h3
    rw [hr, hb, h3.1, h3.2]
    simp [cleanStep]
  · cases h
    rw [join_words _ hrw]
    refine ⟨withSlashes_head _ hrw, ?_⟩
    rw [walk_iff _ (fun x h => (names_mem _ x h).1), names_withSlashes _ hrw, List.foldl_append, hb, hup, hr]

example : relativePathFrom "/a/b/c".toList "/a/d".toList = some "../b/c".toList ∧
    relativePathFrom "x".toList "../y".toList = none ∧ relativePathFrom "../x".toList "y/z".toList = some "../../../x".toList := by
  decide +kernel

theorem strip_dots (k j : Nat) (ps qs : List Str) (hp : ∀ x ∈ ps, Plain x) (hq : ∀ x ∈ qs, Plain x) :
    (stripCommon (List.replicate k ['.', '.'] ++ ps) (List.replicate j ['.', '.'] ++ qs)).2.contains ['.', '.'] = true ↔ k < j := by
  induction k generalizing j with
  | zero =>
    cases j with
    | zero =>
      simp only [List.replicate_zero, List.nil_append, Nat.lt_irrefl, iff_false]
      obtain ⟨cm, -, e2, -⟩ := stripCommon_spec ps qs
      intro h
      have hm : ['.', '.'] ∈ qs := by
        rw [e2]; exact List.mem_append_right _ (by simpa using h)
      exact (hq _ hm).2.2 rfl
    | succ j =>
      simp only [List.replicate_zero, List.nil_append, Nat.succ_pos, iff_true, List.replicate_succ, List.cons_append]
      cases ps with
      | nil => simp [stripCommon]
      | cons p ps =>
        rw [stripCommon, if_neg (hp p List.mem_cons_self).2.2]
        simp
  | succ k ih =>
    cases j with
    | zero =>
      simp only [List.replicate_zero, List.nil_append, Nat.not_lt_zero, iff_false]
      obtain ⟨cm, -, e2, -⟩ := stripCommon_spec (List.replicate (k + 1) ['.', '.'] ++ ps) qs
      intro h
      have hm : ['.', '.'] ∈ qs := by
        rw [e2]; exact List.mem_append_right _ (by simpa using h)
      exact (hq _ hm).2.2 rfl
    | succ j =>
      rw [List.replicate_succ, List.replicate_succ, List.cons_append, List.cons_append, stripCommon, if_pos rfl, ih]
      omega

/-- C146: there is no relative path exactly when one of the two begins at the root and the other does not, or the
base goes further up than the destination -/
theorem C146_relative_raises (dest bdir : Str) : relativePathFrom dest bdir = none ↔
    ¬ (dest.head? = some '/' ↔ bdir.head? = some '/') ∨
    (names (cleanpath dest)).count ['.', '.'] < (names (cleanpath bdir)).count ['.', '.'] := by
  have hcount : ∀ p, ∀ k ps, core p = List.replicate k ['.', '.'] ++ ps → (∀ x ∈ ps, Plain x) →
      (names (cleanpath p)).count ['.', '.'] = k := by
    intro p k ps e hp
    have h1 : (names (cleanpath p)).count ['.', '.'] = (core p).count ['.', '.'] := by
      unfold core
      rw [List.count_filter (by decide)]
    rw [h1, e, List.count_append, List.count_replicate_self, List.count_eq_zero_of_not_mem]
    · omega
    · exact fun hm => (hp _ hm).2.2 rfl
  obtain ⟨k, ps, ek, hps, _⟩ := core_shape dest
  obtain ⟨j, qs, ej, hqs, _⟩ := core_shape bdir
  rw [hcount dest k ps ek hps, hcount bdir j qs ej hqs, relative_eq, ek, ej]
  have hs := strip_dots k j ps qs hps hqs
  by_cases h1 : (Abs dest ↔ Abs bdir)
  · have h1' : (dest.head? = some '/' ↔ bdir.head? = some '/') := h1
    rw [if_neg (fun h => h h1)]
    simp only [h1', not_true_eq_false, false_or]
    by_cases h2 : k < j
    · rw [if_pos (hs.2 h2)]; simp [h2]
    · rw [if_neg (fun h => h2 (hs.1 h))]
      simp only [h2, iff_false]
      split_ifs <;> simp
  · rw [if_pos h1]
    have h1' : ¬ (dest.head? = some '/' ↔ bdir.head? = some '/') := h1
    simp only [h1', not_false_eq_true, true_or]

end Verif.PathName
