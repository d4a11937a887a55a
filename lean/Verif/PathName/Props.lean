import Verif.PathName.CleanLemmas

/-!
# Names of files: properties (C145)

`names s` is what is between the slashes of a name.  `Walk d ns r`: who stands in the directory `d`, a list
of names from the root, and follows `ns` comes to `r`, when no name is a link.
-/

namespace Verif.PathName

/-- following names from a directory -/
inductive Walk : List Str → List Str → List Str → Prop
  | done (d : List Str) : Walk d [] d
  | here (d ns r : List Str) : Walk d ns r → Walk d (['.'] :: ns) r
  | top (ns r : List Str) : Walk [] ns r → Walk [] (['.', '.'] :: ns) r
  | up (d : List Str) (x : Str) (ns r : List Str) : Walk d ns r → Walk (d ++ [x]) (['.', '.'] :: ns) r
  | down (d : List Str) (x : Str) (ns r : List Str) : x ≠ ['.'] → x ≠ ['.', '.'] → Walk (d ++ [x]) ns r →
      Walk d (x :: ns) r

/-! ## join -/

/-- C145: the components of a join are those of its parts -/
theorem C145_join (ps : List Str) : names (join ps) = ps.flatMap names := by
  cases ps with
  | nil => exact names_nil
  | cons p ps => exact names_foldl_join p ps

example : join ["usr/".toList, "/bin//".toList, "x".toList] = "usr/bin//x".toList := by decide +kernel

/-- C145: a join and `split("/")` undo each other -/
theorem C145_join_split (ps : List Str) (hne : ps ≠ []) (h : ∀ p ∈ ps, p ≠ [] ∧ '/' ∉ p) :
    splitSl (join ps) = ps := by
  rw [join_words ps h]
  exact splitSl_withSlashes ps hne (fun p hp => (h p hp).2)

/-- C145: parts can be joined from the left one after another -/
theorem C145_join_step (ps qs : List Str) (hne : ps ≠ []) : join (ps ++ qs) = join (join ps :: qs) := by
  cases ps with
  | nil => exact absurd rfl hne
  | cons p ps => simp [join, List.foldl_append]

/-- C145: a join begins at the root when its first part does, or is empty with parts after it -/
theorem C145_join_absolute (p : Str) (ps : List Str) :
    (join (p :: ps)).head? = some '/' ↔ p.head? = some '/' ∨ (p = [] ∧ ps ≠ []) := by
  show Abs _ ↔ Abs p ∨ _
  have key : ∀ (ps : List Str) (a : Str), a ≠ [] → (Abs (ps.foldl joinStep a) ↔ Abs a) := by
    intro ps
    induction ps with
    | nil => intro a _; rfl
    | cons q qs ih =>
      intro a ha
      have hj := joinStep_abs a q
      simp only [ha, or_false] at hj
      rw [List.foldl_cons, ih _ _, hj]
      unfold joinStep
      simp only
      split_ifs with h1 h2
      · simp only [Bool.and_eq_true, beq_iff_eq] at h1
        obtain ⟨t, rfl⟩ := cons_of_head q _ h1.2
        simp
      · simp
      · simp [ha]
  cases ps with
  | nil => simp [join]
  | cons q qs =>
    by_cases hp : p = []
    · subst hp
      simp only [join, List.foldl_cons, true_and, ne_eq, reduceCtorEq, not_false_eq_true, or_true, iff_true]
      have ha : Abs (joinStep [] q) := (joinStep_abs [] q).2 (Or.inr rfl)
      rw [key]
      · exact ha
      · intro e; rw [e] at ha; simp [Abs] at ha
    · simp only [join, hp, false_and, or_false]
      exact key (q :: qs) p hp

/-! ## basename, dirname -/

/-- C145: the basename is the last component; of slashes alone it is a slash -/
theorem C145_basename (p : Str) :
    base p = if names p ≠ [] then (names p).getLastD [] else if p = [] then [] else ['/'] := by
  rcases decompose p with hs | ⟨pre, b, sl, rfl, hb, hsl, hp⟩
  · rw [base_slashes p hs, names_slashes p hs]; simp
  · rw [base_pre pre b sl hb hsl hp, names_pre pre b sl hb hsl hp]
    simp [List.getLastD_concat]

example : base "a/b//".toList = "b".toList := by decide +kernel

/-- C145: with a suffix, the basename is that without the suffix, or unchanged if it does not end so -/
theorem C145_suffix (p suffix : Str) (h : suffix ≠ ['.', '*']) :
    (suffix <:+ base p → basename p suffix ++ suffix = base p) ∧
    (¬ suffix <:+ base p → basename p suffix = base p) := by
  unfold basename
  constructor
  · rintro ⟨t, ht⟩
    by_cases h1 : suffix = []
    · simp [h1]
    · by_cases h2 : p = []
      · subst h2
        simp [base] at ht
        exact absurd ht.2 h1
      · rw [if_neg h1, if_neg h2, if_neg h, ← ht]
        rw [if_pos (by rw [List.isSuffixOf_iff_suffix]; exact ⟨t, rfl⟩)]
        simp
  · intro hn
    by_cases h1 : suffix = []
    · simp [h1]
    · by_cases h2 : p = []
      · subst h2
        simp [h1, base]
      · rw [if_neg h1, if_neg h2, if_neg h, if_neg (by rw [List.isSuffixOf_iff_suffix]; exact hn)]

example : basename "a/b.rb".toList ".rb".toList = "b".toList := by decide +kernel

/-- C145: a basename that is the suffix itself becomes empty, which names no file -/
theorem C145_suffix_fails : basename ".rb".toList ".rb".toList = [] := by decide +kernel

/-- C145: the directory of a name has its components without the last, and begins at the root if the name does;
of a relative name with one component it is `.` -/
theorem C145_dirname (p : Str) :
    (p.head? = some '/' → (dirnameOnce p).head? = some '/' ∧ names (dirnameOnce p) = (names p).dropLast) ∧
    (p.head? ≠ some '/' → 2 ≤ (names p).length →
      (dirnameOnce p).head? ≠ some '/' ∧ names (dirnameOnce p) = (names p).dropLast) ∧
    (p.head? ≠ some '/' → (names p).length ≤ 1 → dirnameOnce p = ['.']) := by
  rcases decompose p with hs | ⟨pre, b, sl, rfl, hb, hsl, hp⟩
  · rw [names_slashes p hs, dirnameOnce_slashes p hs]
    cases p with
    | nil => simp
    | cons c r =>
      have := hs c List.mem_cons_self
      subst this
      simp [names_slashes ['/'] (by intro c hc; simpa using hc)]
  · rw [names_pre pre b sl hb hsl hp]
    rcases hp with rfl | hp
    · have h0 : (b ++ sl).head? ≠ some '/' := by
        obtain ⟨c, r, rfl⟩ := List.exists_cons_of_ne_nil hb.1
        exact word_head (c :: r) hb
      rw [List.nil_append, dirnameOnce_one b sl hb hsl, names_nil]
      exact ⟨fun h => absurd h h0, fun _ h => by simp at h, fun _ _ => rfl⟩
    · obtain ⟨q, rfl⟩ := concat_of_last pre _ hp
      rw [dirnameOnce_pre q b sl hb hsl]
      have hq : names (q ++ ['/']) = names q := names_trail q ['/'] (by intro c hc; simpa using hc)
      have hhd : (q ++ ['/'] ++ b ++ sl).head? = some '/' ↔ (q = [] ∨ q.head? = some '/') := by
        cases q <;> simp
      rw [hq, List.dropLast_concat]
      obtain ⟨sl', hsl', hs', hd⟩ := dropTrail_eq q
      by_cases hdq : dropTrail q = []
      · rw [if_pos hdq]
        have hq2 : Slashes q := by rw [hs', hdq]; exact hsl'
        have hq3 : q = [] ∨ q.head? = some '/' := by
          cases q with
          | nil => exact Or.inl rfl
          | cons c r => right; rw [hq2 c List.mem_cons_self]; rfl
        refine ⟨fun _ => ⟨rfl, ?_⟩, fun h => absurd (hhd.2 hq3) h, fun h => absurd (hhd.2 hq3) h⟩
        rw [names_slashes q hq2, names_slashes ['/'] (by intro c hc; simpa using hc)]
      · rw [if_neg hdq, names_squeezeLead, names_dropTrail]
        have hne : q ≠ [] := by rintro rfl; exact hdq rfl
        have hhd2 : (dropTrail q).head? = q.head? := by
          conv => rhs; rw [hs']
          obtain ⟨c, r, e⟩ := List.exists_cons_of_ne_nil hdq
          rw [e]; rfl
        have hsq : (squeezeLead (dropTrail q)).head? = q.head? := by
          unfold squeezeLead
          split_ifs with h
          · rw [← hhd2, h]; rfl
          · exact hhd2
        rw [hsq]
        refine ⟨fun h => ⟨(hhd.1 h).resolve_left hne, rfl⟩, fun h _ => ⟨fun e => h (hhd.2 (Or.inr e)), rfl⟩, fun h hl => ?_⟩
        exfalso
        have hz : names q = [] := by
          cases e : names q with
          | nil => rfl
          | cons x y => rw [e] at hl; simp at hl
        have hsl := (names_eq_nil q).1 hz
        exact hdq (dropTrail_slashes q hsl)

example : dirnameOnce "//usr//local///bin//".toList = "/usr//local".toList := by decide +kernel
example : dirnameOnce "a".toList = ['.'] ∧ dirnameOnce "/a".toList = ['/'] := by decide +kernel

/-- C145: the directory and the basename of a name, joined, name it again -/
theorem C145_dirname_basename (p : Str) (h : names p ≠ []) :
    (names (join [dirnameOnce p, base p])).filter (· ≠ ['.']) = (names p).filter (· ≠ ['.']) ∧
    ((join [dirnameOnce p, base p]).head? = some '/' ↔ p.head? = some '/') := by
  obtain ⟨h1, h2, h3⟩ := C145_dirname p
  have hb : base p = (names p).getLastD [] := by rw [C145_basename, if_pos h]
  have hbm : (names p).getLastD [] ∈ names p := by
    rw [List.getLastD_eq_getLast?, List.getLast?_eq_some_getLast h]
    exact List.getLast_mem h
  have hw := names_mem p _ hbm
  have hj : names (join [dirnameOnce p, base p]) = names (dirnameOnce p) ++ [(names p).getLastD []] := by
    rw [C145_join, hb, List.flatMap_cons, List.flatMap_cons, names_word _ hw]
    rfl
  have hsplit : names p = (names p).dropLast ++ [(names p).getLastD []] := by
    rw [List.getLastD_eq_getLast?, List.getLast?_eq_some_getLast h]
    exact (List.dropLast_concat_getLast h).symm
  have habs : (join [dirnameOnce p, base p]).head? = some '/' ↔
      (dirnameOnce p).head? = some '/' ∨ dirnameOnce p = [] := by
    rw [C145_join_absolute]; simp
  rw [habs, hj]
  by_cases ha : p.head? = some '/'
  · obtain ⟨e1, e2⟩ := h1 ha
    rw [e2, ← hsplit]
    exact ⟨rfl, by simp [e1, ha]⟩
  · by_cases hl : 2 ≤ (names p).length
    · obtain ⟨e1, e2⟩ := h2 ha hl
      rw [e2, ← hsplit]
      refine ⟨rfl, ?_⟩
      have : dirnameOnce p ≠ [] := by
        intro e
        rw [e, names_nil] at e2
        have := congrArg List.length e2
        simp at this
        omega
      simp [e1, ha, this]
    · have e := h3 ha (by omega)
      rw [e]
      have hz : (names p).dropLast = [] := by
        apply List.eq_nil_of_length_eq_zero
        simp; omega
      rw [hz, List.nil_append] at hsplit
      refine ⟨?_, by simp [ha]⟩
      conv => rhs; rw [hsplit]
      rw [names_word ['.'] ⟨by simp, by simp⟩]
      simp

/-- C145: a level takes so many components off; from a relative name with no more than that `.` is left -/
theorem C145_dirname_level (p : Str) (n : Nat) :
    (p.head? = some '/' → (dirname p n).head? = some '/' ∧ names (dirname p n) = (names p).take ((names p).length - n)) ∧
    (p.head? ≠ some '/' → n < (names p).length →
      (dirname p n).head? ≠ some '/' ∧ names (dirname p n) = (names p).take ((names p).length - n)) ∧
    (p.head? ≠ some '/' → (names p).length ≤ n → 0 < n → dirname p n = ['.']) := by
  induction n generalizing p with
  | zero =>
    simp only [dirname, Nat.sub_zero, List.take_length, and_true]
    exact ⟨id, fun h _ => h, fun _ _ h => absurd h (by omega)⟩
  | succ n ih =>
    obtain ⟨h1, h2, h3⟩ := C145_dirname p
    rw [dirname]
    by_cases he : dirnameOnce p = p
    · rw [if_pos he]
      rw [he] at h1 h2 h3
      refine ⟨fun h => ⟨h, ?_⟩, fun h hl => ⟨h, ?_⟩, fun h hl _ => ?_⟩
      · have := (h1 h).2
        have hz : names p = [] := by
          have := congrArg List.length this
          simp at this
          exact List.eq_nil_of_length_eq_zero (by omega)
        rw [hz]; simp
      · have := (h2 h (by omega)).2
        have := congrArg List.length this
        simp at this
        omega
      · by_cases hl2 : (names p).length ≤ 1
        · exact h3 h hl2
        · have := (h2 h (by omega)).2
          have := congrArg List.length this
          simp at this
          omega
    · rw [if_neg he]
      obtain ⟨i1, i2, i3⟩ := ih (dirnameOnce p)
      have htake : ∀ m, ((names p).dropLast).take ((names p).dropLast.length - m) =
          (names p).take ((names p).length - (m + 1)) := by
        intro m
        rw [List.dropLast_eq_take, List.take_take, List.length_take]
        congr 1
        omega
      refine ⟨fun h => ?_, fun h hl => ?_, fun h hl hn => ?_⟩
      · obtain ⟨e1, e2⟩ := h1 h
        obtain ⟨j1, j2⟩ := i1 e1
        refine ⟨j1, ?_⟩
        rw [j2, e2, htake]
      · obtain ⟨e1, e2⟩ := h2 h (by omega)
        obtain ⟨j1, j2⟩ := i2 e1 (by rw [e2]; simp; omega)
        refine ⟨j1, ?_⟩
        rw [j2, e2, htake]
      · by_cases hl2 : (names p).length ≤ 1
        · have e := h3 h hl2
          rw [e] at i3 ⊢
          cases n with
          | zero => rfl
          | succ n => exact i3 (by simp) (by rw [names_word ['.'] ⟨by simp, by simp⟩]; simp) (by omega)
        · obtain ⟨e1, e2⟩ := h2 h (by omega)
          exact i3 e1 (by rw [e2]; simp; omega) (by omega)

example : dirname "/a/b/c".toList 2 = "/a".toList ∧ dirname "a/b/c".toList 3 = ['.'] := by decide +kernel

/-! ## extname -/

theorem lastDot_spec (b : Str) : ∀ i, lastDot b = some i →
    i < b.length ∧ b[i]? = some '.' ∧ '.' ∉ b.drop (i + 1) := by
  induction b with
  | nil => intro i h; simp [lastDot] at h
  | cons c r ih =>
    intro i h
    have hnone : lastDot r = none → '.' ∉ r := by
      clear ih h
      induction r with
      | nil => simp
      | cons d s ih =>
        intro h
        rw [lastDot] at h
        cases e : lastDot s with
        | some j => rw [e] at h; simp at h
        | none =>
          rw [e] at h
          simp at h
          simp only [List.mem_cons, not_or]
          exact ⟨Ne.symm h, ih e⟩
    rw [lastDot] at h
    cases e : lastDot r with
    | some j =>
      rw [e] at h
      simp at h
      subst h
      obtain ⟨a1, a2, a3⟩ := ih j e
      exact ⟨by simp; omega, by simpa using a2, by simpa using a3⟩
    | none =>
      rw [e] at h
      simp at h
      obtain ⟨rfl, rfl⟩ := h
      exact ⟨by simp, by simp, by simpa using hnone e⟩

theorem lastDot_none (r : Str) : lastDot r = none ↔ '.' ∉ r := by
  induction r with
  | nil => simp [lastDot]
  | cons d s ih =>
    rw [lastDot]
    cases e : lastDot s with
    | some j =>
      have : ¬ lastDot s = none := by rw [e]; simp
      rw [ih] at this
      simp only [reduceCtorEq, List.mem_cons, false_iff]
      exact fun hn => this (fun hm => hn (Or.inr hm))
    | none =>
      simp only [ite_eq_right_iff, reduceCtorEq, imp_false, List.mem_cons, not_or, ih.1 e, not_false_eq_true, and_true]
      exact ⟨fun h => Ne.symm h, fun h => Ne.symm h⟩

theorem base_no_trail (p : Str) (h : p.getLast? ≠ some '/') : (splitSl p).getLast?.getD [] = base p := by
  rcases decompose p with hs | ⟨pre, b, sl, rfl, hb, hsl, hp⟩
  · cases p with
    | nil => rfl
    | cons c r =>
      exfalso
      have hne : (c :: r) ≠ [] := by simp
      rw [List.getLast?_eq_some_getLast hne] at h
      exact h (by rw [hs _ (List.getLast_mem hne)])
  · cases sl with
    | cons c r =>
      exfalso
      have hne : (c :: r) ≠ [] := by simp
      rw [getLast?_app _ _ hne, List.getLast?_eq_some_getLast hne] at h
      exact h (by rw [hsl _ (List.getLast_mem hne)])
    | nil =>
      rw [base_pre pre b [] hb hsl hp, List.append_nil]
      rcases hp with rfl | hp
      · rw [List.nil_append, splitSl_word b hb.2]; rfl
      · obtain ⟨q, rfl⟩ := concat_of_last pre _ hp
        rw [List.append_assoc, List.singleton_append, splitSl_slash, splitSl_word b hb.2]
        simp

/-- C145: a name's basename without extension and its extension make its basename; the extension begins with
its only dot, and a name that begins with a dot and has no other has none.  Missing: names that end with a slash,
and basenames that begin with two dots. -/
theorem C145_ext_partial (p : Str) (h : p.getLast? ≠ some '/') (h2 : ¬ ['.', '.'] <+: base p) :
    basename p ['.', '*'] ++ extname p = base p ∧
    (extname p = [] ∨ ∃ e, extname p = '.' :: e ∧ '.' ∉ e) ∧
    (extname p = [] ↔ '.' ∉ (base p).drop 1) := by
  have hb : basename p ['.', '*'] = baseNoExt p := by
    unfold basename
    rw [if_neg (by simp), if_pos rfl]
    split_ifs with h
    · subst h; rfl
    · rfl
  rw [hb]
  have hext : extname p = (match lastDot (base p) with
      | some pos => if ((base p).take pos).all (· == '.') then []
        else if pos + 1 < (base p).length then (base p).drop pos else ['.']
      | none => []) := by
    unfold extname
    simp only [base_no_trail p h]
    cases lastDot (base p) <;> rfl
  unfold baseNoExt
  rw [hext]
  clear hext
  cases e : lastDot (base p) with
  | none =>
    have hn := (lastDot_none _).1 e
    simp only [List.append_nil, true_or, true_and, true_iff]
    refine ⟨?_, fun hm => hn (List.mem_of_mem_drop hm)⟩
    split_ifs with h0
    · subst h0; rfl
    · rfl
  | some i =>
    obtain ⟨a1, a2, a3⟩ := lastDot_spec _ i e
    have hp0 : p ≠ [] := by rintro rfl; simp [base] at a1
    simp only [if_neg hp0]
    obtain ⟨c, r, hcr⟩ := List.exists_cons_of_ne_nil (show base p ≠ [] by intro h0; rw [h0] at a1; simp at a1)
    have hdrop : (base p).drop i = '.' :: (base p).drop (i + 1) := by
      rw [List.drop_eq_getElem_cons a1]
      rw [List.getElem?_eq_getElem a1] at a2
      simp only [Option.some.injEq] at a2
      rw [a2]
    cases i with
    | zero =>
      simp only [List.take_zero, List.all_nil, if_true, Nat.lt_irrefl, gt_iff_lt, if_false, List.append_nil, true_and,
        true_or, true_iff]
      exact a3
    | succ i =>
      have hall : ¬ ((base p).take (i + 1)).all (· == '.') = true := by
        intro hall
        rw [List.all_eq_true] at hall
        apply h2
        have h0 := hall c (by rw [hcr]; simp)
        simp at h0
        subst h0
        have : r.head? = some '.' := by
          cases i with
          | zero =>
            rw [hcr] at a2
            simp at a2
            rw [List.head?_eq_getElem?]
            exact a2
          | succ i =>
            cases r with
            | nil => rw [hcr] at a1; simp at a1
            | cons d s =>
              have h1 := hall d (by rw [hcr]; simp)
              simp at h1
              rw [h1]; rfl
        obtain ⟨s, rfl⟩ := cons_of_head r _ this
        rw [hcr]
        exact ⟨s, rfl⟩
      rw [if_neg hall]
      simp only [gt_iff_lt, Nat.succ_pos, if_true]
      have hx : (if i + 1 + 1 < (base p).length then (base p).drop (i + 1) else ['.']) = (base p).drop (i + 1) := by
        split_ifs with hl
        · rfl
        · rw [hdrop, List.drop_eq_nil_of_le (by omega)]
      rw [hx]
      refine ⟨List.take_append_drop _ _, Or.inr ⟨_, hdrop, a3⟩, ?_⟩
      rw [hdrop]
      simp only [reduceCtorEq, false_iff]
      refine fun hn => hn ?_
      apply List.mem_of_getElem? (i := i)
      rw [List.getElem?_drop, Nat.add_comm]
      exact a2

example : basename "a/b.tar.gz".toList ['.', '*'] = "b.tar".toList ∧ extname "a/b.tar.gz".toList = ".gz".toList ∧
    extname "a/.bashrc".toList = [] := by decide +kernel

/-- C145: a slash after the name hides its extension, while its basename is the same; of a basename that begins
with two dots, the part before the last dot is taken although there is no extension -/
theorem C145_ext_fails : extname "foo.rb/".toList = [] ∧ base "foo.rb/".toList = "foo.rb".toList ∧
    basename "..a".toList ['.', '*'] = ".".toList ∧ extname "..a".toList = [] := by decide +kernel

end Verif.PathName
