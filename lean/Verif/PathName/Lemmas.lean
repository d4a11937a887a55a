import Verif.PathName.Model
import Mathlib.Tactic.SplitIfs

/-! # Lemmas on names of files -/

namespace Verif.PathName

/-- a component that can be in a name -/
def Word (x : Str) : Prop := x ≠ [] ∧ '/' ∉ x

/-- nothing but slashes -/
def Slashes (s : Str) : Prop := ∀ c ∈ s, c = '/'

/-- the components of a name: what is between slashes -/
def names (s : Str) : List Str := (splitSl s).filter (fun c => c ≠ [])

theorem splitSl_ne (s : Str) : splitSl s ≠ [] := by
  cases s with
  | nil => simp [splitSl]
  | cons c r =>
    rw [splitSl]
    split_ifs
    · simp
    · split <;> simp

theorem splitSl_cons (c : Char) (r : Str) (h : c ≠ '/') :
    ∃ x xs, splitSl r = x :: xs ∧ splitSl (c :: r) = (c :: x) :: xs := by
  cases e : splitSl r with
  | nil => exact absurd e (splitSl_ne r)
  | cons x xs => exact ⟨x, xs, rfl, by rw [splitSl, if_neg h, e]⟩

theorem splitSl_slash (a b : Str) : splitSl (a ++ '/' :: b) = splitSl a ++ splitSl b := by
  induction a with
  | nil => simp [splitSl]
  | cons c a ih =>
    by_cases h : c = '/'
    · subst h
      simp only [List.cons_append, splitSl, if_true, ih]
    · obtain ⟨x, xs, e1, e2⟩ := splitSl_cons c (a ++ '/' :: b) h
      obtain ⟨y, ys, f1, f2⟩ := splitSl_cons c a h
      rw [List.cons_append, e2, f2]
      rw [ih, f1] at e1
      simp only [List.cons_append, List.cons.injEq] at e1
      rw [← e1.1, ← e1.2]
      rfl

theorem splitSl_word (x : Str) (h : '/' ∉ x) : splitSl x = [x] := by
  induction x with
  | nil => rfl
  | cons c r ih =>
    simp only [List.mem_cons, not_or] at h
    obtain ⟨y, ys, e1, e2⟩ := splitSl_cons c r (Ne.symm h.1)
    rw [ih h.2] at e1
    simp only [List.cons.injEq] at e1
    rw [e2, ← e1.1, ← e1.2]

theorem names_slash (a b : Str) : names (a ++ '/' :: b) = names a ++ names b := by
  simp [names, splitSl_slash]

theorem names_nil : names [] = [] := by simp [names, splitSl]

theorem names_cons_slash (b : Str) : names ('/' :: b) = names b := by
  have := names_slash [] b
  simpa [names_nil] using this

theorem names_lead (sl a : Str) (h : Slashes sl) : names (sl ++ a) = names a := by
  induction sl with
  | nil => rfl
  | cons c r ih =>
    have hc := h c List.mem_cons_self
    subst hc
    rw [List.cons_append, names_cons_slash, ih (fun c hc => h c (List.mem_cons_of_mem _ hc))]

theorem names_slashes (sl : Str) (h : Slashes sl) : names sl = [] := by
  have := names_lead sl [] h
  simpa [names_nil] using this

theorem names_trail (a sl : Str) (h : Slashes sl) : names (a ++ sl) = names a := by
  cases sl with
  | nil => simp
  | cons c r =>
    have hc := h c List.mem_cons_self
    subst hc
    rw [names_slash, names_slashes r (fun c hc => h c (List.mem_cons_of_mem _ hc)), List.append_nil]

theorem names_word (x : Str) (h : Word x) : names x = [x] := by
  simp [names, splitSl_word x h.2, h.1]

theorem splitSl_mem (s x : Str) (h : x ∈ splitSl s) : '/' ∉ x := by
  induction s generalizing x with
  | nil => simp [splitSl] at h; subst h; simp
  | cons c r ih =>
    by_cases hc : c = '/'
    · subst hc
      simp only [splitSl, if_true, List.mem_cons] at h
      rcases h with rfl | h
      · simp
      · exact ih x h
    · obtain ⟨y, ys, e1, e2⟩ := splitSl_cons c r hc
      rw [e2] at h
      rcases List.mem_cons.1 h with rfl | h
      · have := ih y (by rw [e1]; exact List.mem_cons_self)
        simp only [List.mem_cons, not_or]
        exact ⟨Ne.symm hc, this⟩
      · exact ih x (by rw [e1]; exact List.mem_cons_of_mem _ h)

theorem names_mem (s x : Str) (h : x ∈ names s) : Word x := by
  simp only [names, List.mem_filter, decide_eq_true_eq] at h
  exact ⟨h.2, splitSl_mem s x h.1⟩

theorem names_withSlashes (ns : List Str) (h : ∀ x ∈ ns, Word x) : names (withSlashes ns) = ns := by
  induction ns with
  | nil => exact names_nil
  | cons x r ih =>
    cases r with
    | nil => exact names_word x (h x List.mem_cons_self)
    | cons y r =>
      rw [withSlashes, names_slash, names_word x (h x List.mem_cons_self),
        ih (fun z hz => h z (List.mem_cons_of_mem _ hz))]
      rfl

/-! ## The end of a name -/

theorem dropTrail_eq (s : Str) : ∃ sl, Slashes sl ∧ s = dropTrail s ++ sl ∧
    (dropTrail s).getLast? ≠ some '/' := by
  refine ⟨(s.reverse.takeWhile (· == '/')).reverse, ?_, ?_, ?_⟩
  · intro c hc
    rw [List.mem_reverse] at hc
    have := List.all_takeWhile (l := s.reverse) (p := (· == '/'))
    simpa using List.all_eq_true.1 this c hc
  · unfold dropTrail
    rw [← List.reverse_append, List.takeWhile_append_dropWhile, List.reverse_reverse]
  · unfold dropTrail
    rw [List.getLast?_reverse]
    intro h
    have := List.head?_dropWhile_not (· == '/') s.reverse
    rw [h] at this
    simp at this

theorem slashes_of_all (s : Str) (h : s.all (· == '/') = true) : Slashes s := by
  intro c hc
  simpa using List.all_eq_true.1 h c hc

theorem all_of_slashes (s : Str) (h : Slashes s) : s.all (· == '/') = true := by
  rw [List.all_eq_true]
  intro c hc
  simpa using h c hc

theorem dropTrail_slashes (s : Str) (h : Slashes s) : dropTrail s = [] := by
  unfold dropTrail
  rw [List.reverse_eq_nil_iff]
  have := List.dropWhile_append_of_pos (p := (· == '/')) (l₁ := s.reverse) (l₂ := [])
    (fun c hc => by simpa using h c (List.mem_reverse.1 hc))
  simpa using this

theorem dropTrail_append (a sl : Str) (h : Slashes sl) (ha : a.getLast? ≠ some '/') :
    dropTrail (a ++ sl) = a := by
  unfold dropTrail
  rw [List.reverse_append, List.dropWhile_append_of_pos]
  · have : a.reverse.dropWhile (· == '/') = a.reverse := by
      cases e : a.reverse with
      | nil => rfl
      | cons c r =>
        have hl : a.getLast? = some c := by
          rw [← List.head?_reverse, e]; rfl
        rw [List.dropWhile_cons_of_neg]
        rw [hl] at ha
        simpa using ha
    rw [this, List.reverse_reverse]
  · intro c hc
    simpa using h c (List.mem_reverse.1 hc)

/-- a name is slashes, or what comes before its last component, that, and slashes -/
theorem decompose (s : Str) : Slashes s ∨ ∃ pre b sl, s = pre ++ b ++ sl ∧ Word b ∧ Slashes sl ∧
    (pre = [] ∨ pre.getLast? = some '/') := by
  obtain ⟨sl, hsl, hs, hl⟩ := dropTrail_eq s
  generalize dropTrail s = t at *
  by_cases ht : t = []
  · left; rw [hs, ht]; exact hsl
  · right
    refine ⟨(t.reverse.dropWhile (· != '/')).reverse, (t.reverse.takeWhile (· != '/')).reverse, sl, ?_, ⟨?_, ?_⟩, hsl, ?_⟩
    · rw [← List.reverse_append, List.takeWhile_append_dropWhile, List.reverse_reverse, hs]
    · intro h
      rw [List.reverse_eq_nil_iff] at h
      cases e : t.reverse with
      | nil => exact ht (by simpa using e)
      | cons c r =>
        have hc : t.getLast? = some c := by rw [← List.head?_reverse, e]; rfl
        rw [e] at h
        by_cases hcs : c = '/'
        · rw [hc, hcs] at hl; exact hl rfl
        · rw [List.takeWhile_cons_of_pos (by simpa using hcs)] at h; cases h
    · rw [List.mem_reverse]
      intro h
      have := List.all_takeWhile (l := t.reverse) (p := (· != '/'))
      have := List.all_eq_true.1 this _ h
      simp at this
    · rw [List.getLast?_reverse]
      cases e : t.reverse.dropWhile (· != '/') with
      | nil => left; rfl
      | cons c r =>
        right
        have := List.head?_dropWhile_not (· != '/') t.reverse
        rw [e] at this
        simp at this
        simp [this]

theorem names_pre (pre b sl : Str) (hb : Word b) (hsl : Slashes sl) (hp : pre = [] ∨ pre.getLast? = some '/') :
    names (pre ++ b ++ sl) = names pre ++ [b] := by
  rw [names_trail _ _ hsl]
  rcases hp with rfl | hp
  · rw [List.nil_append, names_word b hb, names_nil]; rfl
  · obtain ⟨q, rfl⟩ : ∃ q, pre = q ++ ['/'] := by
      refine ⟨pre.dropLast, ?_⟩
      have hne : pre ≠ [] := by rintro rfl; simp at hp
      rw [List.getLast?_eq_some_getLast hne] at hp
      simp only [Option.some.injEq] at hp
      rw [← hp, List.dropLast_concat_getLast hne]
    rw [List.append_assoc, List.singleton_append, names_slash, names_word b hb, names_trail]
    intro c hc; simpa using hc

theorem names_eq_nil (s : Str) : names s = [] ↔ Slashes s := by
  constructor
  · intro h
    rcases decompose s with hs | ⟨pre, b, sl, rfl, hb, hsl, hp⟩
    · exact hs
    · rw [names_pre pre b sl hb hsl hp] at h; simp at h
  · exact names_slashes s

theorem find_last (l : List Str) : l.reverse.find? (fun c => c ≠ []) = (l.filter (fun c => c ≠ [])).getLast? := by
  rw [← List.head?_filter, List.filter_reverse, List.head?_reverse]

theorem base_eq (s : Str) : base s = if s = [] then [] else ((names s).getLast?).getD ['/'] := by
  unfold base
  rw [find_last]
  split_ifs
  · rfl
  · show _ = ((List.filter (fun c => decide (c ≠ [])) (splitSl s)).getLast?).getD ['/']
    cases (List.filter (fun c => decide (c ≠ [])) (splitSl s)).getLast? <;> rfl

theorem base_pre (pre b sl : Str) (hb : Word b) (hsl : Slashes sl) (hp : pre = [] ∨ pre.getLast? = some '/') :
    base (pre ++ b ++ sl) = b := by
  rw [base_eq, names_pre pre b sl hb hsl hp, if_neg]
  · simp
  · intro h
    simp only [List.append_eq_nil_iff] at h
    exact hb.1 h.1.2

theorem base_slashes (s : Str) (h : Slashes s) : base s = if s = [] then [] else ['/'] := by
  rw [base_eq, names_slashes s h]; rfl

end Verif.PathName
