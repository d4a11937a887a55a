import Verif.Arr.SearchLemmas

/-!
# C102: binary search finds what a search from the start would find
-/

namespace Verif.Arr

/-! ## Arrays -/

/-- Find-minimum: with a block that answers false up to a place and true from there on, the first element with true. -/
theorem C102_array_find_minimum (size : Nat) (f : Nat → Ans) (hb : ∀ i, i < size → f i = .yes ∨ f i = .no)
    (hm : ∀ i j, i ≤ j → j < size → f i = .yes → f j = .yes) :
    (bsearchIndex size f = .nil ∧ ∀ i, i < size → f i = .no) ∨
    ∃ i, bsearchIndex size f = .at i ∧ i < size ∧ f i = .yes ∧ ∀ j, j < i → f j = .no := by
  rcases Nat.eq_zero_or_pos size with h | h
  · left
    subst h
    exact ⟨by simp [bsearchIndex, bsearchLoop, finish], by omega⟩
  · exact bsearchLoop_min size f hb hm size none 0 size (by omega) (fun _ => h) (by simp) (by omega) (Nat.le_refl _)
      (by omega) (by omega)

example : bsearchIndex 5 (fun i => if 3 ≤ i then .yes else .no) = .at 3 := by decide +kernel

/-- Find-any: what is found answers 0. -/
theorem C102_array_find_any_sound_partial (size : Nat) (f : Nat → Ans) (hf : ∀ i, i < size → ∃ v, f i = .num v) :
    bsearchIndex size f = .nil ∨ ∃ i, bsearchIndex size f = .at i ∧ i < size ∧ f i = .num 0 := by
  rcases bsearchLoop_exact size f size none 0 size rfl (by simp) (Nat.le_refl _) hf with h | ⟨i, h1, -, h3, h4⟩
  · exact .inl h
  · exact .inr ⟨i, h1, h3, h4⟩

/-- But the search goes the wrong way: `[0, 4, 7, 10, 12].bsearch { |x| 12 <=> x }` is nil.  The block answers as Ruby
asks for, positive for the elements before what is looked for. -/
theorem C102_array_find_any_fails :
    ∃ (size : Nat) (v : Nat → Int), (∀ i j, i ≤ j → j < size → v j ≤ v i) ∧ (∃ i, i < size ∧ v i = 0) ∧
      bsearchIndex size (fun i => .num (v i)) = .nil := by
  refine ⟨5, fun i => if i < 4 then 1 else 0, ?_, ⟨4, by omega, by simp⟩, by decide +kernel⟩
  intro i j h1 h2
  dsimp only
  split <;> split <;> omega

/-- With the answers the other way round (negative before, positive behind: `x <=> 12`) it finds one if there is one. -/
theorem C102_array_find_any_reversed (size : Nat) (v : Nat → Int) (hv : ∀ i j, i ≤ j → j < size → v i ≤ v j) :
    (bsearchIndex size (fun i => .num (v i)) = .nil ∧ ∀ i, i < size → v i ≠ 0) ∨
    ∃ i, bsearchIndex size (fun i => .num (v i)) = .at i ∧ i < size ∧ v i = 0 := by
  rcases C102_array_find_any_sound_partial size (fun i => .num (v i)) (fun i _ => ⟨v i, rfl⟩) with h | ⟨i, h1, h2, h3⟩
  · exact .inl ⟨h, bsearchLoop_rising size _ v (fun _ _ => rfl) hv size none 0 size rfl (by simp) (Nat.le_refl _)
      (by omega) (by omega) h⟩
  · exact .inr ⟨i, h1, h2, by simpa using h3⟩

/-! ## Ranges of integers -/

/-- `i` is in the range. -/
def InRange (b e : Option Int) (excl : Bool) (i : Int) : Prop :=
  (∀ x, b = some x → x ≤ i) ∧ (∀ x, e = some x → i ≤ x ∧ (excl = true → i < x))

/-- What is found is in the range and answers true or 0. -/
theorem C102_range_sound (f : Int → Ans) (b e : Option Int) (excl : Bool) (s : Int)
    (h : BsearchInt f b e excl (some (some s))) : InRange b e excl s ∧ (f s = .yes ∨ f s = .num 0) := by
  have key : ∀ lo hi, some (some s) = (if lo > hi then some none else searchLoop f lo hi none) →
      lo ≤ s ∧ s ≤ hi ∧ (f s = .yes ∨ f s = .num 0) := by
    intro lo hi h
    split at h
    · simp at h
    · rcases searchLoop_sound f _ lo hi none s rfl h.symm with h | h
      · simp at h
      · exact h
  cases b with
  | none =>
    cases e with
    | none => simp [BsearchInt] at h
    | some e =>
      simp only [BsearchInt, Option.map_some] at h
      obtain ⟨lo, h1, h2⟩ := h
      cases lo with
      | none => simp at h2
      | some lo =>
        obtain ⟨h3, h4, h5⟩ := key lo _ h2
        refine ⟨⟨by simp, ?_⟩, h5⟩
        intro x hx
        simp only [Option.some.injEq] at hx
        subst hx
        split at h4
        · exact ⟨by omega, fun _ => by omega⟩
        · exact ⟨h4, fun h => absurd h (by assumption)⟩
  | some b =>
    cases e with
    | none =>
      simp only [BsearchInt, Option.map_none] at h
      obtain ⟨hi, h1, h2⟩ := h
      cases hi with
      | none => simp at h2
      | some hi =>
        obtain ⟨h3, h4, h5⟩ := key _ hi h2
        refine ⟨⟨?_, by simp⟩, h5⟩
        intro x hx
        simp only [Option.some.injEq] at hx
        omega
    | some e =>
      simp only [BsearchInt, Option.map_some] at h
      obtain ⟨h3, h4, h5⟩ := key _ _ h
      refine ⟨⟨?_, ?_⟩, h5⟩
      · intro x hx
        simp only [Option.some.injEq] at hx
        omega
      · intro x hx
        simp only [Option.some.injEq] at hx
        subst hx
        split at h4
        · exact ⟨by omega, fun _ => by omega⟩
        · exact ⟨h4, fun h => absurd h (by assumption)⟩

/-- How a search between bounds, whatever they come from, gives one over the range: `P` holds of the result of a search
from `lo` to `hi` when all of the range below `lo` is out of question, and all above `hi`. -/
theorem range_cases (f : Int → Ans) (b e : Option Int) (excl : Bool) (P : Option Int → Prop)
    (hbe : b ≠ none ∨ e ≠ none)
    (hfin : ∀ lo hi, b = some lo → (∀ i, InRange b e excl i ↔ lo ≤ i ∧ i ≤ hi) →
      ∃ r, (if lo > hi then some none else searchLoop f lo hi none) = some r ∧ P r)
    (hdown : b = none → ∀ hi, (∀ i, InRange b e excl i ↔ i ≤ hi) →
      ∃ lo, ScanDown f hi 1 (some lo) ∧ ∃ r, (if lo > hi then some none else searchLoop f lo hi none) = some r ∧ P r)
    (hup : e = none → ∀ lo, (∀ i, InRange b e excl i ↔ lo ≤ i) →
      ∃ hi, ScanUp f lo 1 (some hi) ∧ ∃ r, (if lo > hi then some none else searchLoop f lo hi none) = some r ∧ P r) :
    ∃ r, (∀ r', BsearchInt f b e excl r' ↔ r' = some r) ∧ P r := by
  cases b with
  | none =>
    cases e with
    | none => simp at hbe
    | some e =>
      have hR : ∀ i, InRange none (some e) excl i ↔ i ≤ if excl = true then e - 1 else e := by
        intro i
        simp only [InRange]
        constructor
        · rintro ⟨-, h⟩
          have := h e rfl
          split
          · have := this.2 (by assumption); omega
          · exact this.1
        · intro h
          refine ⟨by simp, ?_⟩
          intro x hx
          simp only [Option.some.injEq] at hx
          subst hx
          split at h
          · exact ⟨by omega, fun _ => by omega⟩
          · exact ⟨h, fun h => absurd h (by assumption)⟩
      obtain ⟨lo, h1, r, h2, h3⟩ := hdown rfl _ hR
      refine ⟨r, ?_, h3⟩
      intro r'
      simp only [BsearchInt, Option.map_some]
      constructor
      · rintro ⟨lo', h4, rfl⟩
        have := h4.unique h1
        subst this
        exact h2
      · rintro rfl
        exact ⟨some lo, h1, h2.symm⟩
  | some b =>
    cases e with
    | none =>
      have hR : ∀ i, InRange (some b) none excl i ↔ b ≤ i := by
        intro i
        simp [InRange]
      obtain ⟨hi, h1, r, h2, h3⟩ := hup rfl _ hR
      refine ⟨r, ?_, h3⟩
      intro r'
      simp only [BsearchInt, Option.map_none]
      constructor
      · rintro ⟨hi', h4, rfl⟩
        have := h4.unique h1
        subst this
        exact h2
      · rintro rfl
        exact ⟨some hi, h1, h2.symm⟩
    | some e =>
      have hR : ∀ i, InRange (some b) (some e) excl i ↔ b ≤ i ∧ i ≤ if excl = true then e - 1 else e := by
        intro i
        simp only [InRange]
        constructor
        · rintro ⟨h0, h⟩
          have := h e rfl
          refine ⟨h0 b rfl, ?_⟩
          split
          · have := this.2 (by assumption); omega
          · exact this.1
        · rintro ⟨h0, h⟩
          refine ⟨by simpa using h0, ?_⟩
          intro x hx
          simp only [Option.some.injEq] at hx
          subst hx
          split at h
          · exact ⟨by omega, fun _ => by omega⟩
          · exact ⟨h, fun h => absurd h (by assumption)⟩
      obtain ⟨r, h2, h3⟩ := hfin _ _ rfl hR
      refine ⟨r, ?_, h3⟩
      intro r'
      simp only [BsearchInt, Option.map_some]
      rw [h2]

/-- Find-minimum: with a block that answers false up to a place and true from there on, the search ends with the least
integer of the range that answers true, or with nil.  A range without begin needs one that answers false, a range without
end one that answers true. -/
theorem C102_range_find_minimum (f : Int → Ans) (b e : Option Int) (excl : Bool) (hbe : b ≠ none ∨ e ≠ none)
    (hb : ∀ i, InRange b e excl i → f i = .yes ∨ f i = .no)
    (hm : ∀ i j, InRange b e excl i → InRange b e excl j → i ≤ j → f i = .yes → f j = .yes)
    (hbn : b = none → ∃ i, InRange b e excl i ∧ f i = .no) (hen : e = none → ∃ i, InRange b e excl i ∧ f i = .yes) :
    ∃ r, (∀ r', BsearchInt f b e excl r' ↔ r' = some r) ∧
      (r = none → ∀ i, InRange b e excl i → f i = .no) ∧
      ∀ s, r = some s → InRange b e excl s ∧ f s = .yes ∧ ∀ i, InRange b e excl i → i < s → f i = .no := by
  have hno : ∀ i j, InRange b e excl i → InRange b e excl j → i ≤ j → f j = .no → f i = .no := by
    intro i j h1 h2 h3 h4
    rcases hb i h1 with h | h
    · have := hm i j h1 h2 h3 h
      rw [h4] at this; simp at this
    · exact h
  have core : ∀ lo hi, lo ≤ hi → (∀ i, lo ≤ i → i ≤ hi → InRange b e excl i) →
      (∀ i, InRange b e excl i → i < lo → f i = .no) → (∀ i, InRange b e excl i → hi < i → f hi = .yes) →
      ∃ r, searchLoop f lo hi none = some r ∧ (r = none → ∀ i, InRange b e excl i → f i = .no) ∧
        ∀ s, r = some s → InRange b e excl s ∧ f s = .yes ∧ ∀ i, InRange b e excl i → i < s → f i = .no := by
    intro lo hi hle hin hlo hhi
    obtain ⟨r, h1, h2, h3⟩ := searchLoop_min f lo hi (fun i h1 h2 => hb i (hin i h1 h2))
      (fun i j h1 h2 h3 => hm i j (hin i h1 (by omega)) (hin j (by omega) h3) h2) _ lo hi none rfl (Int.le_refl _)
      (by omega) (Int.le_refl _) (by omega) (by simp) (by simp)
    refine ⟨r, h1, ?_, ?_⟩
    · intro hr i hi'
      rcases Int.lt_or_le i lo with h | h
      · exact hlo i hi' h
      · rcases Int.lt_or_le hi i with h' | h'
        · have := hhi i hi' h'
          rw [h2 hr hi hle (Int.le_refl _)] at this; simp at this
        · exact h2 hr i h h'
    · intro s hs
      obtain ⟨h4, h5, h6, h7⟩ := h3 s hs
      refine ⟨hin s h4 h5, h6, ?_⟩
      intro i hi' his
      rcases Int.lt_or_le i lo with h | h
      · exact hlo i hi' h
      · exact h7 i h his
  refine range_cases f b e excl _ hbe ?_ ?_ ?_
  · intro lo hi hb' hR
    by_cases hlt : lo > hi
    · rw [if_pos hlt]
      refine ⟨none, rfl, ?_, by simp⟩
      intro _ i hi'
      have := (hR i).1 hi'
      omega
    · rw [if_neg hlt]
      exact core lo hi (by omega) (fun i h1 h2 => (hR i).2 ⟨h1, h2⟩)
        (fun i h1 h2 => by have := (hR i).1 h1; omega) (fun i h1 h2 => by have := (hR i).1 h1; omega)
  · intro hb' hi hR
    obtain ⟨i0, h1, h2⟩ := hbn hb'
    have hi0 := (hR i0).1 h1
    obtain ⟨lo, h3, h4, c, h5, h6⟩ := scanDown_ends f hi i0
      (fun i hi' => by rcases hb i ((hR i).2 (by omega)) with h | h <;> simp [h, classify])
      (fun i hi' => ⟨.unsatisfied, by rw [hno i i0 ((hR i).2 (by omega)) h1 hi' h2]; rfl, .inl rfl⟩) _ 1 (by omega)
      (Nat.le_refl _)
    refine ⟨lo, h3, ?_⟩
    rw [if_neg (by omega)]
    have hlo : f lo = .no := by
      rcases hb lo ((hR lo).2 (by omega)) with h | h
      · rw [h] at h5
        simp only [classify, Option.some.injEq] at h5
        subst h5; simp at h6
      · exact h
    exact core lo hi (by omega) (fun i _ h2 => (hR i).2 h2)
      (fun i h1 h2 => hno i lo h1 ((hR lo).2 (by omega)) (by omega) hlo)
      (fun i h1 h2 => by have := (hR i).1 h1; omega)
  · intro he lo hR
    obtain ⟨i0, h1, h2⟩ := hen he
    have hi0 := (hR i0).1 h1
    obtain ⟨hi, h3, h4, c, h5, h6⟩ := scanUp_ends f lo i0
      (fun i hi' => by rcases hb i ((hR i).2 (by omega)) with h | h <;> simp [h, classify])
      (fun i hi' => ⟨.satisfied, by rw [hm i0 i h1 ((hR i).2 (by omega)) hi' h2]; rfl, .inl rfl⟩) _ 1 (by omega)
      (Nat.le_refl _)
    refine ⟨hi, h3, ?_⟩
    rw [if_neg (by omega)]
    have hhi : f hi = .yes := by
      rcases hb hi ((hR hi).2 (by omega)) with h | h
      · exact h
      · rw [h] at h5
        simp only [classify, Option.some.injEq] at h5
        subst h5; simp at h6
    exact core lo hi (by omega) (fun i h1 _ => (hR i).2 h1) (fun i h1 h2 => by have := (hR i).1 h1; omega)
      (fun i h1 h2 => hhi)

example : BsearchInt (fun i => if 7 ≤ i then .yes else .no) (some 0) none false (some (some 7)) := by
  refine ⟨some 8, ?_, by decide +kernel⟩
  exact .go (c := .unsatisfied) (by decide) (by decide) (.go (c := .unsatisfied) (by decide) (by decide)
    (.go (c := .unsatisfied) (by decide) (by decide) (.stop (c := .satisfied) (by decide) (by decide))))

/-- Find-any: with a block whose answers fall, an integer of the range that answers 0, or nil when there is none. -/
theorem C102_range_find_any (f : Int → Ans) (v : Int → Int) (b e : Option Int) (excl : Bool) (hbe : b ≠ none ∨ e ≠ none)
    (hf : ∀ i, InRange b e excl i → f i = .num (v i))
    (hv : ∀ i j, InRange b e excl i → InRange b e excl j → i ≤ j → v j ≤ v i)
    (hbn : b = none → ∃ i, InRange b e excl i ∧ v i > 0) (hen : e = none → ∃ i, InRange b e excl i ∧ v i < 0) :
    ∃ r, (∀ r', BsearchInt f b e excl r' ↔ r' = some r) ∧
      (r = none → ∀ i, InRange b e excl i → v i ≠ 0) ∧
      ∀ s, r = some s → InRange b e excl s ∧ v s = 0 := by
  have core : ∀ lo hi, (∀ i, lo ≤ i → i ≤ hi → InRange b e excl i) →
      (∀ i, InRange b e excl i → i < lo → v i > 0) →
      (∀ i, InRange b e excl i → hi < i → lo ≤ hi ∧ v hi ≤ 0) →
      ∃ r, searchLoop f lo hi none = some r ∧ (r = none → ∀ i, InRange b e excl i → v i ≠ 0) ∧
        ∀ s, r = some s → InRange b e excl s ∧ v s = 0 := by
    intro lo hi hin hlo hhi
    obtain ⟨r, h1, h2, h3⟩ := searchLoop_any f v lo hi (fun i h1 h2 => hf i (hin i h1 h2))
      (fun i j h1 h2 h3 => hv i j (hin i h1 (by omega)) (hin j (by omega) h3) h2) _ lo hi rfl (Int.le_refl _)
      (Int.le_refl _) (by omega) (by omega)
    refine ⟨r, h1, ?_, ?_⟩
    · intro hr i hi'
      rcases Int.lt_or_le i lo with h | h
      · have := hlo i hi' h; omega
      · rcases Int.lt_or_le hi i with h' | h'
        · obtain ⟨h4, h5⟩ := hhi i hi' h'
          have h6 := h2 hr hi h4 (Int.le_refl _)
          have := hv hi i (hin hi h4 (Int.le_refl _)) hi' (by omega)
          omega
        · exact h2 hr i h h'
    · intro s hs
      obtain ⟨h4, h5, h6⟩ := h3 s hs
      exact ⟨hin s h4 h5, h6⟩
  have hcl : ∀ i, InRange b e excl i → classify (f i) ≠ none := by
    intro i hi; rw [hf i hi]; simp [classify]
  refine range_cases f b e excl _ hbe ?_ ?_ ?_
  · intro lo hi hb' hR
    by_cases hlt : lo > hi
    · rw [if_pos hlt]
      refine ⟨none, rfl, ?_, by simp⟩
      intro _ i hi'
      have := (hR i).1 hi'
      omega
    · rw [if_neg hlt]
      exact core lo hi (fun i h1 h2 => (hR i).2 ⟨h1, h2⟩)
        (fun i h1 h2 => by have := (hR i).1 h1; omega) (fun i h1 h2 => by have := (hR i).1 h1; omega)
  · intro hb' hi hR
    obtain ⟨i0, h1, h2⟩ := hbn hb'
    have hi0 := (hR i0).1 h1
    obtain ⟨lo, h3, h4, c, h5, h6⟩ := scanDown_ends f hi i0
      (fun i hi' => hcl i ((hR i).2 (by omega)))
      (fun i hi' => ⟨.greater, by
        have h3 := hv i i0 ((hR i).2 (by omega)) h1 hi'
        rw [hf i ((hR i).2 (by omega))]
        simp only [classify]
        rw [if_neg (by omega), if_pos (by omega)], .inr rfl⟩) _ 1 (by omega)
      (Nat.le_refl _)
    refine ⟨lo, h3, ?_⟩
    rw [if_neg (by omega)]
    have hlo : v lo > 0 := by
      rw [hf lo ((hR lo).2 (by omega))] at h5
      simp only [classify, Option.some.injEq] at h5
      subst h5
      split at h6
      · simp at h6
      · split at h6
        · assumption
        · simp at h6
    refine core lo hi (fun i _ h2 => (hR i).2 h2) ?_ (fun i h1 h2 => by have := (hR i).1 h1; omega)
    intro i h1 h2
    have := hv i lo h1 ((hR lo).2 (by omega)) (by omega)
    omega
  · intro he lo hR
    obtain ⟨i0, h1, h2⟩ := hen he
    have hi0 := (hR i0).1 h1
    obtain ⟨hi, h3, h4, c, h5, h6⟩ := scanUp_ends f lo i0
      (fun i hi' => hcl i ((hR i).2 (by omega)))
      (fun i hi' => ⟨.less, by
        have h3 := hv i0 i h1 ((hR i).2 (by omega)) hi'
        rw [hf i ((hR i).2 (by omega))]
        simp only [classify]
        rw [if_neg (by omega), if_neg (by omega)], .inr (.inr rfl)⟩) _ 1 (by omega)
      (Nat.le_refl _)
    refine ⟨hi, h3, ?_⟩
    rw [if_neg (by omega)]
    have hhi : v hi ≤ 0 := by
      rw [hf hi ((hR hi).2 (by omega))] at h5
      simp only [classify, Option.some.injEq] at h5
      subst h5
      split at h6
      · omega
      · split at h6
        · simp at h6
        · omega
    exact core lo hi (fun i h1 _ => (hR i).2 h1) (fun i h1 h2 => by have := (hR i).1 h1; omega)
      (fun i h1 h2 => ⟨by omega, hhi⟩)

/-! ## Ranges of floats -/

/-- The order of the keys is that of the floats, with -0.0 just before 0.0. -/
theorem C102_float_keys (a b : Nat) (ha : a < 2 ^ 64) (hb : b < 2 ^ 64) :
    fromKey (toKey a) = a ∧ (fval a < fval b → toKey a < toKey b) ∧ (toKey a < toKey b → b ≠ 0 → fval a < fval b) :=
  ⟨fromKey_toKey a ha, toKey_mono a b ha hb, fun h hz => fval_strict a b ha hb h hz⟩

/-- Find-minimum among the floats from `b` to `e`: the least that answers true, or nil.  Not covered: an exclusive end
0.0, and 0.0 to -0.0. -/
theorem C102_float_find_minimum_partial (f : Nat → Ans) (b e : Nat) (excl : Bool) (hb64 : b < 2 ^ 64) (he64 : e < 2 ^ 64)
    (hz : excl = true → e ≠ 0) (hz' : ¬ (b = 0 ∧ e = 2 ^ 63))
    (hb : ∀ x, x < 2 ^ 64 → fval b ≤ fval x → fval x ≤ fval e → f x = .yes ∨ f x = .no)
    (hm : ∀ x y, x < 2 ^ 64 → y < 2 ^ 64 → fval b ≤ fval x → fval x ≤ fval y → fval y ≤ fval e → f x = .yes → f y = .yes) :
    ∃ r, bsearchFloat f b e excl = some r ∧
      (r = none → ∀ x, x < 2 ^ 64 → fval b ≤ fval x → fval x ≤ fval e → (excl = true → fval x < fval e) → f x = .no) ∧
      ∀ s, r = some s → s < 2 ^ 64 ∧ fval b ≤ fval s ∧ fval s ≤ fval e ∧ (excl = true → fval s < fval e) ∧ f s = .yes ∧
        ∀ x, x < 2 ^ 64 → fval b ≤ fval x → fval x < fval s → f x = .no := by
  have same : ∀ x y, x < 2 ^ 64 → y < 2 ^ 64 → fval b ≤ fval x → fval x ≤ fval e → fval x = fval y → f x = f y := by
    intro x y hx hy h1 h2 h3
    rcases hb x hx h1 h2 with h | h
    · rw [h, hm x y hx hy h1 (by omega) (by omega) h]
    · rcases hb y hy (by omega) (by omega) with h' | h'
      · have := hm y x hy hx (by omega) (by omega) h2 h'
        rw [h] at this; simp at this
      · rw [h, h']
  rw [bsearchFloat]
  by_cases h1 : fval b > fval e
  · rw [if_pos h1]
    exact ⟨none, rfl, fun _ x _ _ _ => by omega, by simp⟩
  rw [if_neg h1]
  by_cases h2 : excl = true ∧ fval b = fval e
  · rw [if_pos h2]
    exact ⟨none, rfl, fun _ x _ h3 _ h4 => by have := h4 h2.1; omega, by simp⟩
  rw [if_neg h2]
  simp only
  generalize hH : (if excl = true then (toKey e : Int) - 1 else toKey e) = H
  have hle : (toKey b : Int) ≤ H := by
    subst hH
    split
    · rename_i he
      have : fval b < fval e := by
        rcases Int.lt_or_le (fval b) (fval e) with h | h
        · exact h
        · exact absurd ⟨he, by omega⟩ h2
      have := toKey_mono b e hb64 he64 this
      omega
    · rcases Int.lt_or_le (fval b) (fval e) with h | h
      · have := toKey_mono b e hb64 he64 h; omega
      · have heq : fval b = fval e := by omega
        simp only [fval] at heq
        simp only [toKey]
        split at heq <;> split at heq <;> split <;> split <;> omega
  have hHe : H ≤ toKey e := by subst hH; split <;> omega
  have hkey : ∀ k : Int, (toKey b : Int) ≤ k → k ≤ H → fromKey k.toNat < 2 ^ 64 ∧ ((toKey (fromKey k.toNat) : Nat) : Int) = k ∧
      fval b ≤ fval (fromKey k.toNat) ∧ fval (fromKey k.toNat) ≤ fval e ∧ (excl = true → fval (fromKey k.toNat) < fval e) := by
    intro k hk1 hk2
    have he := toKey_lt e he64
    have hk : k.toNat < 2 ^ 64 := by omega
    have hr := toKey_fromKey k.toNat hk
    have hf := fromKey_lt k.toNat hk
    refine ⟨hf, by omega, fval_mono _ _ hb64 hf (by omega), fval_mono _ _ hf he64 (by omega), ?_⟩
    intro hx
    subst hH
    rw [if_pos hx] at hk2
    exact fval_strict _ _ hf he64 (by omega) (hz hx)
  -- every float of the range has a key between, up to the sign of zero
  have hin : ∀ x, x < 2 ^ 64 → fval b ≤ fval x → fval x ≤ fval e → (excl = true → fval x < fval e) →
      ∃ k : Int, (toKey b : Int) ≤ k ∧ k ≤ H ∧ fval (fromKey k.toNat) = fval x := by
    intro x hx h3 h4 h5
    by_cases hlo : toKey x < toKey b
    · exact ⟨toKey b, Int.le_refl _, hle, by
        rw [Int.toNat_natCast, fromKey_toKey b hb64]
        have := fval_mono x b hx hb64 (by omega)
        omega⟩
    by_cases hhi : (toKey x : Int) ≤ H
    · exact ⟨toKey x, by omega, hhi, by rw [Int.toNat_natCast, fromKey_toKey x hx]⟩
    · cases hex : excl with
      | true =>
        have := toKey_mono x e hx he64 (h5 hex)
        subst hH
        rw [if_pos hex] at hhi
        omega
      | false =>
        subst hH
        rw [if_neg (by simp [hex])] at hhi hle
        refine ⟨toKey e, by omega, by rw [if_neg (by simp [hex])]; omega, ?_⟩
        rw [Int.toNat_natCast, fromKey_toKey e he64]
        have := fval_mono e x he64 hx (by omega)
        omega
  rw [if_neg (by omega)]
  obtain ⟨r, hr1, hr2, hr3⟩ := searchLoop_min (fun k => f (fromKey k.toNat)) (toKey b) H
    (fun k hk1 hk2 => by obtain ⟨a1, -, a3, a4, -⟩ := hkey k hk1 hk2; exact hb _ a1 a3 a4)
    (fun i j hi1 hij hj => by
      obtain ⟨a1, a2, a3, a4, -⟩ := hkey i hi1 (by omega)
      obtain ⟨b1, b2, b3, b4, -⟩ := hkey j (by omega) hj
      exact hm _ _ a1 b1 a3 (fval_mono _ _ a1 b1 (by omega)) b4) _ (toKey b) H none rfl (Int.le_refl _) (by omega)
    (Int.le_refl _) (by omega) (by simp) (by simp)
  rw [hr1]
  refine ⟨r.map fun k => fromKey k.toNat, rfl, ?_, ?_⟩
  · intro hn x hx h3 h4 h5
    simp only [Option.map_eq_none_iff] at hn
    obtain ⟨k, hk1, hk2, hk3⟩ := hin x hx h3 h4 h5
    obtain ⟨a1, -, a3, a4, -⟩ := hkey k hk1 hk2
    rw [same x _ hx a1 h3 h4 hk3.symm]
    exact hr2 hn k hk1 hk2
  · intro s hs
    simp only [Option.map_eq_some_iff] at hs
    obtain ⟨k, hk, rfl⟩ := hs
    obtain ⟨c1, c2, c3, c4⟩ := hr3 k hk
    obtain ⟨a1, a2, a3, a4, a5⟩ := hkey k c1 c2
    refine ⟨a1, a3, a4, a5, c3, ?_⟩
    intro x hx h3 h4
    obtain ⟨k', hk1, hk2, hk3⟩ := hin x hx h3 (by omega) (fun h => by have := a5 h; omega)
    obtain ⟨b1, b2, b3, b4, -⟩ := hkey k' hk1 hk2
    rw [same x _ hx b1 h3 (by omega) hk3.symm]
    refine c4 k' hk1 ?_
    rcases Int.lt_or_le k' k with h | h
    · exact h
    · have := fval_mono _ _ a1 b1 (by omega)
      omega

/-- With an exclusive end 0.0 the search may come back with -0.0, which is that end:
`(-5.0e-324...0.0).bsearch { |x| x >= 0 }`; and 0.0 to -0.0 counts as empty. -/
theorem C102_float_zero_fails :
    (∃ s, bsearchFloat (fun x => if fval x ≥ 0 then .yes else .no) (2 ^ 63 + 1) 0 true = some (some s) ∧
      fval s = fval 0) ∧
    bsearchFloat (fun _ => .yes) 0 (2 ^ 63) false = some none := by
  refine ⟨⟨2 ^ 63, by decide +kernel, by decide⟩, by decide +kernel⟩

example : bsearchFloat (fun x => if fval x ≥ 5 then .yes else .no) 0 10 false = some (some 5) := by decide +kernel

end Verif.Arr
