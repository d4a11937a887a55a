import Verif.Bop.Case

/-!
# `case` over integer literals: lemmas
-/

namespace Verif.Bop

theorem foldl_min_le (l : List Int) (a : Int) : l.foldl min a ≤ a := by
  induction l generalizing a with
  | nil => exact Int.le_refl a
  | cons x xs ih => exact Int.le_trans (ih (min a x)) (Int.min_le_left a x)

theorem foldl_min_le_mem (l : List Int) (a i : Int) (h : i ∈ l) : l.foldl min a ≤ i := by
  induction l generalizing a with
  | nil => cases h
  | cons x xs ih =>
    rcases List.mem_cons.1 h with rfl | h
    · exact Int.le_trans (foldl_min_le xs _) (Int.min_le_right a i)
    · exact ih _ h

theorem le_foldl_min (l : List Int) (a c : Int) (ha : c ≤ a) (h : ∀ i ∈ l, c ≤ i) :
    c ≤ l.foldl min a := by
  induction l generalizing a with
  | nil => exact ha
  | cons x xs ih =>
    exact ih _ (Int.le_min.2 ⟨ha, h x (by simp)⟩) (fun i hi => h i (by simp [hi]))

theorem le_foldl_max (l : List Int) (a : Int) : a ≤ l.foldl max a := by
  induction l generalizing a with
  | nil => exact Int.le_refl a
  | cons x xs ih => exact Int.le_trans (Int.le_max_left a x) (ih (max a x))

theorem mem_le_foldl_max (l : List Int) (a i : Int) (h : i ∈ l) : i ≤ l.foldl max a := by
  induction l generalizing a with
  | nil => cases h
  | cons x xs ih =>
    rcases List.mem_cons.1 h with rfl | h
    · exact Int.le_trans (Int.le_max_right a i) (le_foldl_max xs _)
    · exact ih _ h

theorem foldl_max_le (l : List Int) (a c : Int) (ha : a ≤ c) (h : ∀ i ∈ l, i ≤ c) :
    l.foldl max a ≤ c := by
  induction l generalizing a with
  | nil => exact ha
  | cons x xs ih =>
    exact ih _ (Int.max_le.2 ⟨ha, h x (by simp)⟩) (fun i hi => h i (by simp [hi]))

/-- Writes elsewhere do not change a cell. -/
theorem fold_get_none (es : List (Nat × Nat)) (t : List (Option Nat)) (j : Nat)
    (h : ∀ b, (j, b) ∉ es) :
    (es.foldl (fun t e => t.set e.1 (some e.2)) t).getD j none = t.getD j none := by
  induction es generalizing t with
  | nil => rfl
  | cons e rest ih =>
    rw [List.foldl_cons, ih _ (fun b hb => h b (by simp [hb]))]
    have : e.1 ≠ j := by
      rintro rfl
      exact h e.2 (by simp)
    simp [List.getD, List.getElem?_set_ne this]

/-- A cell written with one value only holds it. -/
theorem fold_get_some (es : List (Nat × Nat)) (t : List (Option Nat)) (j b : Nat)
    (hj : j < t.length) (hu : ∀ b', (j, b') ∈ es → b' = b) (h : (j, b) ∈ es) :
    (es.foldl (fun t e => t.set e.1 (some e.2)) t).getD j none = some b := by
  induction es generalizing t with
  | nil => cases h
  | cons e rest ih =>
    rw [List.foldl_cons]
    by_cases hr : (j, b) ∈ rest
    · exact ih _ (by simpa using hj) (fun b' hb' => hu b' (by simp [hb'])) hr
    · have he : e = (j, b) := by
        rcases List.mem_cons.1 h with h | h
        · exact h.symm
        · exact absurd h hr
      rw [fold_get_none]
      · subst he
        simp [List.getD, hj]
      · intro b' hb'
        have := hu b' (by simp [hb'])
        subst this
        exact hr hb'

theorem mem_tableEntries (mn : Int) (n : Nat) (ws : Whens) (j b : Nat)
    (h : (j, b) ∈ tableEntries mn n ws) :
    n ≤ b ∧ ∃ w, ws[b - n]? = some w ∧ ∃ i ∈ w, (i - mn).toNat = j := by
  induction ws generalizing n with
  | nil => cases h
  | cons w rest ih =>
    simp only [tableEntries, List.mem_append, List.mem_map, Prod.mk.injEq] at h
    rcases h with ⟨i, hi, h1, rfl⟩ | h
    · exact ⟨Nat.le_refl _, w, by simp, i, hi, h1⟩
    · obtain ⟨h1, w', h2, h3⟩ := ih (n + 1) h
      refine ⟨by omega, w', ?_, h3⟩
      have : b - n = (b - (n + 1)) + 1 := by omega
      rw [this]
      simpa using h2

/-- The branch the program means, found in the table's entries. -/
theorem firstMatch_some (mn : Int) (k : Int) (n : Nat) (ws : Whens) (b : Nat)
    (h : firstMatch (.int k) n ws = some b) :
    ((k - mn).toNat, b) ∈ tableEntries mn n ws := by
  induction ws generalizing n with
  | nil => cases h
  | cons w rest ih =>
    simp only [firstMatch] at h
    simp only [tableEntries, List.mem_append, List.mem_map, Prod.mk.injEq]
    split at h
    · rename_i hw
      cases h
      left
      simp only [List.any_eq_true, accepts, beq_iff_eq] at hw
      obtain ⟨i, hi, rfl⟩ := hw
      exact ⟨i, hi, rfl, rfl⟩
    · exact Or.inr (ih _ h)

theorem firstMatch_none (k : Int) (n : Nat) (ws : Whens)
    (h : firstMatch (.int k) n ws = none) : k ∉ ws.flatten := by
  induction ws generalizing n with
  | nil => simp
  | cons w rest ih =>
    simp only [firstMatch] at h
    split at h
    · cases h
    · rename_i hw
      simp only [List.flatten_cons, List.mem_append, not_or]
      refine ⟨?_, ih _ h⟩
      intro hk
      apply hw
      simp only [List.any_eq_true, accepts, beq_iff_eq]
      exact ⟨k, hk, rfl⟩

theorem firstMatch_mem (k : Int) (n : Nat) (ws : Whens) (b : Nat)
    (h : firstMatch (.int k) n ws = some b) : k ∈ ws.flatten := by
  induction ws generalizing n with
  | nil => cases h
  | cons w rest ih =>
    simp only [firstMatch] at h
    simp only [List.flatten_cons, List.mem_append]
    split at h
    · rename_i hw
      simp only [List.any_eq_true, accepts, beq_iff_eq] at hw
      obtain ⟨i, hi, rfl⟩ := hw
      exact Or.inl hi
    · exact Or.inr (ih _ h)

theorem checkOpt_lits {ws : Whens} (h : checkOpt ws = true) :
    ∀ i ∈ ws.flatten, 0 ≤ i ∧ i < 2048 := by
  simp only [checkOpt, Bool.and_eq_true, decide_eq_true_eq, List.all_eq_true] at h
  exact h.2

theorem minLit_le {ws : Whens} {i : Int} (h : i ∈ ws.flatten) : minLit ws ≤ i :=
  foldl_min_le_mem _ _ _ h

theorem le_maxLit {ws : Whens} {i : Int} (h : i ∈ ws.flatten) : i ≤ maxLit ws :=
  mem_le_foldl_max _ _ _ h

theorem minLit_nonneg {ws : Whens} (h : checkOpt ws = true) : 0 ≤ minLit ws :=
  le_foldl_min _ _ _ (by decide) (fun i hi => (checkOpt_lits h i hi).1)

theorem maxLit_lt {ws : Whens} (h : checkOpt ws = true) : maxLit ws ≤ 2047 :=
  foldl_max_le _ _ _ (by decide) (fun i hi => by have := checkOpt_lits h i hi; omega)

/-- The table agrees with the meaning for every subject in its range. -/
theorem table_ok (ws : Whens) (hd : ∀ (a b : Nat) (w w' : List Int) (i : Int), ws[a]? = some w →
      ws[b]? = some w' → i ∈ w → i ∈ w' → a = b)
    (k : Int) (hk : minLit ws ≤ k ∧ k ≤ maxLit ws) :
    (branchTable ws).getD (k - minLit ws).toNat none = firstMatch (.int k) 0 ws := by
  have hkey : ∀ b, ((k - minLit ws).toNat, b) ∈ tableEntries (minLit ws) 0 ws →
      ∃ w, ws[b]? = some w ∧ k ∈ w := by
    intro b hb
    obtain ⟨-, w, h2, i, hi, h3⟩ := mem_tableEntries _ _ _ _ _ hb
    refine ⟨w, by simpa using h2, ?_⟩
    have hmem : i ∈ ws.flatten := List.mem_flatten.2 ⟨w, List.mem_of_getElem? h2, hi⟩
    have := minLit_le hmem
    have : i = k := by omega
    exact this ▸ hi
  cases hf : firstMatch (.int k) 0 ws with
  | none =>
    unfold branchTable buildTable
    rw [fold_get_none]
    · simp only [List.getD, List.getElem?_replicate]
      split <;> rfl
    · intro b hb
      obtain ⟨w, hw, hkw⟩ := hkey b hb
      exact firstMatch_none k 0 ws hf (List.mem_flatten.2 ⟨w, List.mem_of_getElem? hw, hkw⟩)
  | some b =>
    unfold branchTable buildTable
    have hb := firstMatch_some (minLit ws) k 0 ws b hf
    refine fold_get_some _ _ _ _ ?_ ?_ hb
    · rw [List.length_replicate]; omega
    · intro b' hb'
      obtain ⟨w, hw, hkw⟩ := hkey b hb
      obtain ⟨w', hw', hkw'⟩ := hkey b' hb'
      exact hd b' b w' w k hw' hw hkw' hkw

end Verif.Bop
