import Verif.Sort.Lemmas

/-!
# Properties C09 and C10: sorting

`Cmp σ ε α` is an arbitrary comparison block: it has a state `σ` that it may read
and change at every call, it may answer anything, and it may raise any `ε`.
-/

namespace Verif.Sort

variable {σ ε α : Type}

/-- C09: whatever the comparison does, sorting terminates, never accesses the array
or the scratch buffer out of bounds, and leaves the array holding exactly the elements
it held before - also when the comparison raises in the middle. -/
theorem C09_never_lost (lt : Cmp σ ε α) (v : List α) (s : σ) :
    ∃ o v' s', sort lt v s = some (o, v', s') ∧ (o = .ok ∨ ∃ e, o = .err e) ∧
      List.Perm v' v := by
  obtain ⟨o, v', s', h, ho, hp, -⟩ := sort_spec lt (fun _ _ => false) v s
  refine ⟨o, v', s', h, ?_, hp⟩
  cases o with
  | ok => exact .inl rfl
  | err e => exact .inr ⟨e, rfl⟩
  | oob => exact absurd rfl ho

/-- C09: a comparison that never raises (whatever it answers) makes sorting succeed. -/
theorem C09_no_raise_succeeds (lt : Cmp σ Empty α) (v : List α) (s : σ) :
    ∃ v' s', sort lt v s = some (.ok, v', s') ∧ List.Perm v' v := by
  obtain ⟨o, v', s', h, ho | ⟨e, -⟩, hp⟩ := C09_never_lost lt v s
  · subst ho; exact ⟨v', s', h, hp⟩
  · exact e.elim

/-- C10: a comparison that always answers a weak order and does not raise puts the
array in order (`no later element is less than an earlier one`), and for every element
`x` the elements comparing equal to `x` appear in the same order as before. -/
theorem C10_sorted_and_stable (lt : Cmp σ ε α) (less : α → α → Bool)
    (hans : ∀ s a b, (lt s a b).2 = .ok (less a b))
    (hasymm : ∀ a b, less a b = true → less b a = false)
    (hneg : ∀ a b c, less a b = false → less b c = false → less a c = false)
    (v : List α) (s : σ) :
    ∃ v' s', sort lt v s = some (.ok, v', s') ∧ List.Perm v' v ∧
      v'.Pairwise (fun a b => less b a = false) ∧
      ∀ x, v'.filter (fun y => !less x y && !less y x)
        = v.filter (fun y => !less x y && !less y x) := by
  obtain ⟨o, v', s', h, ho, hp, hc⟩ := sort_spec lt less v s
  obtain ⟨h1, h2, h3⟩ := hc ⟨hans, ⟨hasymm, hneg⟩⟩
  subst h1
  exact ⟨v', s', h, hp, h2, h3⟩

/-- C10: sorting Integers with `<=>` gives the sorted permutation. -/
theorem C10_integers (v : List Int) :
    ∃ v', sort (σ := Unit) (ε := Empty) (fun s a b => (s, .ok (decide (a < b)))) v ()
        = some (.ok, v', ()) ∧ v'.Perm v ∧ v'.Pairwise (· ≤ ·) := by
  obtain ⟨v', s', h, hp, hs, -⟩ := C10_sorted_and_stable (σ := Unit) (ε := Empty)
    (fun s a b => (s, .ok (decide (a < b)))) (fun a b => decide (a < b)) (fun _ _ _ => rfl)
    (by intro a b h; simp at h ⊢; omega) (by intro a b c h1 h2; simp at h1 h2 ⊢; omega) v ()
  exact ⟨v', h, hp, hs.imp (by intro a b h; simpa using h)⟩

/-! ## Concrete cases -/

/-- A comparator that raises at its `k`-th call. -/
def raiseAt (k : Nat) : Cmp Nat String Nat := fun n a b =>
  (n + 1, if n = k then .error "boom" else .ok (decide (a < b)))

-- the block raises inside the insertion sort, with an element moved out
example : (sort (raiseAt 5) [5, 3, 9, 1, 7, 2] 0).map (fun r => r.1) = some (.err "boom") := by
  decide +kernel
example : (sort (raiseAt 5) [5, 3, 9, 1, 7, 2] 0).map (fun r => r.2.1) = some [5, 3, 1, 2, 7, 9] := by
  decide +kernel

-- the block raises inside a merge, with half of the elements in the scratch buffer
example : merge (raiseAt 2) 3 1 4 7 [99, 2, 4, 6, 1, 3, 5, 77] 0
    = (.err "boom", [99, 1, 2, 4, 6, 3, 5, 77], 3) := by decide +kernel
example : merge (raiseAt 200) 3 1 4 7 [99, 2, 4, 6, 1, 3, 5, 77] 0
    = (.ok, [99, 1, 2, 3, 4, 5, 6, 77], 5) := by decide +kernel

-- stability on pairs compared by their first component
example : sort (σ := Unit) (ε := Empty) (fun s (a b : Nat × Nat) => (s, .ok (decide (a.1 < b.1))))
    [(2, 0), (1, 1), (2, 2), (1, 3), (0, 4)] ()
    = some (.ok, [(0, 4), (1, 1), (1, 3), (2, 0), (2, 2)], ()) := by decide +kernel

end Verif.Sort
