import Verif.Arr.CountLemmas

/-!
# C101: `combination`, `permutation`, `repeated_combination`, `repeated_permutation` and `product` yield every selection
exactly once, in the order of the positions; the enumerator's `size` is the number of them
-/

namespace Verif.Arr

variable {α : Type} [Inhabited α]

/-- Every selection of `n` positions in rising order, each once and in lexicographic order; `combination(n).size` is
their number. -/
theorem C101_combination (a : List α) (n : Int) :
    ∃ L : List (List Nat), (∀ out, Combination a n out ↔ out = L.map (pick a)) ∧
      L.Pairwise (List.Lex (· < ·)) ∧
      (∀ ix, ix ∈ L ↔ (ix.length : Int) = n ∧ ix.Pairwise (· < ·) ∧ ∀ i ∈ ix, i < a.length) ∧
      L.length = combinationSize a.length n := by
  by_cases hneg : n < 0 ∨ (a.length : Int) < n
  · refine ⟨[], ?_, by simp, ?_, by simp [combinationSize, hneg]⟩
    · intro out
      simp only [Combination]
      rw [if_neg (by omega)]
      by_cases h1 : n = 1
      · rw [if_pos h1]
        have : a = [] := List.eq_nil_of_length_eq_zero (by omega)
        simp [this]
      · rw [if_neg h1, if_neg (by omega)]; simp
    · intro ix
      simp only [List.not_mem_nil, false_iff]
      rintro ⟨h1, h2, h3⟩
      rcases hneg with h | h
      · omega
      · have := (comb_mem ix.length ix.length 0 (by omega) ix)
        have key : ix.length ≤ a.length := by
          have hnd : ix.Nodup := h2.imp (fun h => Nat.ne_of_lt h)
          have hsub : ix ⊆ List.range a.length := fun i hi => List.mem_range.2 (h3 i hi)
          have := hnd.subperm hsub
          simpa using this.length_le
        omega
  · have hn : n = (n.toNat : Int) := by omega
    have hle : n.toNat ≤ a.length := by omega
    refine ⟨(combWay a.length).gen n.toNat 0, ?_, Way.gen_sorted _ _ _, ?_, ?_⟩
    · intro out
      have hloop := comb_loop a.length n.toNat hle
      simp only [Combination]
      by_cases h0 : n = 0
      · subst h0; simp [Way.gen, pick]
      rw [if_neg h0]
      by_cases h1 : n = 1
      · rw [if_pos h1]
        subst h1
        have : ((combWay a.length).gen (Int.toNat 1) 0).map (pick a) = a.map fun x => [x] := by
          simp only [show Int.toNat 1 = 1 from rfl, Way.gen, List.map_flatMap, List.map_cons, List.map_nil]
          rw [show (combWay a.length).ub 0 + 1 - 0 = a.length by simp only [combWay]; omega, ← List.range_eq_range']
          apply List.ext_getElem?
          intro i
          rw [← List.map_eq_flatMap]
          simp only [List.getElem?_map, pick, List.map_cons, List.map_nil]
          by_cases hi : i < a.length
          · simp [hi]
          · simp [List.getElem?_eq_none (show a.length ≤ i by omega)]; omega
        rw [this]
      · rw [if_neg h1, if_pos (by omega)]
        constructor
        · rintro ⟨l, hl, rfl⟩; rw [hl.unique hloop]
        · rintro rfl; exact ⟨_, hloop, rfl⟩
    · intro ix
      rw [comb_mem a.length n.toNat 0 (by omega)]
      constructor
      · rintro ⟨h1, h2, h3⟩; exact ⟨by omega, h2, fun i hi => (h3 i hi).2⟩
      · rintro ⟨h1, h2, h3⟩; exact ⟨by omega, h2, fun i hi => ⟨by omega, h3 i hi⟩⟩
    · rw [comb_count _ _ _ (by omega), combinationSize, if_neg hneg]
      by_cases h0 : n = 0
      · subst h0; simp
      rw [if_neg h0]
      simp only [Nat.sub_zero]
      split
      · rw [show a.length - (a.length - n.toNat) = n.toNat by omega, foldl_choose_up,
          show n.toNat + (a.length - n.toNat) = a.length by omega, Nat.choose_symm hle]
      · rw [foldl_choose_up, show a.length - n.toNat + n.toNat = a.length by omega]

example : Combination [10, 20, 30] 2 [[10, 20], [10, 30], [20, 30]] := by
  refine ⟨[[0, 1], [0, 2], [1, 2]], ?_, rfl⟩
  exact .step (by decide) (.step (by decide) (.last (by decide)))
example : combinationSize 5 3 = 10 := by decide

/-- Every choice of `n` positions, each once and in lexicographic order. -/
theorem C101_repeated_permutation (a : List α) (n : Int) :
    ∃ L : List (List Nat), (∀ out, RepeatedPermutation a n out ↔ out = L.map (pick a)) ∧
      L.Pairwise (List.Lex (· < ·)) ∧
      (∀ ix, ix ∈ L ↔ (ix.length : Int) = n ∧ ∀ i ∈ ix, i < a.length) ∧
      L.length = repeatedPermutationSize a.length n := by
  by_cases h0 : n = 0
  · subst h0
    refine ⟨[[]], by intro out; simp [RepeatedPermutation, pick], by simp, ?_, by simp [repeatedPermutationSize]⟩
    intro ix
    simp only [List.mem_singleton]
    constructor
    · rintro rfl; simp
    · rintro ⟨h, -⟩; exact List.eq_nil_of_length_eq_zero (by omega)
  by_cases hneg : n < 0 ∨ a.length = 0
  · refine ⟨[], ?_, by simp, ?_, ?_⟩
    · intro out
      simp only [RepeatedPermutation]
      rw [if_neg h0]
      by_cases h1 : a.length = 0
      · rw [if_pos h1]; simp
      · rw [if_neg h1, if_neg (by omega)]; simp
    · intro ix
      simp only [List.not_mem_nil, false_iff]
      rintro ⟨h1, h3⟩
      cases ix with
      | nil => simp at h1; omega
      | cons c t =>
        have := h3 c (by simp)
        simp only [List.length_cons] at h1
        omega
    · simp only [repeatedPermutationSize]
      by_cases h1 : n < 0
      · rw [if_pos h1]; rfl
      · rw [if_neg h1, if_neg h0, show a.length = 0 by omega, Nat.zero_pow (by omega)]; rfl
  · have hl : 0 < a.length := by omega
    refine ⟨(rpermWay a.length).gen n.toNat 0, ?_, Way.gen_sorted _ _ _, ?_, ?_⟩
    · intro out
      have hloop := rperm_loop a.length n.toNat hl
      simp only [RepeatedPermutation]
      rw [if_neg h0, if_neg (by omega), if_pos (by omega)]
      constructor
      · rintro ⟨l, hl, rfl⟩; rw [hl.unique hloop]
      · rintro rfl; exact ⟨_, hloop, rfl⟩
    · intro ix
      rw [rperm_mem a.length n.toNat hl]
      constructor
      · rintro ⟨h1, h3⟩; exact ⟨by omega, h3⟩
      · rintro ⟨h1, h3⟩; exact ⟨by omega, h3⟩
    · rw [rperm_count _ _ hl, repeatedPermutationSize, if_neg (by omega), if_neg h0]

example : RepeatedPermutation [1, 2] 2 [[1, 1], [1, 2], [2, 1], [2, 2]] := by
  refine ⟨[[0, 0], [0, 1], [1, 0], [1, 1]], ?_, rfl⟩
  exact .step (by decide) (.step (by decide) (.step (by decide) (.last (by decide))))

/-- Every choice of `n` positions that do not fall, each once and in lexicographic order. -/
theorem C101_repeated_combination (a : List α) (n : Int) :
    ∃ L : List (List Nat), (∀ out, RepeatedCombination a n out ↔ out = L.map (pick a)) ∧
      L.Pairwise (List.Lex (· < ·)) ∧
      (∀ ix, ix ∈ L ↔ (ix.length : Int) = n ∧ ix.Pairwise (· ≤ ·) ∧ ∀ i ∈ ix, i < a.length) ∧
      L.length = repeatedCombinationSize a.length n := by
  by_cases h0 : n = 0
  · subst h0
    refine ⟨[[]], by intro out; simp [RepeatedCombination, pick], by simp, ?_, by simp [repeatedCombinationSize]⟩
    intro ix
    simp only [List.mem_singleton]
    constructor
    · rintro rfl; simp
    · rintro ⟨h, -⟩; exact List.eq_nil_of_length_eq_zero (by omega)
  by_cases hneg : n < 0 ∨ a.length = 0
  · refine ⟨[], ?_, by simp, ?_, ?_⟩
    · intro out
      simp only [RepeatedCombination]
      rw [if_neg h0]
      by_cases h1 : n = 1
      · rw [if_pos h1]
        have : a = [] := List.eq_nil_of_length_eq_zero (by omega)
        simp [this]
      · rw [if_neg h1, if_neg (by omega)]; simp
    · intro ix
      simp only [List.not_mem_nil, false_iff]
      rintro ⟨h1, -, h3⟩
      cases ix with
      | nil => simp at h1; omega
      | cons c t =>
        have := h3 c (by simp)
        simp only [List.length_cons] at h1
        omega
    · simp only [repeatedCombinationSize]
      by_cases h1 : n < 0
      · rw [if_pos h1]; rfl
      · rw [if_neg h1, if_neg h0, if_pos (by omega)]; rfl
  · have hl : 0 < a.length := by omega
    refine ⟨(rcombWay a.length).gen n.toNat 0, ?_, Way.gen_sorted _ _ _, ?_, ?_⟩
    · intro out
      have hloop := rcomb_loop a.length n.toNat hl
      simp only [RepeatedCombination]
      rw [if_neg h0]
      by_cases h1 : n = 1
      · rw [if_pos h1]
        subst h1
        have : ((rcombWay a.length).gen (Int.toNat 1) 0).map (pick a) = a.map fun x => [x] := by
          simp only [show Int.toNat 1 = 1 from rfl, Way.gen, List.map_flatMap, List.map_cons, List.map_nil]
          rw [show (rcombWay a.length).ub 0 + 1 - 0 = a.length by simp only [rcombWay]; omega, ← List.range_eq_range']
          apply List.ext_getElem?
          intro i
          rw [← List.map_eq_flatMap]
          simp only [List.getElem?_map, pick, List.map_cons, List.map_nil]
          by_cases hi : i < a.length
          · simp [hi]
          · simp [List.getElem?_eq_none (show a.length ≤ i by omega)]; omega
        rw [this]
      · rw [if_neg h1, if_pos (by omega)]
        constructor
        · rintro ⟨l, hl, rfl⟩; rw [hl.unique hloop]
        · rintro rfl; exact ⟨_, hloop, rfl⟩
    · intro ix
      rw [rcomb_mem a.length n.toNat 0 hl]
      constructor
      · rintro ⟨h1, h2, h3⟩; exact ⟨by omega, h2, fun i hi => (h3 i hi).2⟩
      · rintro ⟨h1, h2, h3⟩; exact ⟨by omega, h2, fun i hi => ⟨by omega, h3 i hi⟩⟩
    · rw [rcomb_count _ _ _ hl, repeatedCombinationSize, if_neg (by omega), if_neg h0, if_neg (by omega)]
      have := foldl_choose_down (a.length + n.toNat - 1) n.toNat (by omega)
      rw [show a.length + n.toNat - 1 + 1 = a.length + n.toNat by omega] at this
      rw [this, show a.length - 0 - 1 + n.toNat = a.length + n.toNat - 1 by omega]

example : RepeatedCombination [1, 2] 2 [[1, 1], [1, 2], [2, 2]] := by
  refine ⟨[[0, 0], [0, 1], [1, 1]], ?_, rfl⟩
  exact .step (by decide) (.step (by decide) (.last (by decide)))

/-- Every arrangement of `n` different positions, each once and in lexicographic order, as long as the block does not
change the size of the receiver. -/
theorem C101_permutation_partial (a : List α) (n : Int) :
    ∃ L : List (List Nat), (∀ out, Permutation a (fun _ => a.length) n out ↔ out = L.map (pick a)) ∧
      L.Pairwise (List.Lex (· < ·)) ∧
      (∀ ix, ix ∈ L ↔ (ix.length : Int) = n ∧ ix.Nodup ∧ ∀ i ∈ ix, i < a.length) ∧
      L.length = permutationSize a.length n := by
  by_cases hneg : n < 0 ∨ (a.length : Int) < n
  · refine ⟨[], ?_, by simp, ?_, by simp [permutationSize, hneg]⟩
    · intro out
      simp only [Permutation]
      rw [if_neg (by omega), if_pos hneg]; simp
    · intro ix
      simp only [List.not_mem_nil, false_iff]
      rintro ⟨h1, h2, h3⟩
      rcases hneg with h | h
      · omega
      · have key : ix.length ≤ a.length := by
          have hsub : ix ⊆ List.range a.length := fun i hi => List.mem_range.2 (h3 i hi)
          have := h2.subperm hsub
          simpa using this.length_le
        omega
  · have hle : n.toNat ≤ a.length := by omega
    refine ⟨perms n.toNat (List.range a.length), ?_, perms_sorted _ _ List.pairwise_lt_range, ?_, ?_⟩
    · intro out
      simp only [Permutation]
      by_cases h0 : n = 0
      · subst h0; simp [perms, pick]
      rw [if_neg h0, if_neg hneg]
      by_cases hs : n = a.length
      · rw [if_pos hs]
        obtain ⟨l, h1, h2⟩ := perm_main a.length n.toNat hle (fun _ => n.toNat) (fun _ => by omega)
        have hnl : n.toNat = a.length := by omega
        rw [show List.range n.toNat = List.range a.length by rw [hnl], ← h2]
        constructor
        · rintro ⟨l', h3, rfl⟩
          rw [h3.unique h1, List.map_map]; rfl
        · rintro rfl
          exact ⟨l, h1, by rw [List.map_map]; rfl⟩
      · rw [if_neg hs]
        obtain ⟨l, h1, h2⟩ := perm_main a.length n.toNat hle (fun _ => a.length) (fun _ => rfl)
        rw [← h2]
        constructor
        · rintro ⟨l', h3, rfl⟩
          rw [h3.unique h1, List.map_map]; rfl
        · rintro rfl
          exact ⟨l, h1, by rw [List.map_map]; rfl⟩
    · intro ix
      rw [perms_mem _ _ List.nodup_range]
      simp only [List.mem_range]
      constructor
      · rintro ⟨h1, h2, h3⟩; exact ⟨by omega, h2, h3⟩
      · rintro ⟨h1, h2, h3⟩; exact ⟨by omega, h2, h3⟩
    · rw [perms_count, permutationSize, if_neg hneg, List.length_range]
      by_cases h0 : n = 0
      · subst h0; simp
      rw [if_neg h0, foldl_desc]

example : Permutation [1, 2, 3] (fun _ => 3) 2 [[1, 2], [1, 3], [2, 1], [2, 3], [3, 1], [3, 2]] := by
  refine ⟨[([0, 1, 2], [3, 2], 1), ([0, 2, 1], [3, 1], 2), ([1, 0, 2], [2, 2], 3), ([1, 2, 0], [2, 1], 4),
    ([2, 0, 1], [1, 2], 5), ([2, 1, 0], [1, 1], 6)], ?_, rfl⟩
  exact .step (by decide) (.step (by decide) (.step (by decide) (.step (by decide) (.step (by decide)
    (.last (by decide))))))

/-- When the block takes an element off the receiver, arrangements are missed:
`a = [1, 2, 3]; a.permutation(2) { a.pop if a.size == 3 }` yields four of the six. -/
theorem C101_permutation_shrunk_fails :
    Permutation [1, 2, 3] (fun k => if k = 0 then 3 else 2) 2 [[1, 2], [1, 3], [3, 1], [2, 1]] := by
  refine ⟨[([0, 1, 2], [3, 2], 1), ([0, 2, 1], [3, 1], 2), ([2, 0, 1], [2, 1], 3), ([1, 0, 2], [1, 1], 4)], ?_, rfl⟩
  exact .step (by decide) (.step (by decide) (.step (by decide) (.last (by decide))))

/-- `product`: without a RangeError, every choice of one position from each array, each once and in lexicographic
order. -/
theorem C101_product_partial (a : List α) (bs out : List (List α)) (h : product a bs = some out) :
    ∃ L : List (List Nat), out = L.map (pickEach (a :: bs)) ∧ L.Pairwise (List.Lex (· < ·)) ∧
      ∀ ix, ix ∈ L ↔ ix.length = bs.length + 1 ∧
        ∀ i, i < bs.length + 1 → ix.getD i 0 < ((a :: bs).getD i []).length := by
  simp only [product] at h
  split at h
  · simp at h
  · simp only [Option.some.injEq] at h
    subst h
    have hprod : (if ((a :: bs).map List.length).any (· == 0) then 0 else ((a :: bs).map List.length).prod) =
        ((a :: bs).map List.length).prod := by
      split
      · rename_i h; rw [prod_zero _ h]
      · rfl
    refine ⟨(List.range ((a :: bs).map List.length).prod).map (digits ((a :: bs).map List.length)), ?_, ?_, ?_⟩
    · simp only [productInner]
      rw [hprod, List.map_map]
      rfl
    · rw [List.pairwise_map, List.pairwise_iff_getElem]
      intro i j hi hj hij
      simp only [List.length_range] at hi hj
      simp only [List.getElem_range]
      exact digits_lt _ i j hij hj
    · intro ix
      have := digits_mem ((a :: bs).map List.length) ix
      simp only [List.mem_map, List.mem_range]
      rw [this]
      have hg : ∀ i, ((a :: bs).map List.length).getD i 0 = ((a :: bs).getD i []).length := by
        intro i
        simp only [List.getD_eq_getElem?_getD, List.getElem?_map]
        cases (a :: bs)[i]? <;> rfl
      simp only [hg, List.length_map, List.length_cons]

/-- RangeError exactly when the arrays so far give more than 1,000,000 elements, an empty array behind them or not. -/
theorem C101_product_raises (a : List α) (bs : List (List α)) :
    product a bs = none ↔ ∃ p q, bs = p ++ q ∧ p ≠ [] ∧ a.length * (p.map List.length).prod > 1000000 := by
  have : product a bs = none ↔ productTooBig a.length (bs.map List.length) = true := by
    simp only [product]; split <;> simp_all
  rw [this, productTooBig_iff]
  constructor
  · rintro ⟨p, q, h1, h2, h3⟩
    obtain ⟨p', q', rfl, rfl, rfl⟩ := List.map_eq_append_iff.1 h1
    exact ⟨p', q', rfl, by rintro rfl; exact h2 rfl, h3⟩
  · rintro ⟨p, q, rfl, h2, h3⟩
    exact ⟨p.map List.length, q.map List.length, by simp, by simpa using h2, h3⟩

/-- So a product of 1001 and 1000 elements, well within memory, is an error, and so is one that is empty. -/
theorem C101_product_fails :
    ∃ a b : List Nat, a.length = 1001 ∧ b.length = 1000 ∧ product a [b] = none ∧ product a [b, []] = none := by
  refine ⟨List.range 1001, List.range 1000, List.length_range, List.length_range, ?_, ?_⟩
  · rw [C101_product_raises]
    refine ⟨[List.range 1000], [], rfl, List.cons_ne_nil _ _, ?_⟩
    simp only [List.map_cons, List.map_nil, List.length_range, List.prod_cons, List.prod_nil]
    omega
  · rw [C101_product_raises]
    refine ⟨[List.range 1000], [[]], rfl, List.cons_ne_nil _ _, ?_⟩
    simp only [List.map_cons, List.map_nil, List.length_range, List.prod_cons, List.prod_nil]
    omega

example : product [1, 2] [[3, 4], [5]] = some [[1, 3, 5], [1, 4, 5], [2, 3, 5], [2, 4, 5]] := by decide

end Verif.Arr
