import Verif.Arr.PermLemmas
import Mathlib.Data.Nat.Choose.Basic
import Mathlib.Data.Nat.Choose.Sum
import Mathlib.Data.Nat.Factorial.Basic

namespace Verif.Arr

theorem sum_map_range' (f : Nat → Nat) (g : Nat → Nat) (m : Nat) : ∀ lo,
    (∀ c, lo ≤ c → c < lo + m → f c + g (c + 1) = g c) →
    ((List.range' lo m).map f).sum + g (lo + m) = g lo := by
  induction m with
  | zero => intro lo _; simp
  | succ m ih =>
    intro lo h
    rw [List.range'_succ, List.map_cons, List.sum_cons]
    have := ih (lo + 1) (fun c h1 h2 => h c (by omega) (by omega))
    have h0 := h lo (Nat.le_refl _) (by omega)
    rw [show lo + 1 + m = lo + (m + 1) by omega] at this
    omega

theorem comb_count (len k : Nat) : ∀ lo, lo + k ≤ len → ((combWay len).gen k lo).length = (len - lo).choose k := by
  induction k with
  | zero => intro lo _; simp [Way.gen]
  | succ k ih =>
    intro lo hle
    rw [Way.gen, List.length_flatMap]
    have hc : (List.range' lo ((combWay len).ub k + 1 - lo)).map
        (fun c => (((combWay len).gen k ((combWay len).τ c)).map (c :: ·)).length) =
        (List.range' lo (len - k - lo)).map fun c => (len - (c + 1)).choose k := by
      have e : (combWay len).ub k + 1 - lo = len - k - lo := by simp only [combWay]; omega
      rw [e]
      apply List.map_congr_left
      intro c hc
      rw [List.mem_range'_1] at hc
      rw [List.length_map]
      exact ih (c + 1) (by omega)
    rw [hc]
    have := sum_map_range' (fun c => (len - (c + 1)).choose k) (fun c => (len - c).choose (k + 1)) (len - k - lo) lo ?_
    · rw [show len - (lo + (len - k - lo)) = k by omega] at this
      rw [Nat.choose_succ_self] at this
      omega
    · intro c h1 h2
      rw [show len - c = (len - (c + 1)) + 1 by omega, Nat.choose_succ_succ]

theorem rcomb_count (len k : Nat) : ∀ lo, lo < len →
    ((rcombWay len).gen k lo).length = (len - lo - 1 + k).choose k := by
  induction k with
  | zero => intro lo _; simp [Way.gen]
  | succ k ih =>
    intro lo hle
    rw [Way.gen, List.length_flatMap]
    have hc : (List.range' lo ((rcombWay len).ub k + 1 - lo)).map
        (fun c => (((rcombWay len).gen k ((rcombWay len).τ c)).map (c :: ·)).length) =
        (List.range' lo (len - lo)).map fun c => (len - c - 1 + k).choose k := by
      have e : (rcombWay len).ub k + 1 - lo = len - lo := by simp only [rcombWay]; omega
      rw [e]
      apply List.map_congr_left
      intro c hc
      rw [List.mem_range'_1] at hc
      rw [List.length_map]
      exact ih c (by omega)
    rw [hc]
    have := sum_map_range' (fun c => (len - c - 1 + k).choose k) (fun c => (len - c + k).choose (k + 1)) (len - lo) lo ?_
    · rw [show len - (lo + (len - lo)) + k = k by omega, Nat.choose_succ_self] at this
      rw [show len - lo - 1 + (k + 1) = len - lo + k by omega]
      omega
    · intro c h1 h2
      rw [show len - c + k = (len - c - 1 + k) + 1 by omega, Nat.choose_succ_succ,
        show len - (c + 1) + k = len - c - 1 + k by omega]

theorem rperm_count (len k : Nat) (hl : 0 < len) : ((rpermWay len).gen k 0).length = len ^ k := by
  induction k with
  | zero => simp [Way.gen]
  | succ k ih =>
    rw [Way.gen, List.length_flatMap]
    have hc : (List.range' 0 ((rpermWay len).ub k + 1 - 0)).map
        (fun c => (((rpermWay len).gen k ((rpermWay len).τ c)).map (c :: ·)).length) =
        (List.range' 0 len).map fun _ => len ^ k := by
      have e : (rpermWay len).ub k + 1 - 0 = len := by simp only [rpermWay]; omega
      rw [e]
      apply List.map_congr_left
      intro c hc
      rw [List.length_map]
      exact ih
    rw [hc]
    simp [Nat.pow_succ, Nat.mul_comm]

theorem perms_count (m : Nat) : ∀ S : List Nat, (perms m S).length = S.length.descFactorial m := by
  induction m with
  | zero => intro S; simp [perms]
  | succ m ih =>
    intro S
    rw [perms, List.length_flatMap]
    have hc : (List.range S.length).map (fun k => ((perms m (S.eraseIdx k)).map (S.getD k 0 :: ·)).length) =
        (List.range S.length).map fun _ => (S.length - 1).descFactorial m := by
      apply List.map_congr_left
      intro k hk
      rw [List.mem_range] at hk
      rw [List.length_map, ih, List.length_eraseIdx, if_pos hk]
    rw [hc]
    cases h : S.length with
    | zero => simp
    | succ s => rw [Nat.succ_descFactorial_succ]; simp only [List.map_const', List.length_range, List.sum_replicate_nat, Nat.add_sub_cancel]

theorem foldl_choose_up (b k : Nat) :
    (List.range' 1 k).foldl (fun v i => v * (b + i) / i) 1 = (b + k).choose k := by
  induction k with
  | zero => simp
  | succ k ih =>
    rw [List.range'_concat, List.foldl_append, ih]
    simp only [List.foldl_cons, List.foldl_nil, Nat.one_mul]
    have := Nat.add_one_mul_choose_eq (b + k) k
    rw [show b + (1 + k) = b + k + 1 by omega, Nat.mul_comm, this, show 1 + k = k + 1 by omega, Nat.mul_div_cancel _ (by omega)]
    rfl

theorem foldl_choose_down (n k : Nat) (hk : k ≤ n) :
    (List.range' 1 k).foldl (fun v i => v * (n + 1 - i) / i) 1 = n.choose k := by
  induction k with
  | zero => simp
  | succ k ih =>
    rw [List.range'_concat, List.foldl_append, ih (by omega)]
    simp only [List.foldl_cons, List.foldl_nil, Nat.one_mul]
    have := Nat.choose_succ_right_eq n k
    rw [show n + 1 - (1 + k) = n - k by omega, ← this, show 1 + k = k + 1 by omega, Nat.mul_div_cancel _ (by omega)]

theorem foldl_desc (len k : Nat) :
    (List.range k).foldl (fun v i => v * (len - i)) 1 = len.descFactorial k := by
  induction k with
  | zero => simp
  | succ k ih => rw [List.range_succ, List.foldl_append, ih, Nat.descFactorial_succ, Nat.mul_comm]; rfl

/-! ## product -/

theorem digitsRev_append (ds : List Nat) (d : Nat) : ∀ k, digitsRev (ds ++ [d]) k = digitsRev ds k ++ [k / ds.prod % d] := by
  induction ds with
  | nil => intro k; simp [digitsRev]
  | cons e ds ih => intro k; simp [digitsRev, ih, Nat.div_div_eq_div_mul]

theorem prod_reverse (ds : List Nat) : ds.reverse.prod = ds.prod := by
  induction ds with
  | nil => rfl
  | cons d ds ih => simp [ih, Nat.mul_comm]

theorem digits_cons (d : Nat) (ds : List Nat) (k : Nat) : digits (d :: ds) k = (k / ds.prod % d) :: digits ds k := by
  rw [digits, List.reverse_cons, digitsRev_append, List.reverse_append, prod_reverse]
  rfl

theorem digits_mod (ds : List Nat) : ∀ k q, digits ds (k + q * ds.prod) = digits ds k := by
  induction ds with
  | nil => intro k q; rfl
  | cons d ds ih =>
    intro k q
    rw [digits_cons, digits_cons, List.prod_cons, ← Nat.mul_assoc, ih]
    rcases Nat.eq_zero_or_pos ds.prod with h | h
    · simp [h]
    · rw [Nat.add_mul_div_right _ _ h, Nat.add_mul_mod_self_right]

theorem digits_lt (ds : List Nat) : ∀ i j, i < j → j < ds.prod → List.Lex (· < ·) (digits ds i) (digits ds j) := by
  induction ds with
  | nil => intro i j h1 h2; simp at h2; omega
  | cons d ds ih =>
    intro i j hij hj
    rw [List.prod_cons] at hj
    have hP : 0 < ds.prod := by
      rcases Nat.eq_zero_or_pos ds.prod with h | h
      · rw [h] at hj; simp at hj
      · exact h
    have hjd : j / ds.prod < d := Nat.div_lt_of_lt_mul (by rwa [Nat.mul_comm])
    have hle : i / ds.prod ≤ j / ds.prod := Nat.div_le_div_right (by omega)
    rw [digits_cons, digits_cons, Nat.mod_eq_of_lt hjd, Nat.mod_eq_of_lt (by omega)]
    rcases Nat.lt_or_ge (i / ds.prod) (j / ds.prod) with h | h
    · exact .rel h
    · have he : i / ds.prod = j / ds.prod := by omega
      rw [he]
      refine .cons ?_
      have hi := Nat.mod_add_div i ds.prod
      have hj' := Nat.mod_add_div j ds.prod
      rw [Nat.mul_comm] at hi hj'
      rw [← hi, ← hj', digits_mod, digits_mod]
      refine ih _ _ ?_ (Nat.mod_lt _ hP)
      rw [he] at hi
      omega

theorem digits_mem (ds : List Nat) : ∀ ix, (∃ k, k < ds.prod ∧ digits ds k = ix) ↔
    ix.length = ds.length ∧ ∀ i, i < ds.length → ix.getD i 0 < ds.getD i 0 := by
  induction ds with
  | nil =>
    intro ix
    constructor
    · rintro ⟨k, -, rfl⟩; simp [digits, digitsRev]
    · intro h; exact ⟨0, by simp, by rw [List.eq_nil_of_length_eq_zero h.1]; rfl⟩
  | cons d ds ih =>
    intro ix
    constructor
    · rintro ⟨k, hk, rfl⟩
      rw [List.prod_cons] at hk
      have hP : 0 < ds.prod := by
        rcases Nat.eq_zero_or_pos ds.prod with h | h
        · rw [h] at hk; simp at hk
        · exact h
      have hd : k / ds.prod < d := Nat.div_lt_of_lt_mul (by rwa [Nat.mul_comm])
      have hk' := Nat.mod_add_div k ds.prod
      rw [Nat.mul_comm] at hk'
      obtain ⟨h1, h2⟩ := (ih (digits ds k)).1 ⟨k % ds.prod, Nat.mod_lt _ hP, by
        rw [← digits_mod ds (k % ds.prod) (k / ds.prod), hk']⟩
      rw [digits_cons, Nat.mod_eq_of_lt hd]
      refine ⟨by simp [h1], ?_⟩
      intro i hi
      cases i with
      | zero => simpa using hd
      | succ i =>
        have := h2 i (by simpa using hi)
        simpa using this
    · rintro ⟨h1, h2⟩
      cases ix with
      | nil => simp at h1
      | cons c t =>
        obtain ⟨k, hk, rfl⟩ := (ih t).2 ⟨by simpa using h1, fun i hi => by
          have := h2 (i + 1) (by simpa using hi)
          simpa using this⟩
        have hc : c < d := by have := h2 0 (by simp); simpa using this
        refine ⟨k + c * ds.prod, ?_, ?_⟩
        · rw [List.prod_cons]
          calc k + c * ds.prod < ds.prod + c * ds.prod := by omega
            _ = (c + 1) * ds.prod := by rw [Nat.add_mul, Nat.one_mul, Nat.add_comm]
            _ ≤ d * ds.prod := Nat.mul_le_mul_right _ hc
        · rw [digits_cons, digits_mod, Nat.add_mul_div_right _ _ (by omega), Nat.div_eq_of_lt hk, Nat.zero_add,
            Nat.mod_eq_of_lt hc]

theorem prod_zero (ds : List Nat) (h : ds.any (· == 0) = true) : ds.prod = 0 := by
  induction ds with
  | nil => simp at h
  | cons d ds ih =>
    rw [List.any_cons, Bool.or_eq_true] at h
    rw [List.prod_cons]
    rcases h with h | h
    · simp at h; simp [h]
    · simp [ih h]

theorem productTooBig_iff (ds : List Nat) : ∀ t, productTooBig t ds = true ↔
    ∃ p q, ds = p ++ q ∧ p ≠ [] ∧ t * p.prod > 1000000 := by
  induction ds with
  | nil => intro t; simp [productTooBig]
  | cons d ds ih =>
    intro t
    rw [productTooBig]
    split
    · rename_i h
      simp only [true_iff]
      exact ⟨[d], ds, rfl, by simp, by simpa using h⟩
    · rename_i h
      rw [ih]
      constructor
      · rintro ⟨p, q, rfl, -, h3⟩
        exact ⟨d :: p, q, rfl, by simp, by rw [List.prod_cons, ← Nat.mul_assoc]; exact h3⟩
      · rintro ⟨p, q, h1, h2, h3⟩
        cases p with
        | nil => exact absurd rfl h2
        | cons x p =>
          simp only [List.cons_append, List.cons.injEq] at h1
          obtain ⟨rfl, rfl⟩ := h1
          refine ⟨p, q, rfl, ?_, by rw [List.prod_cons, ← Nat.mul_assoc] at h3; exact h3⟩
          rintro rfl
          simp at h3; omega

end Verif.Arr
