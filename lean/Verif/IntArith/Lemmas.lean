import Verif.IntArith.Model
import Verif.Value.Props
import Mathlib.Tactic.Linarith
import Mathlib.Tactic.Ring

namespace Verif.IntArith
open Verif.Value

/-- Sequencing after a success.  (Stated for an arbitrary continuation so that the
kernel never has to evaluate it.) -/
theorem ok_bind {α β : Type} (x : α) (f : α → Res β) : (Except.ok x >>= f) = f x := rfl

theorem fits64_iff (n : Int) : fits64 n = true ↔ (-(2 ^ 63) ≤ n ∧ n < 2 ^ 63) := by
  simp [fits64]

theorem integerI_eq (n : Int) (h : fits64 n = true) : integerI n = Value.bigint n := by
  rw [fits64_iff] at h
  unfold integerI Value.bigint
  rw [if_pos h]

theorem toVal_integer (n : Int) (h : fits64 n = true) :
    (RealKind.integer n).toVal = Value.bigint n := integerI_eq n h

/-- How an Integer value looks to the operators: inline exactly in the i63 range. -/
theorem ofVal_bigint (n : Int) :
    RealKind.ofVal (Value.bigint n) =
      .ok (if -(2 ^ 62) ≤ n ∧ n < 2 ^ 62 then .integer n else .bigint n) := by
  by_cases h : -(2 ^ 62) ≤ n ∧ n < 2 ^ 62
  · rw [if_pos h]
    obtain ⟨w, hw⟩ := (C01_inline_iff n).2 h
    have hr := C01_bigint_round_trip n
    rw [hw] at hr ⊢
    simp only [toInt?, RealKind.ofVal] at hr ⊢
    split at hr
    · rename_i hf
      rw [if_pos hf, Option.some.inj hr]
    · exact absurd hr (by simp)
  · rw [if_neg h]
    have hr := C01_bigint_round_trip n
    cases hv : Value.bigint n with
    | imm w => exact absurd ((C01_inline_iff n).1 ⟨w, hv⟩) h
    | bigint m =>
      rw [hv] at hr
      simp only [toInt?] at hr
      rw [Option.some.inj hr]; rfl
    | hfloat b => rw [hv] at hr; exact absurd hr (by simp [toInt?])

theorem i63_fits {n : Int} (h : -(2 ^ 62) ≤ n ∧ n < 2 ^ 62) : fits64 n = true := by
  rw [fits64_iff]; omega

/-- Both shapes of an operand denote the same number. -/
inductive Denotes : RealKind → Int → Prop
  | small (n : Int) (h : -(2 ^ 62) ≤ n ∧ n < 2 ^ 62) : Denotes (.integer n) n
  | big (n : Int) (h : ¬ (-(2 ^ 62) ≤ n ∧ n < 2 ^ 62)) : Denotes (.bigint n) n

theorem ofVal_denotes (n : Int) : ∃ k, RealKind.ofVal (Value.bigint n) = .ok k ∧ Denotes k n := by
  rw [ofVal_bigint]
  by_cases h : -(2 ^ 62) ≤ n ∧ n < 2 ^ 62
  · exact ⟨_, rfl, by rw [if_pos h]; exact .small n h⟩
  · exact ⟨_, rfl, by rw [if_neg h]; exact .big n h⟩

theorem binop_toVal (op : Int → Int → Int) {k l : RealKind} {a b : Int}
    (hk : Denotes k a) (hl : Denotes l b) : (binop op k l).toVal = Value.bigint (op a b) := by
  cases hk <;> cases hl <;> simp only [binop]
  · split
    · rename_i h; exact toVal_integer _ h
    · rfl
  all_goals rfl

theorem negKind_toVal {k : RealKind} {a : Int} (hk : Denotes k a) :
    (negKind k).toVal = Value.bigint (-a) := by
  cases hk <;> simp only [negKind]
  · split
    · rename_i h; exact toVal_integer _ h
    · rfl
  · rfl

/-! ### Floored division -/

/-- The defining property of floored division. -/
def IsFloorDivMod (a b q r : Int) : Prop :=
  a = b * q + r ∧ (0 < b → 0 ≤ r ∧ r < b) ∧ (b < 0 → b < r ∧ r ≤ 0)

theorem tdiv_case_pos_neg {a b : Int} (ha : 0 < a) (hb : b < 0) :
    IsFloorDivMod a b ((a - 1).tdiv b - 1) ((a - 1).tmod b + b + 1) := by
  have h1 := Int.mul_tdiv_add_tmod (a - 1) b
  have h2 : 0 ≤ (a - 1).tmod b := Int.tmod_nonneg b (by omega)
  have h3 : (a - 1).tmod b < -b := by
    have := Int.tmod_lt_of_pos (a - 1) (b := -b) (by omega)
    rwa [Int.tmod_neg] at this
  refine ⟨?_, fun h => by omega, fun _ => by omega⟩
  rw [Int.mul_sub, Int.mul_one]
  omega

theorem tdiv_case_neg_pos {a b : Int} (ha : a < 0) (hb : 0 < b) :
    IsFloorDivMod a b ((a + 1).tdiv b - 1) ((a + 1).tmod b + b - 1) := by
  have h1 := Int.mul_tdiv_add_tmod (a + 1) b
  have h2 : (a + 1).tmod b ≤ 0 := by
    have := Int.tmod_nonneg b (a := -(a + 1)) (by omega)
    rw [Int.neg_tmod] at this; omega
  have h3 : -b < (a + 1).tmod b := by
    have := Int.tmod_lt_of_pos (-(a + 1)) (b := b) hb
    rw [Int.neg_tmod] at this; omega
  refine ⟨?_, fun _ => by omega, fun h => by omega⟩
  rw [Int.mul_sub, Int.mul_one]
  omega

theorem tdiv_case_same {a b : Int} (h1 : ¬ (a > 0 ∧ b < 0)) (h2 : ¬ (a < 0 ∧ b > 0)) :
    IsFloorDivMod a b (a.tdiv b) (a.tmod b) := by
  have h := Int.mul_tdiv_add_tmod a b
  refine ⟨h.symm, fun hp => ?_, fun hn => ?_⟩
  · have ha : 0 ≤ a := by omega
    exact ⟨Int.tmod_nonneg b ha, Int.tmod_lt_of_pos a hp⟩
  · have ha : a ≤ 0 := by omega
    have h3 := Int.tmod_nonneg b (a := -a) (by omega)
    rw [Int.neg_tmod] at h3
    have h4 := Int.tmod_lt_of_pos (-a) (b := -b) (by omega)
    rw [Int.neg_tmod, Int.tmod_neg] at h4
    omega

/-- Quotient bound used to exclude overflow: for operands in the i63 range the
quotient stays far inside `i64`. -/
theorem abs_tdiv_le (a b : Int) : (a.tdiv b).natAbs ≤ a.natAbs :=
  Int.natAbs_tdiv_le_natAbs a b

theorem chk_ok {n : Int} (h : -(2 ^ 63) ≤ n ∧ n < 2 ^ 63) : chk n = .ok n := by
  unfold chk; rw [if_pos ((fits64_iff n).2 h)]

theorem tmod_abs_lt (a : Int) {b : Int} (hb : b ≠ 0) : (a.tmod b).natAbs < b.natAbs := by
  rw [Int.natAbs_tmod]
  exact Nat.mod_lt a.natAbs (by omega)

/-- The `i64` paths never panic on inline operands and agree with the `BigInt`
formulas. -/
theorem divModI64_ok {a b : Int} (ha : -(2 ^ 62) ≤ a ∧ a < 2 ^ 62)
    (hb : -(2 ^ 62) ≤ b ∧ b < 2 ^ 62) (h0 : b ≠ 0) :
    ∃ q r, divI64 a b = .ok q ∧ modI64 a b = .ok r ∧ divModI64 a b = .ok (q, r) ∧
      IsFloorDivMod a b q r ∧ fits64 q = true ∧ fits64 r = true := by
  unfold divI64 modI64 divModI64
  rw [if_neg h0, if_neg h0, if_neg h0]
  by_cases h1 : a > 0 ∧ b < 0
  · rw [if_pos h1, if_pos h1, if_pos h1]
    have e1 := abs_tdiv_le (a - 1) b
    have e2 := tmod_abs_lt (a - 1) h0
    have c1 : chk (a - 1) = .ok (a - 1) := chk_ok (by omega)
    have c2 : chk ((a - 1).tdiv b) = .ok ((a - 1).tdiv b) := chk_ok (by omega)
    have c3 : chk ((a - 1).tdiv b - 1) = .ok ((a - 1).tdiv b - 1) := chk_ok (by omega)
    have c4 : chk ((a - 1).tmod b + b) = .ok ((a - 1).tmod b + b) := chk_ok (by omega)
    have c5 : chk ((a - 1).tmod b + b + 1) = .ok ((a - 1).tmod b + b + 1) := chk_ok (by omega)
    refine ⟨(a - 1).tdiv b - 1, (a - 1).tmod b + b + 1, ?_, ?_, ?_,
      tdiv_case_pos_neg h1.1 h1.2, ?_, ?_⟩
    · simp [c1, c2, c3, bind, Except.bind]
    · simp [c1, c4, c5, bind, Except.bind]
    · simp [c1, c2, c3, c4, c5, bind, Except.bind, pure, Except.pure]
    · rw [fits64_iff]; omega
    · rw [fits64_iff]; omega
  · rw [if_neg h1, if_neg h1, if_neg h1]
    by_cases h2 : a < 0 ∧ b > 0
    · rw [if_pos h2, if_pos h2, if_pos h2]
      have e1 := abs_tdiv_le (a + 1) b
      have e2 := tmod_abs_lt (a + 1) h0
      have c1 : chk (a + 1) = .ok (a + 1) := chk_ok (by omega)
      have c2 : chk ((a + 1).tdiv b) = .ok ((a + 1).tdiv b) := chk_ok (by omega)
      have c3 : chk ((a + 1).tdiv b - 1) = .ok ((a + 1).tdiv b - 1) := chk_ok (by omega)
      have c4 : chk ((a + 1).tmod b + b) = .ok ((a + 1).tmod b + b) := chk_ok (by omega)
      have c5 : chk ((a + 1).tmod b + b - 1) = .ok ((a + 1).tmod b + b - 1) := chk_ok (by omega)
      refine ⟨(a + 1).tdiv b - 1, (a + 1).tmod b + b - 1, ?_, ?_, ?_,
        tdiv_case_neg_pos h2.1 h2.2, ?_, ?_⟩
      · simp [c1, c2, c3, bind, Except.bind]
      · simp [c1, c4, c5, bind, Except.bind]
      · simp [c1, c2, c3, c4, c5, bind, Except.bind, pure, Except.pure]
      · rw [fits64_iff]; omega
      · rw [fits64_iff]; omega
    · rw [if_neg h2, if_neg h2, if_neg h2]
      have e1 := abs_tdiv_le a b
      have e2 := tmod_abs_lt a h0
      have c1 : chk (a.tdiv b) = .ok (a.tdiv b) := chk_ok (by omega)
      have c2 : chk (a.tmod b) = .ok (a.tmod b) := chk_ok (by omega)
      refine ⟨a.tdiv b, a.tmod b, c1, ?_, ?_, tdiv_case_same h1 h2, ?_, ?_⟩
      · simp [c1, c2, bind, Except.bind]
      · simp [c1, c2, bind, Except.bind, pure, Except.pure]
      · rw [fits64_iff]; omega
      · rw [fits64_iff]; omega

theorem divModBig_ok {a b : Int} (h0 : b ≠ 0) :
    ∃ q r, divBig a b = .ok q ∧ modBig a b = .ok r ∧ divModBig a b = .ok (q, r) ∧
      IsFloorDivMod a b q r := by
  unfold divBig modBig divModBig
  rw [if_neg h0, if_neg h0, if_neg h0]
  by_cases h1 : a > 0 ∧ b < 0
  · rw [if_pos h1, if_pos h1, if_pos h1]
    exact ⟨_, _, rfl, rfl, rfl, tdiv_case_pos_neg h1.1 h1.2⟩
  · rw [if_neg h1, if_neg h1, if_neg h1]
    by_cases h2 : a < 0 ∧ b > 0
    · rw [if_pos h2, if_pos h2, if_pos h2]
      exact ⟨_, _, rfl, rfl, rfl, tdiv_case_neg_pos h2.1 h2.2⟩
    · rw [if_neg h2, if_neg h2, if_neg h2]
      exact ⟨_, _, rfl, rfl, rfl, tdiv_case_same h1 h2⟩

theorem Denotes.isZero {k : RealKind} {b : Int} (h : Denotes k b) : k.isZero = (b == 0) := by
  cases h <;> rfl

/-- Division on any mix of representations. -/
theorem rubyDivMod_ok {k l : RealKind} {a b : Int} (hk : Denotes k a) (hl : Denotes l b)
    (h0 : b ≠ 0) :
    ∃ kq kr q r, rubyDiv k l = .ok kq ∧ rubyMod k l = .ok kr ∧ rubyDivMod k l = .ok (kq, kr) ∧
      kq.toVal = Value.bigint q ∧ kr.toVal = Value.bigint r ∧ IsFloorDivMod a b q r := by
  cases hk with
  | small _ ha =>
    cases hl with
    | small _ hb =>
      obtain ⟨q, r, e1, e2, e3, hs, f1, f2⟩ := divModI64_ok ha hb h0
      exact ⟨.integer q, .integer r, q, r, by simp [rubyDiv, e1, bind, Except.bind, pure, Except.pure],
        by simp [rubyMod, e2, bind, Except.bind, pure, Except.pure],
        by simp [rubyDivMod, e3, bind, Except.bind, pure, Except.pure],
        toVal_integer _ f1, toVal_integer _ f2, hs⟩
    | big _ hb =>
      obtain ⟨q, r, e1, e2, e3, hs⟩ := divModBig_ok (a := a) h0
      exact ⟨.bigint q, .bigint r, q, r, by simp [rubyDiv, e1, bind, Except.bind, pure, Except.pure],
        by simp [rubyMod, e2, bind, Except.bind, pure, Except.pure],
        by simp [rubyDivMod, e3, bind, Except.bind, pure, Except.pure], rfl, rfl, hs⟩
  | big _ ha =>
    obtain ⟨q, r, e1, e2, e3, hs⟩ := divModBig_ok (a := a) h0
    cases hl with
    | small _ hb =>
      exact ⟨.bigint q, .bigint r, q, r, by simp [rubyDiv, e1, bind, Except.bind, pure, Except.pure],
        by simp [rubyMod, e2, bind, Except.bind, pure, Except.pure],
        by simp [rubyDivMod, e3, bind, Except.bind, pure, Except.pure], rfl, rfl, hs⟩
    | big _ hb =>
      exact ⟨.bigint q, .bigint r, q, r, by simp [rubyDiv, e1, bind, Except.bind, pure, Except.pure],
        by simp [rubyMod, e2, bind, Except.bind, pure, Except.pure],
        by simp [rubyDivMod, e3, bind, Except.bind, pure, Except.pure], rfl, rfl, hs⟩

/-! ### Shifts -/

theorem wrap64_of_fits {n : Int} (h : fits64 n = true) : wrap64 n = n := by
  rw [fits64_iff] at h
  exact Int.bmod_eq_of_le (by omega) (by omega)

theorem wrap64_fits (n : Int) : fits64 (wrap64 n) = true := by
  rw [fits64_iff]
  unfold wrap64
  have h1 := Int.le_bmod (x := n) (m := 2 ^ 64) (by decide)
  have h2 := Int.bmod_lt (x := n) (m := 2 ^ 64) (by decide)
  omega

theorem two_pow_pos (r : Nat) : (0 : Int) < 2 ^ r := by positivity

/-- If shifting back recovers the operand then the shift did not lose bits.
This is the check in `safe_int_shl` and `fold_shl_pos`. -/
theorem shl_lossless {l : Int} {r : Nat} (h64 : r < 64)
    (h : wrap64 (l * 2 ^ r) / 2 ^ r = l) : wrap64 (l * 2 ^ r) = l * 2 ^ r := by
  have h1 : ∃ c : Int, wrap64 (l * 2 ^ r) = l * 2 ^ r + c * 2 ^ 64 := by
    unfold wrap64
    have := Int.bmod_eq_emod (x := l * 2 ^ r) (m := 2 ^ 64)
    have h2 := Int.emod_add_mul_ediv (l * 2 ^ r) ((2 ^ 64 : Nat) : Int)
    rw [this]
    push_cast at h2 ⊢
    split
    · exact ⟨-(l * 2 ^ r / 18446744073709551616) - 1, by linarith⟩
    · exact ⟨-(l * 2 ^ r / 18446744073709551616), by linarith⟩
  obtain ⟨c, hc⟩ := h1
  have hsplit : (2 : Int) ^ 64 = 2 ^ r * 2 ^ (64 - r) := by
    rw [← pow_add]; congr 1; omega
  have h3 : wrap64 (l * 2 ^ r) = (l + c * 2 ^ (64 - r)) * 2 ^ r := by
    rw [hc, hsplit]; ring
  rw [h3, Int.mul_ediv_cancel _ (ne_of_gt (two_pow_pos r))] at h
  have : c * 2 ^ (64 - r) = 0 := by linarith
  rw [h3, this, add_zero]

theorem ediv_sign_of_small {l : Int} {r : Nat} (h : l.natAbs < 2 ^ r) :
    l / 2 ^ r = if l < 0 then -1 else 0 := by
  have hp := two_pow_pos r
  have hc : ((2 ^ r : Nat) : Int) = 2 ^ r := by push_cast; rfl
  split
  · rename_i hneg
    have : -(2 ^ r : Int) < l := by omega
    rw [Int.ediv_eq_iff_of_pos hp]
    omega
  · apply Int.ediv_eq_zero_of_lt <;> omega

theorem natAbs_lt_two_pow_of_fits {l : Int} {r : Nat} (h : -(2 ^ 62) ≤ l ∧ l < 2 ^ 62)
    (hr : 64 ≤ r) : l.natAbs < 2 ^ r := by
  have : (2 : Nat) ^ 64 ≤ 2 ^ r := Nat.pow_le_pow_right (by decide) hr
  omega

end Verif.IntArith
