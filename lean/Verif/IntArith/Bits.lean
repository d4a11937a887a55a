import Verif.IntArith.Lemmas

/-!
Helper lemmas: the bits of an integer, of a machine word read as an integer, and
the Mathlib operators on infinite two's complement.
-/

namespace Verif.IntArith
open Verif.Value

/-- Bit `k` of an integer in infinite two's complement: the parity of
`floor(a / 2^k)`. -/
def bitOf (a : Int) (k : Nat) : Bool := decide (a / 2 ^ k % 2 = 1)

theorem bitOf_ofNat (m k : Nat) : bitOf (m : Int) k = m.testBit k := by
  rw [Nat.testBit_eq_decide_div_mod_eq, bitOf]
  have : (m : Int) / 2 ^ k % 2 = ((m / 2 ^ k % 2 : Nat) : Int) := by push_cast; rfl
  rw [this]
  simp only [decide_eq_decide]
  omega

theorem ediv_not (a : Int) (k : Nat) : (-a - 1) / 2 ^ k = -(a / 2 ^ k) - 1 := by
  have hp := two_pow_pos k
  have h1 := Int.emod_add_mul_ediv a (2 ^ k)
  have h2 := Int.emod_nonneg a (ne_of_gt hp)
  have h3 := Int.emod_lt_of_pos a hp
  rw [Int.ediv_eq_iff_of_pos hp]
  constructor
  · nlinarith
  · nlinarith

theorem bitOf_not (a : Int) (k : Nat) : bitOf (-a - 1) k = !bitOf a k := by
  unfold bitOf
  rw [ediv_not]
  by_cases h : a / 2 ^ k % 2 = 1
  · have : ¬ (-(a / 2 ^ k) - 1) % 2 = 1 := by omega
    simp [h, this]
  · have : (-(a / 2 ^ k) - 1) % 2 = 1 := by omega
    simp [h, this]

theorem bitOf_eq_testBit (a : Int) (k : Nat) : bitOf a k = Int.testBit a k := by
  cases a with
  | ofNat m => exact bitOf_ofNat m k
  | negSucc m =>
    have : Int.negSucc m = -(m : Int) - 1 := by omega
    rw [this, bitOf_not, bitOf_ofNat]
    rw [← this]
    simp [Int.testBit]

/-- Bits of a machine word read as a signed integer. -/
theorem bitOf_toInt (w : BitVec 64) (k : Nat) :
    bitOf w.toInt k = if k < 64 then w.getLsbD k else w.msb := by
  rw [BitVec.toInt_eq_msb_cond]
  cases hm : w.msb with
  | false =>
    simp only [Bool.false_eq_true, if_false, bitOf_ofNat]
    split
    · rfl
    · rename_i h
      exact BitVec.getLsbD_of_ge w k (by omega)
  | true =>
    have hlt := w.isLt
    have e : ((w.toNat : Int) - ((2 ^ 64 : Nat) : Int)) = -(((~~~w).toNat : Nat) : Int) - 1 := by
      rw [BitVec.toNat_not]; omega
    simp only [if_true]
    rw [e, bitOf_not, bitOf_ofNat]
    have : (~~~w).toNat.testBit k = (~~~w).getLsbD k := rfl
    rw [this, BitVec.getLsbD_not]
    split
    · rename_i h; simp [h]
    · rename_i h; simp [h]

/-- The bits determine the integer. -/
theorem bitOf_ext {a b : Int} (h : ∀ k, bitOf a k = bitOf b k) : a = b := by
  have key : ∀ m : Nat, ∀ b : Int, (∀ k, bitOf (m : Int) k = bitOf b k) → (m : Int) = b := by
    intro m b h
    cases b with
    | ofNat n =>
      have : m = n := by
        apply Nat.eq_of_testBit_eq
        intro k
        have := h k
        rwa [bitOf_ofNat, Int.ofNat_eq_natCast, bitOf_ofNat] at this
      rw [this]; rfl
    | negSucc n =>
      exfalso
      have e : Int.negSucc n = -(n : Int) - 1 := by omega
      have h1 := h (m + n)
      rw [e, bitOf_not, bitOf_ofNat, bitOf_ofNat, Nat.testBit_lt_two_pow, Nat.testBit_lt_two_pow] at h1
      · exact absurd h1 (by decide)
      · calc n < 2 ^ n := Nat.lt_two_pow_self
          _ ≤ 2 ^ (m + n) := Nat.pow_le_pow_right (by decide) (by omega)
      · calc m < 2 ^ m := Nat.lt_two_pow_self
          _ ≤ 2 ^ (m + n) := Nat.pow_le_pow_right (by decide) (by omega)
  cases a with
  | ofNat m => exact key m b h
  | negSucc m =>
    have e : Int.negSucc m = -(m : Int) - 1 := by omega
    have : (m : Int) = -b - 1 := by
      apply key
      intro k
      have := h k
      rw [e, bitOf_not] at this
      rw [bitOf_not, ← this, Bool.not_not]
    omega

end Verif.IntArith
