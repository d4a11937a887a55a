import Verif.FixOps.Model
import Mathlib.Data.Int.Bitwise
import Mathlib.Tactic.Ring
import Mathlib.Tactic.NormNum
import Mathlib.Tactic.Linarith

/-! Words as integers. -/

namespace Verif.FixOps

theorem bm {x : Int} (h1 : -(2 ^ 63) ≤ x) (h2 : x < 2 ^ 63) : x.bmod (2 ^ 64) = x :=
  Int.bmod_eq_of_le (by norm_num; omega) (by norm_num; omega)

theorem w_range (x : W) : -(2 ^ 63) ≤ x.toInt ∧ x.toInt < 2 ^ 63 := by
  have h1 := BitVec.le_toInt x
  have h2 := BitVec.toInt_lt (x := x)
  constructor
  · norm_num at h1 ⊢; omega
  · norm_num at h2 ⊢; omega

theorem tag_toInt {a : Int} (h : inFix a) : (tag a).toInt = 2 * a + 1 := by
  unfold tag inFix at *
  rw [BitVec.toInt_ofInt]
  exact bm (by omega) (by omega)

theorem eq_tag {x : W} {a : Int} (h : inFix a) (hx : x.toInt = 2 * a + 1) : x = tag a := by
  apply BitVec.eq_of_toInt_eq
  rw [tag_toInt h, hx]

theorem one_toInt : (1 : W).toInt = 1 := by decide

theorem sub_one {x : W} (h : -(2 ^ 63) < x.toInt) : (x - 1).toInt = x.toInt - 1 := by
  rw [BitVec.toInt_sub, one_toInt]
  have := w_range x
  exact bm (by omega) (by omega)

theorem untag {a : Int} (h : inFix a) : ((tag a).sshiftRight 1).toInt = a := by
  rw [BitVec.toInt_sshiftRight, tag_toInt h, Int.shiftRight_eq_div_pow]
  omega

theorem untag_tag {a : Int} (h : inFix a) : (tag a - 1).toInt = 2 * a := by
  rw [sub_one (by rw [tag_toInt h]; unfold inFix at h; omega), tag_toInt h]
  omega

/-- bits of a word, from its value as a signed integer -/
theorem testBit_toInt (x : W) (i : Nat) : x.toInt.testBit i = if i < 64 then x.getLsbD i else x.msb := by
  rw [BitVec.toInt_eq_msb_cond]
  cases hm : x.msb with
  | false =>
    simp only [Bool.false_eq_true, if_false]
    show Nat.testBit x.toNat i = _
    split
    · rfl
    · rename_i h
      apply Nat.testBit_lt_two_pow
      exact Nat.lt_of_lt_of_le x.isLt (Nat.pow_le_pow_right (by norm_num) (by omega))
  | true =>
    simp only [if_true]
    have hl := x.isLt
    have : ((x.toNat : Int) - ((2 ^ 64 : Nat) : Int)) = Int.negSucc (2 ^ 64 - (x.toNat + 1)) := by
      rw [Int.negSucc_eq]
      omega
    rw [this]
    show (!(Nat.testBit (2 ^ 64 - (x.toNat + 1)) i)) = _
    rw [Nat.testBit_two_pow_sub_succ hl]
    by_cases h : i < 64
    · simp [h, BitVec.getLsbD]
    · simp [h]

theorem int_ext {a b : Int} (h : ∀ i, a.testBit i = b.testBit i) : a = b :=
  by
  have mixed : ∀ m n : Nat, (∀ i, (Int.ofNat m).testBit i = (Int.negSucc n).testBit i) → False := by
    intro m n h
    have h1 := h (m + n)
    have e1 : (Int.ofNat m).testBit (m + n) = false :=
      Nat.testBit_lt_two_pow (Nat.lt_of_le_of_lt (Nat.le_add_right m n) Nat.lt_two_pow_self)
    have e2 : n.testBit (m + n) = false :=
      Nat.testBit_lt_two_pow (Nat.lt_of_le_of_lt (Nat.le_add_left n m) Nat.lt_two_pow_self)
    have e3 : (Int.negSucc n).testBit (m + n) = !n.testBit (m + n) := rfl
    rw [e1, e3, e2] at h1
    simp at h1
  cases a with
  | ofNat m =>
    cases b with
    | ofNat n => exact congrArg Int.ofNat (Nat.eq_of_testBit_eq h)
    | negSucc n => exact (mixed m n h).elim
  | negSucc m =>
    cases b with
    | ofNat n => exact (mixed n m (fun i => (h i).symm)).elim
    | negSucc n =>
      refine congrArg Int.negSucc (Nat.eq_of_testBit_eq fun i => ?_)
      have := h i
      have e1 : (Int.negSucc m).testBit i = !m.testBit i := rfl
      have e2 : (Int.negSucc n).testBit i = !n.testBit i := rfl
      rw [e1, e2] at this
      simpa using this

theorem toInt_land (x y : W) : (x &&& y).toInt = x.toInt.land y.toInt := by
  apply int_ext
  intro i
  rw [Int.testBit_land, testBit_toInt, testBit_toInt, testBit_toInt]
  split
  · simp
  · simp [BitVec.msb_and]

theorem toInt_lor (x y : W) : (x ||| y).toInt = x.toInt.lor y.toInt := by
  apply int_ext
  intro i
  rw [Int.testBit_lor, testBit_toInt, testBit_toInt, testBit_toInt]
  split
  · simp
  · simp [BitVec.msb_or]

theorem toInt_lxor (x y : W) : (x ^^^ y).toInt = x.toInt.xor y.toInt := by
  apply int_ext
  intro i
  rw [Int.testBit_lxor, testBit_toInt, testBit_toInt, testBit_toInt]
  split
  · simp
  · simp [BitVec.msb_xor]

theorem bit_true (a : Int) : 2 * a + 1 = Int.bit true a := by
  rw [Int.bit_val]; rfl

theorem bit_false (a : Int) : 2 * a = Int.bit false a := by
  rw [Int.bit_val]; simp

/-- `orq r, 1` -/
theorem or_one (x : W) : (x ||| 1).toInt = 2 * (x.toInt / 2) + 1 := by
  rw [toInt_lor, one_toInt]
  have h1 : (1 : Int) = Int.bit true 0 := rfl
  have h2 : x.toInt = Int.bit (Int.bodd x.toInt) (x.toInt / 2) := by
    rw [← Int.div2_val, Int.bit_decomp]
  rw [h2, h1, Int.lor_bit]
  rw [← h2]
  have : Int.lor (x.toInt / 2) 0 = x.toInt / 2 := by
    apply int_ext; intro i
    rw [Int.testBit_lor]
    simp [Int.testBit]
  rw [this, Bool.or_true, ← h1, bit_true]

theorem shl_toInt {x : W} {k : Nat} (h1 : -(2 ^ 63) ≤ x.toInt * 2 ^ k) (h2 : x.toInt * 2 ^ k < 2 ^ 63) :
    (x <<< k).toInt = x.toInt * 2 ^ k := by
  rw [BitVec.toInt_shiftLeft]
  rw [← bm h1 h2, Nat.shiftLeft_eq, BitVec.toInt_eq_msb_cond]
  split
  · have : ((x.toNat * 2 ^ k : Nat) : Int) = ((x.toNat : Int) - ((2 ^ 64 : Nat) : Int)) * 2 ^ k + ((2 ^ 64 : Nat) : Int) * 2 ^ k := by
      push_cast; ring
    rw [this, Int.add_mul_bmod_self_left]
  · push_cast; rfl

end Verif.FixOps
