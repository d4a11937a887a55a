import Verif.Value.Model
import Mathlib.Tactic.IntervalCases

namespace Verif.Value

theorem isFixnum_eq (w : BitVec 64) : isFixnum w = w.getLsbD 0 := by
  rw [isFixnum, Bool.eq_iff_iff, beq_iff_eq]
  constructor
  · intro h
    have := congrArg (·.getLsbD 0) h
    simpa using this
  · intro h
    apply BitVec.eq_of_getLsbD_eq
    intro i hi
    by_cases h0 : i = 0
    · subst h0; simpa using h
    · simp [h0]

theorem isFlonum_eq (w : BitVec 64) : isFlonum w = (!w.getLsbD 0 && w.getLsbD 1) := by
  rw [isFlonum, Bool.eq_iff_iff, beq_iff_eq]
  constructor
  · intro h
    have h0 := congrArg (·.getLsbD 0) h
    have h1 := congrArg (·.getLsbD 1) h
    simp at h0 h1
    simp [h0, h1]
  · intro h
    simp at h
    apply BitVec.eq_of_getLsbD_eq
    intro i hi
    interval_cases i <;> simp [h]

theorem isPacked_eq (w : BitVec 64) :
    isPacked w = (w.getLsbD 0 || w.getLsbD 1 || w.getLsbD 2) := by
  rw [isPacked, Bool.eq_iff_iff, bne_iff_ne]
  constructor
  · intro h
    by_contra hc
    simp at hc
    apply h
    apply BitVec.eq_of_getLsbD_eq
    intro i hi
    interval_cases i <;> simp [hc]
  · intro h hc
    have h0 := congrArg (·.getLsbD 0) hc
    have h1 := congrArg (·.getLsbD 1) hc
    have h2 := congrArg (·.getLsbD 2) hc
    simp at h0 h1 h2
    simp [h0, h1, h2] at h

theorem isSymbol_eq (w : BitVec 64) :
    isSymbol w = (!w.getLsbD 0 && !w.getLsbD 1 && w.getLsbD 2 && w.getLsbD 3 &&
      !w.getLsbD 4 && !w.getLsbD 5 && !w.getLsbD 6 && !w.getLsbD 7) := by
  rw [isSymbol, Bool.eq_iff_iff, beq_iff_eq]
  constructor
  · intro h
    have h0 := congrArg (·.getLsbD 0) h
    have h1 := congrArg (·.getLsbD 1) h
    have h2 := congrArg (·.getLsbD 2) h
    have h3 := congrArg (·.getLsbD 3) h
    have h4 := congrArg (·.getLsbD 4) h
    have h5 := congrArg (·.getLsbD 5) h
    have h6 := congrArg (·.getLsbD 6) h
    have h7 := congrArg (·.getLsbD 7) h
    simp [TAG_SYMBOL] at h0 h1 h2 h3 h4 h5 h6 h7
    simp [*]
  · intro h
    simp at h
    apply BitVec.eq_of_getLsbD_eq
    intro i hi
    interval_cases i <;> simp [h, TAG_SYMBOL]

/-- Bits of an inline integer word. -/
theorem fixnum_bit0 (n : BitVec 64) : (fixnum n).getLsbD 0 = true := by
  simp [fixnum]

theorem isI63_eq (n : BitVec 64) : isI63 n = (n.getLsbD 62 == n.getLsbD 63) := by
  rw [isI63, Bool.eq_iff_iff, beq_iff_eq, beq_iff_eq]
  constructor
  · intro h
    have h0 := congrArg (·.getLsbD 0) h
    simp at h0
    exact h0
  · intro h
    apply BitVec.eq_of_getLsbD_eq
    intro i hi
    by_cases h0 : i = 0
    · subst h0; simpa using h
    · simp [h0]

theorem fixnum_sshiftRight (n : BitVec 64) (h : isI63 n = true) :
    (fixnum n).sshiftRight 1 = n := by
  rw [isI63_eq, beq_iff_eq] at h
  apply BitVec.eq_of_getLsbD_eq
  intro i hi
  rw [BitVec.getLsbD_sshiftRight]
  by_cases h63 : i = 63
  · subst h63; simpa [fixnum, BitVec.msb_eq_getLsbD_last] using h
  · have : 1 + i < 64 := by omega
    simp [fixnum, hi, this]

theorem isI63_iff (n : BitVec 64) :
    isI63 n = true ↔ (-(2 ^ 62) ≤ n.toInt ∧ n.toInt < 2 ^ 62) := by
  rw [isI63_eq, beq_iff_eq]
  have h63 : n.getLsbD 63 = decide (2 ^ 63 ≤ n.toNat) := by
    have := BitVec.msb_eq_decide n
    simpa [BitVec.msb_eq_getLsbD_last] using this
  have h62 : n.getLsbD 62 = decide (2 ^ 62 ≤ n.toNat % 2 ^ 63) := by
    rw [BitVec.getLsbD, Nat.testBit_eq_decide_div_mod_eq]
    congr 1
    rw [eq_iff_iff]
    omega
  rw [h63, h62, BitVec.toInt_eq_toNat_cond]
  have := n.isLt
  rw [decide_eq_decide]
  split <;> omega

theorem toInt?_integer (n : BitVec 64) : toInt? (integer n) = some n.toInt := by
  unfold integer
  split
  · rename_i h
    have h0 : isFixnum (fixnum n) = true := by rw [isFixnum_eq]; exact fixnum_bit0 n
    simp [toInt?, h0, fixnum_sshiftRight n h]
  · rfl

theorem toInt_ofInt_of_range {n : Int} (h : -(2 ^ 63) ≤ n ∧ n < 2 ^ 63) :
    (BitVec.ofInt 64 n).toInt = n := by
  rw [BitVec.toInt_ofInt]
  exact Int.bmod_eq_of_le (by omega) (by omega)

theorem toInt?_bigint (n : Int) : toInt? (bigint n) = some n := by
  unfold bigint
  split
  · rename_i h
    rw [toInt?_integer, toInt_ofInt_of_range h]
  · rfl

/-! ### Floats -/

theorem flonumCond_iff (b : BitVec 64) :
    (((((b >>> 60) &&& 7#64) + 1#64) &&& 6#64) = 4#64) ↔
      (b.getLsbD 62 ≠ b.getLsbD 61 ∧ b.getLsbD 61 = b.getLsbD 60) := by
  have hx : ((b >>> 60) &&& 7#64) =
      (((BitVec.ofBool (b.getLsbD 62)).setWidth 64) <<< 2) |||
      (((BitVec.ofBool (b.getLsbD 61)).setWidth 64) <<< 1) |||
      ((BitVec.ofBool (b.getLsbD 60)).setWidth 64) := by
    apply BitVec.eq_of_getLsbD_eq
    intro i hi
    interval_cases i <;> simp
  rw [hx]
  cases b.getLsbD 62 <;> cases b.getLsbD 61 <;> cases b.getLsbD 60 <;> decide

/-- The float pattern that shares its inline word with `0.0`. -/
def COLLIDE : BitVec 64 := 0x3000000000000000#64

theorem enc_bits (b : BitVec 64) (i : Nat) (hi : i < 64) :
    (((b.rotateLeft 3) &&& ~~~1#64) ||| 2#64).getLsbD i =
      (if i = 0 then false else if i = 1 then true else if i = 2 then b.getLsbD 63
        else b.getLsbD (i - 3)) := by
  interval_cases i <;> simp

theorem enc_eq_zero_iff (b : BitVec 64)
    (hc : b.getLsbD 62 ≠ b.getLsbD 61 ∧ b.getLsbD 61 = b.getLsbD 60) :
    (((b.rotateLeft 3) &&& ~~~1#64) ||| 2#64) = FLOAT_ZERO ↔ b = COLLIDE := by
  constructor
  · intro h
    have key : ∀ i, i < 64 → (if i = 0 then false else if i = 1 then true
        else if i = 2 then b.getLsbD 63 else b.getLsbD (i - 3)) = FLOAT_ZERO.getLsbD i := by
      intro i hi
      rw [← enc_bits b i hi, h]
    have h60 : b.getLsbD 60 = true := by
      have := key 63 (by omega); simpa [FLOAT_ZERO] using this
    have h61 : b.getLsbD 61 = true := by rw [hc.2, h60]
    have h62 : b.getLsbD 62 = false := by
      cases h : b.getLsbD 62 with
      | false => rfl
      | true => exact absurd (h.trans h61.symm) hc.1
    have h63 : b.getLsbD 63 = false := by
      have := key 2 (by omega); simpa [FLOAT_ZERO] using this
    apply BitVec.eq_of_getLsbD_eq
    intro i hi
    by_cases h1 : i < 60
    · have := key (i + 3) (by omega)
      rw [if_neg (by omega), if_neg (by omega), if_neg (by omega)] at this
      rw [Nat.add_sub_cancel] at this
      rw [this]
      clear this
      interval_cases i <;> decide
    · have : i = 60 ∨ i = 61 ∨ i = 62 ∨ i = 63 := by omega
      rcases this with rfl | rfl | rfl | rfl
      · rw [h60]; decide
      · rw [h61]; decide
      · rw [h62]; decide
      · rw [h63]; decide
  · rintro rfl
    decide

theorem bit_sub (u : BitVec 64) :
    2#64 - ((u >>> 63) &&& 1#64) = if u.getLsbD 63 then 1#64 else 2#64 := by
  have hx : ((u >>> 63) &&& 1#64) = (BitVec.ofBool (u.getLsbD 63)).setWidth 64 := by
    apply BitVec.eq_of_getLsbD_eq
    intro i hi
    by_cases h0 : i = 0
    · subst h0; simp
    · have : 63 + i ≥ 64 := by omega
      simp [h0]
  rw [hx]
  cases u.getLsbD 63 <;> decide

theorem dec_enc (b : BitVec 64)
    (hc : b.getLsbD 62 ≠ b.getLsbD 61 ∧ b.getLsbD 61 = b.getLsbD 60) (hne : b ≠ COLLIDE) :
    asFlonum (((b.rotateLeft 3) &&& ~~~1#64) ||| 2#64) = b := by
  have hz : ¬ (((b.rotateLeft 3) &&& ~~~1#64) ||| 2#64) = FLOAT_ZERO :=
    fun h => hne ((enc_eq_zero_iff b hc).1 h)
  have hbits := enc_bits b
  generalize (((b.rotateLeft 3) &&& ~~~1#64) ||| 2#64) = u at hz hbits
  unfold asFlonum
  rw [if_neg hz]
  simp only []
  rw [bit_sub]
  have hu63 : u.getLsbD 63 = b.getLsbD 60 := by
    have := hbits 63 (by omega); simpa using this
  rw [hu63]
  apply BitVec.eq_of_getLsbD_eq
  intro i hi
  rw [BitVec.getLsbD_rotateRight]
  by_cases h1 : i < 61
  · have hb := hbits (i + 3) (by omega)
    rw [if_neg (by omega), if_neg (by omega), if_neg (by omega), Nat.add_sub_cancel] at hb
    have e : (3 + i) = i + 3 := by omega
    have hne3 : ((3#64).getLsbD (i + 3)) = false := by interval_cases i <;> decide
    have hne1 : ((1#64).getLsbD (i + 3)) = false := by interval_cases i <;> decide
    have hne2 : ((2#64).getLsbD (i + 3)) = false := by interval_cases i <;> decide
    have : i < 64 - 3 % 64 := by omega
    rw [decide_eq_true this, cond_true]
    rw [show 3 % 64 + i = i + 3 by omega]
    rw [BitVec.getLsbD_or, BitVec.getLsbD_and, BitVec.getLsbD_not, hb, hne3]
    have : decide (i + 3 < 64) = true := by simp; omega
    rw [this]
    cases b.getLsbD 60 <;> simp [hne1, hne2]
  · have h2 := hbits 2 (by omega)
    simp at h2
    have hi3 : i = 61 ∨ i = 62 ∨ i = 63 := by omega
    obtain ⟨c1, c2⟩ := hc
    simp at c1 c2
    rcases hi3 with rfl | rfl | rfl
    · simp
      rw [c2]; cases b[60] <;> simp
    · simp
      rw [c2] at c1
      cases h60 : b[60] <;> cases h62 : b[62] <;> simp_all
    · simp [h2]
      cases b[60] <;> simp

end Verif.Value
