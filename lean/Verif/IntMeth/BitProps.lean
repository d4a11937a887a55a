import Verif.IntMeth.ArithProps
import Verif.IntArith.Bits

/-!
C114: `Integer#[]` and the bit predicates.
-/

namespace Verif.IntMeth
open Verif.IntArith (wrap64 asU32 fits64 fits64_iff wrap64_of_fits bitOf bitOf_eq_testBit bitOf_ext)

/-- Bits from `k` on of an integer in infinite two's complement; `k` may be negative, then
zeros are appended: the floor of `b / 2^k`. -/
def bitsAbove (b k : Int) : Int := if 0 ≤ k then b / 2 ^ k.toNat else b * 2 ^ (-k).toNat

/-- `w` bits from `k` on. -/
def bitField (b k : Int) (w : Nat) : Int := bitsAbove b k % 2 ^ w

/-- A bit field read bit by bit. -/
theorem bitField_bits (b : Int) (k w i : Nat) :
    bitOf (bitField b k w) i = (decide (i < w) && bitOf b (k + i)) := by
  unfold bitField bitsAbove
  rw [if_pos (by omega), Int.toNat_natCast]
  unfold bitOf
  by_cases h : i < w
  · simp only [h, decide_true, Bool.true_and, decide_eq_decide]
    have e : (2 : Int) ^ w = 2 ^ i * (2 * 2 ^ (w - i - 1)) := by
      have : w = i + (1 + (w - i - 1)) := by omega
      conv_lhs => rw [this, pow_add, pow_add, pow_one]
    have hp : (0 : Int) < 2 ^ i := by positivity
    rw [pow_add, ← Int.ediv_ediv_of_nonneg (by positivity)]
    generalize b / 2 ^ k = x
    have h2 : x % 2 ^ w = x + 2 ^ i * (2 * (-(2 ^ (w - i - 1) * (x / 2 ^ w)))) := by
      have := Int.emod_add_mul_ediv x (2 ^ w)
      have e2 : 2 ^ w * (x / 2 ^ w) = 2 ^ i * (2 * 2 ^ (w - i - 1)) * (x / 2 ^ w) := by rw [← e]
      linarith
    rw [h2, Int.add_mul_ediv_left _ _ hp.ne']
    generalize -(2 ^ (w - i - 1) * (x / 2 ^ w)) = y
    omega
  · simp only [h, decide_false, Bool.false_and, decide_eq_false_iff_not]
    have h1 := Int.emod_nonneg (b / 2 ^ k) (b := 2 ^ w) (by positivity)
    have h2 := Int.emod_lt_of_pos (b / 2 ^ k) (b := 2 ^ w) (by positivity)
    have h3 : (2 : Int) ^ w ≤ 2 ^ i := pow_le_pow_right₀ (by norm_num) (by omega)
    rw [Int.ediv_eq_zero_of_lt h1 (by omega)]
    decide

theorem isFix_iff (n : Int) : isFix n = true ↔ (-(2 ^ 62) ≤ n ∧ n < 2 ^ 62) := by
  simp [isFix]

theorem bitOf_land (a m : Int) (k : Nat) : bitOf (Int.land a m) k = (bitOf a k && bitOf m k) := by
  rw [bitOf_eq_testBit, bitOf_eq_testBit, bitOf_eq_testBit, Int.testBit_land]

theorem bitOf_mask (w k : Nat) : bitOf (2 ^ w - 1) k = decide (k < w) := by
  have : ((2 : Int) ^ w - 1) = ((2 ^ w - 1 : Nat) : Int) := by
    have : 1 ≤ 2 ^ w := Nat.one_le_two_pow
    push_cast [this]; rfl
  rw [this, Verif.IntArith.bitOf_ofNat, Nat.testBit_two_pow_sub_one]

theorem land_mask (a : Int) (w : Nat) : Int.land a (2 ^ w - 1) = a % 2 ^ w := by
  apply bitOf_ext
  intro k
  rw [bitOf_land, bitOf_mask]
  have := bitField_bits a 0 w k
  unfold bitField bitsAbove at this
  simp at this
  rw [this, Bool.and_comm]

theorem land_neg_one (a : Int) : Int.land a (-1) = a := by
  apply bitOf_ext
  intro k
  rw [bitOf_land]
  have : bitOf (-1) k = true := by
    have := Verif.IntArith.bitOf_not 0 k
    simp at this
    rw [this]; simp [bitOf]
  rw [this, Bool.and_true]

theorem maskBig_land (a : Int) {w : Int} (_h : 0 ≤ w) : Int.land a (maskBig w) = a % 2 ^ w.toNat :=
  land_mask a _

theorem mask64_land (a : Int) {w : Int} (h : 0 ≤ w ∧ w < 64) :
    Int.land a (mask64 w) = a % 2 ^ w.toNat := by
  have : mask64 w = 2 ^ w.toNat - 1 := by
    obtain ⟨n, rfl⟩ := Int.eq_ofNat_of_zero_le h.1
    have hn : n < 64 := by omega
    have key : ∀ m : Fin 64, mask64 (m.val : Int) = 2 ^ m.val - 1 := by decide +kernel
    exact key ⟨n, hn⟩
  rw [this, land_mask]

theorem shr64_eq (b : Int) {k : Int} (h : 0 ≤ k ∧ k < 64) : shr64 b k = b / 2 ^ k.toNat := by
  unfold shr64
  rw [Int.emod_eq_of_lt h.1 h.2]

theorem fix_far {b : Int} (hb : isFix b = true) {k : Int} (h : 64 ≤ k) :
    b / 2 ^ k.toNat = if b < 0 then -1 else 0 := by
  rw [isFix_iff] at hb
  have h3 : (2 : Int) ^ 64 ≤ 2 ^ k.toNat := pow_le_pow_right₀ (by norm_num) (by omega)
  split
  · rw [Int.ediv_eq_iff_of_pos (by positivity)]
    constructor <;> omega
  · rw [Int.ediv_eq_zero_of_lt (by omega) (by omega)]

theorem shiftBig_eq (b k : Int) : shiftBig b k = bitsAbove b k := by
  unfold shiftBig bitsAbove; rfl

theorem bitsFrom_eq (b k : Int) : bitsFrom b k = bitsAbove b k := by
  unfold bitsFrom
  split
  · rename_i hb
    unfold bitsAbove
    by_cases h : k ≥ 0
    · rw [if_pos h, if_pos h]
      split
      · rw [fix_far hb (by assumption)]
      · rw [shr64_eq b ⟨h, by omega⟩]
    · rw [if_neg h, if_neg h]
  · exact shiftBig_eq b k

theorem land_unmasked {s : Int} {w : Int} (h : w > (Nat.size s.natAbs : Int) + 1) (hs : s ≥ 0) :
    s = s % 2 ^ w.toNat := by
  rw [Int.emod_eq_of_lt hs]
  have h1 : s.natAbs < 2 ^ Nat.size s.natAbs := Nat.lt_size_self _
  have h2 : 2 ^ Nat.size s.natAbs ≤ 2 ^ w.toNat := Nat.pow_le_pow_right (by omega) (by omega)
  have h3 : ((s.natAbs : Int)) < ((2 ^ w.toNat : Nat) : Int) := by exact_mod_cast lt_of_lt_of_le h1 h2
  have h4 : (((2 ^ w.toNat : Nat) : Int)) = 2 ^ w.toNat := by push_cast; rfl
  rw [h4] at h3
  generalize (2 : Int) ^ w.toNat = X at *
  omega

/-- `n[i]` is bit `i` of the infinite two's complement, 0 below position 0. -/
theorem C114_bit_partial (b i : Int) (hi : isFix i = true) :
    aref1 b i = if 0 ≤ i ∧ bitOf b i.toNat = true then 1 else 0 := by
  have one : ∀ x : Int, Int.land x 1 = x % 2 := by
    intro x; have := land_mask x 1; simpa using this
  have fin : ∀ n : Nat, (b / 2 ^ n) % 2 = if bitOf b n = true then 1 else 0 := by
    intro n; unfold bitOf; simp only [decide_eq_true_eq]; split <;> omega
  unfold aref1
  by_cases hb : isFix b = true
  · rw [if_pos hb, if_pos hi]
    by_cases h0 : i < 0
    · rw [if_pos h0, if_neg (by omega)]
    · rw [if_neg h0]
      have h0' : 0 ≤ i := by omega
      simp only [h0', true_and]
      rw [← fin]
      split
      · rw [fix_far hb (by omega)]; split <;> rfl
      · rw [one, shr64_eq _ ⟨h0', by omega⟩]
  · rw [if_neg hb, if_pos hi]
    by_cases h0 : i < 0
    · rw [if_pos h0, if_neg (by omega)]
    · rw [if_neg h0]
      have h0' : 0 ≤ i := by omega
      simp only [h0', true_and]
      rw [← fin, one]

example : aref1 (-5) 2 = 0 ∧ aref1 (-5) 70 = 1 ∧ aref1 (2 ^ 80 + 4) 80 = 1 := by decide +kernel

/-- Beyond the immediates every bit reads 0, also of a negative number. -/
theorem C114_far_bit_fails (b : Int) (hb : b < 0) :
    aref1 b (2 ^ 64) = 0 ∧ (b.natAbs ≤ 2 ^ 64 → bitOf b (2 ^ 64) = true) := by
  constructor
  · unfold aref1
    have : isFix (2 ^ 64) = false := by decide
    rw [this]; split <;> rfl
  · intro h
    unfold bitOf
    have hlt : (2 : Int) ^ 64 ≤ 2 ^ (2 ^ 64) := pow_le_pow_right₀ (by norm_num) (by norm_num)
    have : b / 2 ^ (2 ^ 64) = -1 := by
      rw [Int.ediv_eq_iff_of_pos (Int.pow_pos (by norm_num))]
      generalize (2 : Int) ^ (2 ^ 64) = X at *
      constructor <;> omega
    rw [this]; decide

/-- `n[k, w]` is the field of `w` bits from `k` on; for an immediate receiver and `k ≥ 0` as
long as `w < 64` or the receiver is not negative. -/
theorem C114_field_partial (b k : Int) (w : Nat) (hk : -(2 ^ 63) ≤ k ∧ k < 2 ^ 63)
    (hw : (w : Int) < 2 ^ 63) (hx : isFix b = true → 0 ≤ k → w < 64 ∨ 0 ≤ b) :
    aref2 b k w = .ok (bitField b k w) := by
  unfold aref2
  rw [i64Arg_ok hk, i64Arg_ok (n := (w : Int)) ⟨by omega, hw⟩]
  simp only [bind, Except.bind]
  rw [if_neg (by omega)]
  unfold bitField
  by_cases hb : isFix b = true
  · rw [if_pos hb]
    by_cases hk0 : k < 0
    · rw [if_pos hk0]
      have e : bitsAbove b k = b * 2 ^ (-k).toNat := by unfold bitsAbove; rw [if_neg (by omega)]
      rw [e]
      split
      · rw [maskBig_land _ (by omega), Int.toNat_natCast]
      · rw [mask64_land _ (by omega), Int.toNat_natCast]
    · rw [if_neg hk0]
      have e : (if k ≥ 64 then (if b < 0 then -1 else 0) else shr64 b k) = bitsAbove b k := by
        unfold bitsAbove
        by_cases h64 : k ≥ 64
        · have hk1 : 0 ≤ k := by omega
          simp only [h64, hk1, if_true]
          rw [fix_far hb h64]
        · have hk1 : 0 ≤ k := by omega
          simp only [h64, hk1, if_true, if_false]
          rw [shr64_eq b ⟨by omega, by omega⟩]
      simp only [e]
      congr 1
      split
      · rename_i h64
        rw [land_neg_one]
        have hb0 : 0 ≤ b := by rcases hx hb (by omega) with h | h <;> omega
        rw [isFix_iff] at hb
        symm
        apply Int.emod_eq_of_lt
        · unfold bitsAbove
          rw [if_pos (by omega)]
          exact Int.ediv_nonneg hb0 (by positivity)
        · have h1 : bitsAbove b k ≤ b := by
            unfold bitsAbove
            rw [if_pos (by omega)]
            exact Int.ediv_le_self _ hb0
          have h3 : (2 : Int) ^ 64 ≤ 2 ^ w := pow_le_pow_right₀ (by norm_num) (by omega)
          omega
      · rw [mask64_land _ (by omega), Int.toNat_natCast]
  · rw [if_neg hb, shiftBig_eq, maskBig_land _ (by omega), Int.toNat_natCast]
    split
    · rename_i h
      split
      · have := land_unmasked h (by assumption)
        rw [Int.toNat_natCast] at this
        exact congrArg _ this
      · rfl
    · rfl

/-- A negative length takes all bits. -/
theorem C114_neg_len (b k w : Int) (hk : -(2 ^ 63) ≤ k ∧ k < 2 ^ 63) (hw : -(2 ^ 63) ≤ w ∧ w < 0) :
    aref2 b k w = .ok (bitsAbove b k) := by
  unfold aref2
  rw [i64Arg_ok hk, i64Arg_ok (n := w) ⟨by omega, by omega⟩]
  simp only [bind, Except.bind]
  rw [if_pos hw.2, bitsFrom_eq]

example : aref2 (-5) 1 4 = .ok 13 ∧ aref2 (2 ^ 70 + 3) (-1) 4 = .ok 6 := by decide +kernel

/-- With 64 bits or more of a small negative number there is no mask at all: the result
is negative, where a field of bits never is. -/
theorem C114_wide_field_fails (b : Int) (k w : Nat) (hb : isFix b = true) (hn : b < 0)
    (hk : (k : Int) < 2 ^ 63) (hw : 64 ≤ w) (hw2 : (w : Int) < 2 ^ 63) :
    ∃ r, aref2 b k w = .ok r ∧ r < 0 ∧ 0 ≤ bitField b k w := by
  unfold aref2
  rw [i64Arg_ok (n := (k : Int)) ⟨by omega, hk⟩, i64Arg_ok (n := (w : Int)) ⟨by omega, hw2⟩]
  simp only [bind, Except.bind]
  have hw3 : (w : Int) ≥ 64 := by omega
  rw [if_neg (by omega), if_pos hb, if_neg (by omega)]
  simp only [hw3, if_true]
  rw [land_neg_one]
  refine ⟨_, rfl, ?_, Int.emod_nonneg _ (by positivity)⟩
  split
  · simp [hn]
  · rw [shr64_eq _ ⟨by omega, by omega⟩]
    exact Int.ediv_neg_of_neg_of_pos hn (by positivity)

/-- `n[s..]` is all bits from `s` on. -/
theorem C114_endless (b s : Int) (hs : -(2 ^ 63) ≤ s ∧ s < 2 ^ 63) :
    arefFrom b s = .ok (bitsAbove b s) := by
  unfold arefFrom
  rw [i64Arg_ok hs]
  simp only [bind, Except.bind, bitsFrom_eq]

/-- `n[..e]` is 0 if the bits up to `e` are all 0, and refused otherwise (the result would
have infinitely many bits). -/
theorem C114_beginless_partial (b e : Int) (excl : Bool) (he : -(2 ^ 63) ≤ e ∧ e < 2 ^ 63 - 1) :
    arefTo b e excl =
      if b % 2 ^ (if excl then e else e + 1).toNat = 0 then .ok 0 else .error .argument := by
  unfold arefTo
  rw [i64Arg_ok ⟨he.1, by omega⟩]
  simp only [bind, Except.bind]
  have ew : wrap64 (e + 1) = e + 1 := wrap64_of_fits ((fits64_iff _).2 (by omega))
  rw [ew]
  generalize hE : (if excl = true then e else e + 1) = E
  have hE2 : E < 2 ^ 63 := by rw [← hE]; split <;> omega
  by_cases h0 : E ≤ 0
  · have : E.toNat = 0 := by omega
    simp [h0, this]
  · have hnn := Int.emod_nonneg b (b := 2 ^ E.toNat) (by positivity)
    by_cases hb : isFix b = true
    · simp only [hb, if_true, h0, if_false]
      by_cases h64 : E ≥ 64
      · simp only [h64, if_true]
        have h3 : (2 : Int) ^ 64 ≤ 2 ^ E.toNat := pow_le_pow_right₀ (by norm_num) (by omega)
        rw [isFix_iff] at hb
        by_cases hz : b = 0
        · simp [hz]
        · have : b % 2 ^ E.toNat ≠ 0 := by
            intro hd
            have := Int.eq_zero_of_abs_lt_dvd (Int.dvd_of_emod_eq_zero hd)
              (by rw [abs_lt]; constructor <;> omega)
            exact hz this
          simp [hz, this]
      · simp only [h64, if_false]
        rw [mask64_land _ (by omega)]
        by_cases hz : b % 2 ^ E.toNat = 0 <;> simp [hz]
    · have hb' : isFix b = false := by simpa using hb
      simp only [hb', Bool.false_eq_true, if_false, h0]
      rw [maskBig_land _ (by omega)]
      by_cases hz : b % 2 ^ E.toNat = 0
      · have : fits64 0 = true := by decide
        simp [hz, this]
      · by_cases hf : fits64 (b % 2 ^ E.toNat) = true <;> simp [hz, hf]

example : arefTo 8 2 false = .ok 0 ∧ arefTo 8 3 false = .error .argument := by decide +kernel

theorem shl64_mod (b : Int) {k w : Int} (hk : 0 ≤ k ∧ k < 64) (hw : 0 ≤ w ∧ w < 64) :
    shl64 b k % 2 ^ w.toNat = (b * 2 ^ k.toNat) % 2 ^ w.toNat := by
  unfold shl64 wrap64
  rw [Int.emod_eq_of_lt hk.1 hk.2]
  have : (2 : Int) ^ w.toNat ∣ ((2 ^ 64 : Nat) : Int) := by
    push_cast
    have h64 : w.toNat ≤ 64 := by omega
    exact pow_dvd_pow 2 h64
  rw [← Int.emod_emod_of_dvd _ this, Int.bmod_emod, Int.emod_emod_of_dvd _ this]

/-- `n[s..e]`, `n[s...e]` with `s ≤ e` is the field of bits between `s` and `e`; for an
immediate receiver and a field of less than 64 bits as long as `-64 < s < 64`. -/
theorem C114_range_partial (b s e : Int) (excl : Bool) (hs : -(2 ^ 62) < s ∧ s < 2 ^ 62)
    (he : -(2 ^ 62) ≤ e ∧ e < 2 ^ 62) (hle : s ≤ e)
    (hx : isFix b = true → (if excl then e - s else e - s + 1) < 64 → -64 < s ∧ s < 64) :
    arefRange b s e excl = .ok (bitField b s (if excl then e - s else e - s + 1).toNat) := by
  unfold arefRange
  rw [i64Arg_ok (n := s) ⟨by omega, by omega⟩, i64Arg_ok (n := e) ⟨by omega, by omega⟩]
  simp only [bind, Except.bind]
  have ew : wrap64 (e + 1) = e + 1 := wrap64_of_fits ((fits64_iff _).2 (by omega))
  rw [ew]
  have hle' : ¬ e < s := by omega
  simp only [hle', if_false]
  have hW : wrap64 ((if excl = true then e else e + 1) - s) =
      (if excl = true then e - s else e - s + 1) := by
    rw [wrap64_of_fits]
    · split <;> omega
    · rw [fits64_iff]; split <;> omega
  rw [hW]
  generalize hw : (if excl = true then e - s else e - s + 1) = w at *
  have hw0 : 0 ≤ w := by rw [← hw]; split <;> omega
  unfold bitField
  by_cases hc : isFix b = true ∧ w < 64
  · rw [if_pos hc, mask64_land _ ⟨hw0, hc.2⟩]
    have := hx hc.1 hc.2
    congr 1
    unfold bitsAbove
    by_cases h0 : s ≥ 0
    · rw [if_pos h0, if_pos h0, shr64_eq _ ⟨h0, this.2⟩]
    · rw [if_neg h0, if_neg h0, wrap64_of_fits ((fits64_iff _).2 (by omega)),
        shl64_mod _ (by omega) ⟨hw0, hc.2⟩]
  · rw [if_neg hc, shiftBig_eq, maskBig_land _ hw0]
    split
    · rename_i h
      exact congrArg _ (land_unmasked h.1 h.2)
    · rfl

/-- With `e` below `s` all bits from `s` on are taken. -/
theorem C114_reversed (b s e : Int) (excl : Bool) (hs : -(2 ^ 63) ≤ s ∧ s < 2 ^ 63)
    (he : -(2 ^ 63) ≤ e ∧ e < 2 ^ 63) (h : e < s) :
    arefRange b s e excl = .ok (bitsAbove b s) := by
  unfold arefRange
  rw [i64Arg_ok hs, i64Arg_ok he]
  simp only [bind, Except.bind]
  rw [if_pos h, bitsFrom_eq]

example : arefRange (-5) 1 4 false = .ok 13 ∧ arefRange 5 (-2) 1 false = .ok 4 := by decide +kernel

/-- A small field far from the low bits is read with the shift count cut to 6 bits. -/
theorem C114_far_range_fails :
    arefRange 1 64 65 false = .ok 1 ∧ bitField 1 64 2 = 0 ∧
    arefRange 1 (-64) (-62) false = .ok 1 ∧ bitField 1 (-64) 3 = 0 := by decide +kernel

/-- Bounds outside the machine integers are refused. -/
theorem C114_big_bound_fails :
    arefFrom (-1) (2 ^ 64) = .error .range ∧ bitsAbove (-1) 100 = -1 ∧
    aref2 (-1) 0 (2 ^ 64) = .error .range := by decide +kernel

/-- `allbits?`, `anybits?`, `nobits?`. -/
theorem C114_bit_predicates (a m : Int) :
    (allbits a m = true ↔ ∀ k, bitOf m k = true → bitOf a k = true) ∧
    (anybits a m = true ↔ ∃ k, bitOf m k = true ∧ bitOf a k = true) ∧
    (nobits a m = true ↔ ∀ k, bitOf m k = true → bitOf a k = false) := by
  have hz : ∀ k, bitOf 0 k = false := by intro k; simp [bitOf]
  have zero_iff : Int.land a m = 0 ↔ ∀ k, bitOf m k = true → bitOf a k = false := by
    constructor
    · intro h k hk
      have := bitOf_land a m k
      rw [h, hz, hk, Bool.and_true] at this
      exact this.symm
    · intro h
      apply bitOf_ext
      intro k
      rw [bitOf_land, hz]
      cases hm : bitOf m k
      · simp
      · simp [h k hm]
  refine ⟨?_, ?_, ?_⟩
  · unfold allbits
    rw [beq_iff_eq]
    constructor
    · intro h k hk
      have := bitOf_land a m k
      rw [h, hk, Bool.and_true] at this
      exact this.symm
    · intro h
      apply bitOf_ext
      intro k
      rw [bitOf_land]
      cases hm : bitOf m k
      · simp
      · simp [h k hm]
  · unfold anybits
    rw [bne_iff_ne, ne_eq, zero_iff]
    push Not
    simp
  · unfold nobits
    rw [beq_iff_eq, zero_iff]

end Verif.IntMeth
