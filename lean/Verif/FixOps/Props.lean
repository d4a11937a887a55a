import Verif.FixOps.Lemmas

/-! Compiled Integer operators: C74 (arithmetic), C75 (shifts and bits), C76
(comparisons). -/

namespace Verif.FixOps

/-! ### Arithmetic -/

/-- **C74**: `a + b`. -/
theorem C74_add {a b : Int} (ha : inFix a) (hb : inFix b) :
    add (tag a) (tag b) = if inFix (a + b) then some (tag (a + b)) else none := by
  unfold add BitVec.saddOverflow
  simp only [untag_tag ha, tag_toInt hb]
  by_cases h : inFix (a + b)
  · have h' := h
    unfold inFix at h
    rw [if_pos h', if_neg (by simp; omega)]
    refine congrArg some (eq_tag h' ?_)
    rw [BitVec.toInt_add, untag_tag ha, tag_toInt hb, bm (by omega) (by omega)]
    omega
  · have h' := h
    unfold inFix at h
    rw [if_neg h', if_pos (by simp; omega)]

/-- **C74**: `a - b`. -/
theorem C74_sub {a b : Int} (ha : inFix a) (hb : inFix b) :
    sub (tag a) (tag b) = if inFix (a - b) then some (tag (a - b)) else none := by
  unfold sub BitVec.ssubOverflow
  simp only [tag_toInt ha, tag_toInt hb]
  by_cases h : inFix (a - b)
  · have h' := h
    unfold inFix at h
    rw [if_pos h', if_neg (by simp; omega)]
    refine congrArg some (eq_tag h' ?_)
    rw [BitVec.toInt_add, BitVec.toInt_sub, tag_toInt ha, tag_toInt hb, one_toInt, bm (x := 2 * a + 1 - (2 * b + 1)) (by omega) (by omega),
      bm (by omega) (by omega)]
    omega
  · have h' := h
    unfold inFix at h
    rw [if_neg h', if_pos (by simp; omega)]

/-- **C74**: `a * b`. -/
theorem C74_mul {a b : Int} (ha : inFix a) (hb : inFix b) :
    mul (tag a) (tag b) = if inFix (a * b) then some (tag (a * b)) else none := by
  unfold mul BitVec.smulOverflow
  simp only [untag_tag ha, untag hb]
  have e : 2 * a * b = 2 * (a * b) := by ring
  rw [e]
  generalize hp : a * b = p at *
  by_cases h : inFix p
  · have h' := h
    unfold inFix at h
    rw [if_pos h', if_neg (by simp; omega)]
    refine congrArg some (eq_tag h' ?_)
    rw [or_one, BitVec.toInt_mul, untag_tag ha, untag hb, e, bm (by omega) (by omega)]
    omega
  · have h' := h
    unfold inFix at h
    rw [if_neg h', if_pos (by simp; omega)]

theorem sle_zero (x : W) : x.sle 0 = decide (x.toInt ≤ 0) := by
  simp [BitVec.sle]

theorem floor_unique {x y q r : Int} (e : x = r + y * q)
    (h : (0 < y ∧ 0 ≤ r ∧ r < y) ∨ (y < 0 ∧ y < r ∧ r ≤ 0)) : x.fdiv y = q ∧ x.fmod y = r := by
  have hy : y ≠ 0 := by omega
  have h0 : r.fdiv y = 0 := by
    rcases h with h | h
    · exact Int.fdiv_eq_zero_of_lt h.2.1 h.2.2
    · rw [← Int.neg_fdiv_neg]
      exact Int.fdiv_eq_zero_of_lt (by omega) (by omega)
  have hq : x.fdiv y = q := by
    rw [e, Int.add_mul_fdiv_left _ _ hy, h0, Int.zero_add]
  refine ⟨hq, ?_⟩
  rw [Int.fmod_def, hq, e]
  omega

/-- truncated and floored division -/
theorem fixup_div {n d : W} (hd : d.toInt ≠ 0) :
    n.toInt.fdiv d.toInt = n.toInt.tdiv d.toInt - (if fixup d (n.srem d) then 1 else 0) ∧
    n.toInt.fmod d.toInt = n.toInt.tmod d.toInt + (if fixup d (n.srem d) then d.toInt else 0) := by
  unfold fixup
  rw [BitVec.msb_eq_toInt, BitVec.msb_eq_toInt, sle_zero, BitVec.toInt_srem]
  generalize n.toInt = x
  generalize d.toInt = y at *
  have e2 := Int.mul_tdiv_add_tmod x y
  have hlt : (x.tmod y).natAbs < y.natAbs := by
    rw [Int.natAbs_tmod]; exact Nat.mod_lt _ (Int.natAbs_pos.2 hd)
  generalize hq : x.tdiv y = q at *
  generalize hr : x.tmod y = r at *
  have e3 : x = r + y * q := by rw [← e2]; ring
  have e4 : x = (r + y) + y * (q - 1) := by rw [e3]; ring
  by_cases hy : y < 0
  · simp only [hy, decide_true, if_true]
    by_cases hr0 : r ≤ 0
    · simp only [hr0, decide_true, Bool.not_true, Bool.false_eq_true, if_false]
      have := floor_unique e3 (by omega)
      omega
    · simp only [hr0, decide_false, Bool.not_false, if_true]
      exact floor_unique e4 (by omega)
  · simp only [hy, decide_false, Bool.false_eq_true, if_false]
    by_cases hr0 : r < 0
    · simp only [hr0, decide_true, if_true]
      exact floor_unique e4 (by omega)
    · simp only [hr0, decide_false, Bool.false_eq_true, if_false]
      have := floor_unique e3 (by omega)
      omega

/-- `salq r, 1; orq r, 1` -/
theorem retag {x : W} {a : Int} (ha : inFix a) (h : x.toInt = a) : x <<< 1 ||| 1 = tag a := by
  apply eq_tag ha
  have ha' := ha
  unfold inFix at ha
  rw [or_one, shl_toInt (by omega) (by omega), h]
  omega

theorem untag_ne {b : Int} (hb : inFix b) (h0 : b ≠ 0) : (tag b).sshiftRight 1 ≠ 0 := by
  intro h
  have := untag hb
  rw [h] at this
  exact h0 this.symm

theorem untag_zero : (tag 0).sshiftRight 1 = 0 := by decide

theorem tdiv_le (a b : Int) : (a.tdiv b).natAbs ≤ a.natAbs := by
  rw [Int.natAbs_tdiv]; exact Nat.div_le_self _ _

theorem fdiv_fix {a b : Int} {c : Bool} (ha : inFix a) (h0 : b ≠ 0) (h : ¬ (a = -(2 ^ 62) ∧ b = -1))
    (hf : a.fdiv b = a.tdiv b - (if c = true then 1 else 0)) : inFix (a.fdiv b) := by
  by_cases h1 : b = 1
  · subst h1; rw [Int.fdiv_one]; exact ha
  · by_cases h2 : b = -1
    · subst h2
      have e : a.fdiv (-1) = -a := by
        have := Int.neg_fdiv_neg (-a) 1
        rw [Int.neg_neg, Int.fdiv_one] at this
        exact this
      rw [e]
      unfold inFix at *
      omega
    · have hb : 2 ≤ b.natAbs := by omega
      have hle : (a.tdiv b).natAbs ≤ a.natAbs / 2 := by
        rw [Int.natAbs_tdiv]; exact Nat.div_le_div_left hb (by decide)
      rw [hf]
      unfold inFix at *
      split <;> omega

/-- **C74** (partial): `a / b` rounds towards minus infinity, and a zero divisor leaves the
compiled code. Missing: `-2^62 / -1`, see `C74_div_fails`. -/
theorem C74_div_partial {a b : Int} (ha : inFix a) (hb : inFix b) (h : ¬ (a = -(2 ^ 62) ∧ b = -1)) :
    div (tag a) (tag b) = if b = 0 then none else some (tag (a.fdiv b)) := by
  unfold div
  by_cases h0 : b = 0
  · subst h0
    simp only [untag_zero, if_true]
  · rw [if_neg h0]
    simp only [untag_ne hb h0, if_false]
    refine congrArg some ?_
    have hd : ((tag b).sshiftRight 1).toInt ≠ 0 := by rw [untag hb]; exact h0
    have hf := (fixup_div (n := (tag a).sshiftRight 1) hd).1
    rw [untag ha, untag hb] at hf
    have hle := tdiv_le a b
    have hfix : inFix (a.fdiv b) := fdiv_fix ha h0 h hf
    refine retag hfix ?_
    rw [hf]
    unfold inFix at ha hfix
    have hq : (((tag a).sshiftRight 1).sdiv ((tag b).sshiftRight 1)).toInt = a.tdiv b := by
      rw [BitVec.toInt_sdiv, untag (by exact ha), untag hb]
      exact bm (by omega) (by omega)
    split
    · rw [sub_one (by rw [hq]; omega), hq]
    · rw [hq]; omega

/-- **C74 fails** for the one quotient that is no fixnum: `-2^62 / -1` is `-2^62`. -/
theorem C74_div_fails : div (tag (-(2 ^ 62))) (tag (-1)) = some (tag (-(2 ^ 62))) ∧
    (-(2 ^ 62) : Int).fdiv (-1) = 2 ^ 62 := by
  decide

/-- **C74**: `a % b` has the divisor's sign, and a zero divisor leaves the compiled code. -/
theorem C74_rem {a b : Int} (ha : inFix a) (hb : inFix b) :
    rem (tag a) (tag b) = if b = 0 then none else some (tag (a.fmod b)) := by
  unfold rem
  by_cases h0 : b = 0
  · subst h0
    simp only [untag_zero, if_true]
  · rw [if_neg h0]
    simp only [untag_ne hb h0, if_false]
    refine congrArg some ?_
    have hd : ((tag b).sshiftRight 1).toInt ≠ 0 := by rw [untag hb]; exact h0
    have hf := (fixup_div (n := (tag a).sshiftRight 1) hd).2
    rw [untag ha, untag hb] at hf
    have hfix : inFix (a.fmod b) := by
      unfold inFix at hb ⊢
      rcases Int.lt_or_gt_of_ne h0 with hn | hp
      · have e := Int.fmod_def (-a) (-b)
        rw [Int.neg_fdiv_neg] at e
        have e' := Int.fmod_def a b
        have h1 := Int.fmod_nonneg_of_pos (-a) (b := -b) (by omega)
        have h2 := Int.fmod_lt_of_pos (-a) (b := -b) (by omega)
        rw [Int.neg_mul] at e
        omega
      · have h1 := Int.fmod_nonneg_of_pos a hp
        have h2 := Int.fmod_lt_of_pos a hp
        omega
    refine retag hfix ?_
    have hr : (((tag a).sshiftRight 1).srem ((tag b).sshiftRight 1)).toInt = a.tmod b := by
      rw [BitVec.toInt_srem, untag ha, untag hb]
    split
    · rename_i hc
      rw [if_pos hc] at hf
      rw [BitVec.toInt_add, hr, untag hb, ← hf]
      unfold inFix at hfix
      exact bm (by omega) (by omega)
    · rename_i hc
      rw [if_neg hc] at hf
      rw [hr, hf]; omega

theorem ofInt_toInt {c : Int} (h1 : -(2 ^ 63) ≤ c) (h2 : c < 2 ^ 63) : (BitVec.ofInt 64 c).toInt = c := by
  rw [BitVec.toInt_ofInt]; exact bm h1 h2

/-- **C74**: `a + c` and `a - c` for a literal whose double is an `i32`. -/
theorem C74_addImm {a c : Int} (ha : inFix a) (h1 : -(2 ^ 31) ≤ 2 * c) (h2 : 2 * c < 2 ^ 31) :
    addImm (tag a) c = if inFix (a + c) then some (tag (a + c)) else none := by
  unfold addImm BitVec.saddOverflow
  have hc : (BitVec.ofInt 64 (2 * c)).toInt = 2 * c := ofInt_toInt (by omega) (by omega)
  simp only [tag_toInt ha, hc]
  by_cases h : inFix (a + c)
  · have h' := h
    unfold inFix at h
    rw [if_pos h', if_neg (by simp; omega)]
    refine congrArg some (eq_tag h' ?_)
    rw [BitVec.toInt_add, tag_toInt ha, hc, bm (by omega) (by omega)]
    omega
  · have h' := h
    unfold inFix at h
    rw [if_neg h', if_pos (by simp; omega)]

theorem C74_subImm {a c : Int} (ha : inFix a) (h1 : -(2 ^ 31) ≤ 2 * c) (h2 : 2 * c < 2 ^ 31) :
    subImm (tag a) c = if inFix (a - c) then some (tag (a - c)) else none := by
  unfold subImm BitVec.ssubOverflow
  have hc : (BitVec.ofInt 64 (2 * c)).toInt = 2 * c := ofInt_toInt (by omega) (by omega)
  simp only [tag_toInt ha, hc]
  by_cases h : inFix (a - c)
  · have h' := h
    unfold inFix at h
    rw [if_pos h', if_neg (by simp; omega)]
    refine congrArg some (eq_tag h' ?_)
    rw [BitVec.toInt_sub, tag_toInt ha, hc, bm (by omega) (by omega)]
    omega
  · have h' := h
    unfold inFix at h
    rw [if_neg h', if_pos (by simp; omega)]

/-- **C74**: `a + a` in one register. -/
theorem C74_dbl {a : Int} (ha : inFix a) :
    dbl (tag a) = if inFix (a + a) then some (tag (a + a)) else none := by
  unfold dbl BitVec.saddOverflow
  simp only [tag_toInt ha]
  by_cases h : inFix (a + a)
  · have h' := h
    unfold inFix at h
    rw [if_pos h', if_neg (by simp; omega)]
    refine congrArg some (eq_tag h' ?_)
    have e : (tag a + tag a).toInt = 4 * a + 2 := by
      rw [BitVec.toInt_add, tag_toInt ha, bm (by omega) (by omega)]; omega
    rw [sub_one (by omega), e]
    omega
  · have h' := h
    unfold inFix at h
    rw [if_neg h', if_pos (by simp; omega)]

/-- **C74**: `-a`. -/
theorem C74_neg {a : Int} (ha : inFix a) :
    neg (tag a) = if inFix (-a) then some (tag (-a)) else none := by
  unfold neg BitVec.negOverflow BitVec.saddOverflow
  have hx : (-((tag a).sshiftRight 1)).toInt = -a := by
    rw [BitVec.toInt_neg, untag ha]
    unfold inFix at ha
    exact bm (by omega) (by omega)
  simp only [hx, untag ha]
  unfold inFix at ha
  rw [if_neg (by simp; omega)]
  by_cases h : inFix (-a)
  · have h' := h
    unfold inFix at h
    rw [if_pos h', if_neg (by simp; omega)]
    refine congrArg some (eq_tag h' ?_)
    rw [or_one, BitVec.toInt_add, hx, bm (by omega) (by omega)]
    omega
  · have h' := h
    unfold inFix at h
    rw [if_neg h', if_pos (by simp; omega)]

/-- **C74**: `a % 2^k` for a literal `2^k`. -/
theorem C74_remPow2 {a : Int} {k : Nat} (ha : inFix a) (hk : k ≤ 61) :
    remPow2 (tag a) (2 ^ k) = tag (a % 2 ^ k) := by
  have hpos : (0 : Int) < 2 ^ k := by positivity
  have hpk : (2 : Int) ^ k ≤ 2 ^ 61 := pow_le_pow_right₀ (by norm_num) hk
  have hm0 := Int.emod_nonneg a (ne_of_gt hpos)
  have hm1 := Int.emod_lt_of_pos a hpos
  have hfix : inFix (a % 2 ^ k) := by unfold inFix; omega
  refine eq_tag hfix ?_
  unfold remPow2
  have hmask : (BitVec.ofInt 64 ((2 : Int) ^ k * 2 - 1)).toNat = 2 ^ (k + 1) - 1 := by
    rw [BitVec.toNat_ofInt]
    have e : ((2 : Int) ^ k * 2 - 1) % ((2 ^ 64 : Nat) : Int) = (2 : Int) ^ k * 2 - 1 :=
      Int.emod_eq_of_lt (by omega) (by norm_num; omega)
    rw [e, pow_succ]
    have : ((2 : Int) ^ k * 2 - 1) = ((2 ^ k * 2 - 1 : Nat) : Int) := by
      have : 0 < 2 ^ k := Nat.two_pow_pos k
      push_cast [Nat.one_le_iff_ne_zero.2 (by omega : 2 ^ k * 2 ≠ 0)]
      rfl
    rw [this, Int.toNat_natCast]
  have hnat : ((tag a &&& BitVec.ofInt 64 ((2 : Int) ^ k * 2 - 1)).toNat : Int) = 2 * (a % 2 ^ k) + 1 := by
    rw [BitVec.toNat_and, hmask, Nat.and_two_pow_sub_one_eq_mod]
    unfold tag
    rw [BitVec.toNat_ofInt]
    have hnn := Int.emod_nonneg (2 * a + 1) (b := ((2 ^ 64 : Nat) : Int)) (by norm_num)
    rw [Int.natCast_mod, Int.toNat_of_nonneg hnn]
    have hd : ((2 ^ (k + 1) : Nat) : Int) ∣ ((2 ^ 64 : Nat) : Int) := by
      exact_mod_cast Nat.pow_dvd_pow 2 (by omega)
    rw [Int.emod_emod_of_dvd _ hd]
    have e : ((2 ^ (k + 1) : Nat) : Int) = 2 * 2 ^ k := by push_cast; ring
    rw [e]
    have ea := Int.mul_ediv_add_emod a (2 ^ k)
    have : 2 * a + 1 = (2 * (a % 2 ^ k) + 1) + (2 * 2 ^ k) * (a / 2 ^ k) := by
      generalize a % 2 ^ k = r at *
      generalize a / 2 ^ k = q at *
      rw [← ea]; ring
    rw [this, Int.add_mul_emod_self_left]
    exact Int.emod_eq_of_lt (by omega) (by omega)
  rw [← hnat]
  rw [BitVec.toInt_eq_toNat_of_lt]
  have : ((tag a &&& BitVec.ofInt 64 ((2 : Int) ^ k * 2 - 1)).toNat : Int) < 2 ^ 62 + 1 := by omega
  have h2 : (tag a &&& BitVec.ofInt 64 ((2 : Int) ^ k * 2 - 1)).toNat < 2 ^ 62 + 1 := by exact_mod_cast this
  omega

/-! ### Bits -/

theorem fix_of_word {x : W} {a : Int} (h : x.toInt = 2 * a + 1 ∨ x.toInt = 2 * a) : inFix a := by
  have := w_range x
  unfold inFix; omega

/-- **C75**: `a & b`, `a | b`, `a ^ b`. -/
theorem C75_and {a b : Int} (ha : inFix a) (hb : inFix b) : bitAnd (tag a) (tag b) = tag (a.land b) := by
  have e : (bitAnd (tag a) (tag b)).toInt = 2 * a.land b + 1 := by
    unfold bitAnd
    rw [toInt_land, tag_toInt ha, tag_toInt hb, bit_true, bit_true, Int.land_bit, bit_true]
    rfl
  exact eq_tag (fix_of_word (.inl e)) e

theorem C75_or {a b : Int} (ha : inFix a) (hb : inFix b) : bitOr (tag a) (tag b) = tag (a.lor b) := by
  have e : (bitOr (tag a) (tag b)).toInt = 2 * a.lor b + 1 := by
    unfold bitOr
    rw [toInt_lor, tag_toInt ha, tag_toInt hb, bit_true, bit_true, Int.lor_bit, bit_true]
    rfl
  exact eq_tag (fix_of_word (.inl e)) e

theorem C75_xor {a b : Int} (ha : inFix a) (hb : inFix b) : bitXor (tag a) (tag b) = tag (a.xor b) := by
  have e : (tag a ^^^ tag b).toInt = 2 * a.xor b := by
    rw [toInt_lxor, tag_toInt ha, tag_toInt hb, bit_true, bit_true, Int.lxor_bit, bit_false]
    rfl
  have h := fix_of_word (.inr e)
  refine eq_tag h ?_
  unfold bitXor
  unfold inFix at h
  rw [BitVec.toInt_add, e, one_toInt]
  exact bm (by omega) (by omega)

/-- **C75**: `~a`. -/
theorem C75_not {a : Int} (ha : inFix a) : bitNot (tag a) = tag (-a - 1) := by
  have hf : inFix (-a - 1) := by unfold inFix at *; omega
  refine retag hf ?_
  have e : ~~~((tag a).sshiftRight 1) = -((tag a).sshiftRight 1) - 1 := by
    rw [BitVec.neg_eq_not_add]; exact (BitVec.add_sub_cancel _ _).symm
  rw [e]
  have hx : (-((tag a).sshiftRight 1)).toInt = -a := by
    rw [BitVec.toInt_neg, untag ha]
    unfold inFix at ha
    exact bm (by omega) (by omega)
  unfold inFix at ha
  rw [sub_one (by rw [hx]; omega), hx]

theorem testBit_tag {a : Int} (ha : inFix a) (n : Nat) :
    a.testBit n = if n + 1 < 64 then (tag a).getLsbD (n + 1) else (tag a).msb := by
  rw [← testBit_toInt, tag_toInt ha, bit_true, Int.testBit_bit_succ]

theorem and_two (x : W) : x &&& 2 = if x.getLsbD 1 then 2 else 0 := by
  apply BitVec.eq_of_getLsbD_eq
  intro i hi
  have h2 : (2 : W).getLsbD i = decide (i = 1) := by
    have : (2 : W) = BitVec.twoPow 64 1 := by decide
    rw [this, BitVec.getLsbD_twoPow]
    by_cases h : i = 1
    · simp [h]
    · simp [h]; omega
  rw [BitVec.getLsbD_and, h2]
  by_cases h : i = 1
  · subst h
    cases hb : x.getLsbD 1 <;> simp
  · cases hb : x.getLsbD 1
    · simp [h]
    · rw [if_pos rfl, h2]; simp [h]

/-- **C75**: `a[n]` for a literal `n >= 0` is the bit of the two's complement. -/
theorem C75_bitIndex {a : Int} (ha : inFix a) (n : Nat) :
    bitIndex (tag a) n = tag (if a.testBit n then 1 else 0) := by
  unfold bitIndex
  rw [and_two, BitVec.getLsbD_sshiftRight]
  have e : (if min n 63 + 1 < 64 then (tag a).getLsbD (min n 63 + 1) else (tag a).msb) = a.testBit n := by
    rw [testBit_tag ha]
    by_cases h : n + 1 < 64
    · have : min n 63 = n := by omega
      rw [this]
    · have : min n 63 = 63 := by omega
      rw [this, if_neg (by omega), if_neg h]
  rw [e]
  cases a.testBit n <;> decide

/-! ### Shifts -/

/-- What a shift by `k` places to the left is; negative `k` is to the right, rounding
down. -/
def lshift (a k : Int) : Int := if 0 ≤ k then a * 2 ^ k.toNat else a / 2 ^ (-k).toNat

theorem sar_or {a : Int} (ha : inFix a) (k : Nat) :
    ((tag a).sshiftRight k ||| 1).toInt = 2 * (a / 2 ^ k) + 1 := by
  rw [or_one, BitVec.toInt_sshiftRight, tag_toInt ha, Int.shiftRight_eq_div_pow]
  have : (2 * a + 1) / ((2 ^ k : Nat) : Int) / 2 = a / 2 ^ k := by
    rw [Int.ediv_ediv_of_nonneg (by positivity), Int.mul_comm ((2 ^ k : Nat) : Int) 2,
      ← Int.ediv_ediv_of_nonneg (by norm_num)]
    have : (2 * a + 1) / 2 = a := by omega
    rw [this]; push_cast; rfl
  rw [this]

theorem div_pow_fix {a : Int} (ha : inFix a) (k : Nat) : inFix (a / 2 ^ k) := by
  have hpos : (0 : Int) < 2 ^ k := by positivity
  have h1 : (1 : Int) ≤ 2 ^ k := by omega
  unfold inFix at *
  constructor
  · rw [Int.le_ediv_iff_mul_le hpos]; nlinarith [ha.1]
  · rw [Int.ediv_lt_iff_lt_mul hpos]; nlinarith [ha.2]

theorem div_pow_big {a : Int} (ha : inFix a) {k : Nat} (hk : 62 ≤ k) :
    a / 2 ^ k = if 0 ≤ a then 0 else -1 := by
  have hp : (2 : Int) ^ 62 ≤ 2 ^ k := pow_le_pow_right₀ (by norm_num) hk
  unfold inFix at ha
  split
  · exact Int.ediv_eq_zero_of_lt (by assumption) (by omega)
  · have hpos : (0 : Int) < 2 ^ k := by positivity
    apply le_antisymm
    · have : a / 2 ^ k < 0 := by
        rw [Int.ediv_lt_iff_lt_mul hpos]; omega
      omega
    · rw [Int.le_ediv_iff_mul_le hpos]; omega

theorem tag_msb {a : Int} (ha : inFix a) : (tag a).msb = decide (a < 0) := by
  rw [BitVec.msb_eq_toInt, tag_toInt ha]
  by_cases h : a < 0
  · simp [h]; omega
  · simp [h]; omega

theorem under_eq {a : Int} (ha : inFix a) : under (tag a) = tag (if 0 ≤ a then 0 else -1) := by
  unfold under
  rw [tag_msb ha]
  by_cases h : a < 0
  · simp only [h, decide_true, if_true]; rw [if_neg (by omega)]; decide
  · simp only [h, decide_false, Bool.false_eq_true, if_false]; rw [if_pos (by omega)]; decide

theorem cl_eq {c : W} {k : Nat} (h : c.toInt = k) (hk : k < 64) : cl c = k := by
  unfold cl
  have : c.toNat = k := by
    have := BitVec.toInt_eq_msb_cond c
    split at this
    · have := c.isLt; omega
    · omega
  omega

theorem shrBlock_eq {a : Int} (ha : inFix a) {c : W} {k : Nat} (h : c.toInt = k) :
    shrBlock (tag a) c = tag (a / 2 ^ k) := by
  unfold shrBlock
  have e64 : (64 : W).toInt = 64 := by decide
  have hs : (64 : W).sle c = decide (64 ≤ k) := by
    unfold BitVec.sle; rw [e64, h]
    by_cases h : 64 ≤ k <;> simp <;> omega
  rw [hs]
  by_cases hk : 64 ≤ k
  · simp only [hk, decide_true, if_true]
    rw [under_eq ha, div_pow_big ha (by omega)]
  · simp only [hk, decide_false, Bool.false_eq_true, if_false]
    rw [cl_eq h (by omega)]
    exact eq_tag (div_pow_fix ha k) (sar_or ha k)

theorem tag_toNat {a : Int} (ha : inFix a) (h : 0 ≤ a) : ((tag a).toNat : Int) = 2 * a + 1 := by
  have := tag_toInt ha
  rw [BitVec.toInt_eq_msb_cond, tag_msb ha] at this
  simpa [show ¬ a < 0 by omega] using this

/-- leading zeros of a fixnum word -/
theorem lzcnt_neg {a : Int} (ha : inFix a) (h : a < 0) : lzcnt (tag a) = 0 := by
  have hl := (tag a).isLt
  have h2 : 2 ^ 63 ≤ (tag a).toNat := by
    have := BitVec.msb_eq_decide (tag a)
    rw [tag_msb ha] at this
    simp [h] at this
    omega
  have : (tag a).toNat.log2 = 63 := (Nat.log2_eq_iff (by omega)).2 ⟨h2, hl⟩
  unfold lzcnt
  rw [if_neg (by omega), this]

theorem lzcnt_lt {a : Int} (ha : inFix a) (h : 0 ≤ a) (k : Nat) :
    k < lzcnt (tag a) ↔ k < 63 ∧ inFix (a * 2 ^ k) := by
  have hn := tag_toNat ha h
  unfold lzcnt
  rw [if_neg (by omega)]
  have hk : k < 63 - (tag a).toNat.log2 ↔ k < 63 ∧ (tag a).toNat.log2 < 63 - k := by omega
  rw [hk]
  refine and_congr_right fun hk => ?_
  rw [Nat.log2_lt (by omega)]
  have e : (2 : Nat) ^ (63 - k) = 2 * 2 ^ (62 - k) := by
    rw [← pow_succ']; congr 1; omega
  have h1 : (tag a).toNat < 2 ^ (63 - k) ↔ a < 2 ^ (62 - k) := by
    rw [e]
    have : ((2 ^ (62 - k) : Nat) : Int) = 2 ^ (62 - k) := by push_cast; rfl
    rw [← this]
    omega
  rw [h1]
  have hp : (0 : Int) < 2 ^ k := by positivity
  have e2 : (2 : Int) ^ 62 = 2 ^ (62 - k) * 2 ^ k := by
    rw [← pow_add]; congr 1; omega
  have h2 : a < 2 ^ (62 - k) ↔ a * 2 ^ k < 2 ^ 62 := by
    rw [e2]
    exact ⟨fun h => mul_lt_mul_of_pos_right h hp, fun h => lt_of_mul_lt_mul_right h hp.le⟩
  rw [h2]
  unfold inFix
  have : 0 ≤ a * 2 ^ k := by positivity
  omega

theorem shl_or {a : Int} (ha : inFix a) {k : Nat} (h : inFix (a * 2 ^ k)) :
    (tag a - 1) <<< k ||| 1 = tag (a * 2 ^ k) := by
  refine eq_tag h ?_
  have e : (tag a - 1).toInt * 2 ^ k = 2 * (a * 2 ^ k) := by rw [untag_tag ha]; ring
  unfold inFix at h
  rw [or_one, shl_toInt (by rw [e]; omega) (by rw [e]; omega), e]
  omega

theorem neg_toInt {c : W} {k : Int} (hk : inFix k) (h : c.toInt = k) : (-c).toInt = -k := by
  rw [BitVec.toInt_neg, h]
  unfold inFix at hk
  exact bm (by omega) (by omega)

/-- When compiled left shifts leave for the interpreter: to the left, and the number is
negative or the result no fixnum (or it is by 63 places or more). -/
def leaves (a k : Int) : Prop := 0 ≤ k ∧ (a < 0 ∨ ¬ inFix (a * 2 ^ k.toNat) ∨ 63 ≤ k)

instance (a k : Int) : Decidable (leaves a k) := inferInstanceAs (Decidable (_ ∧ _))

theorem shl_core {a k : Int} (ha : inFix a) (hk : inFix k) {c : W} (hc : c.toInt = k) :
    (if c.msb then some (shrBlock (tag a) (-c))
      else if (lzcnt (tag a) : Int) ≤ c.toInt then none
      else some ((tag a - 1) <<< cl c ||| 1)) =
    if leaves a k then none else some (tag (lshift a k)) := by
  rw [BitVec.msb_eq_toInt, hc]
  by_cases hn : k < 0
  · simp only [hn, decide_true, if_true]
    rw [if_neg (by unfold leaves; omega), shrBlock_eq ha (k := (-k).toNat) (by rw [neg_toInt hk hc]; omega)]
    unfold lshift
    rw [if_neg (by omega)]
  · simp only [hn, decide_false, Bool.false_eq_true, if_false]
    obtain ⟨j, rfl⟩ := Int.eq_ofNat_of_zero_le (by omega : 0 ≤ k)
    by_cases hl : leaves a j
    · rw [if_pos hl, if_pos]
      by_cases h0 : a < 0
      · rw [lzcnt_neg ha h0]; omega
      · have := lzcnt_lt ha (by omega) j
        have h2 := hl.2
        rw [Int.toNat_natCast] at h2
        by_contra hc
        obtain ⟨h3, h4⟩ := this.1 (by omega)
        rcases h2 with h2 | h2 | h2
        · omega
        · exact h2 h4
        · omega
    · have h0 : 0 ≤ a := by unfold leaves at hl; omega
      have hf : inFix (a * 2 ^ j) := by
        unfold leaves at hl
        rw [Int.toNat_natCast] at hl
        by_contra hf
        exact hl ⟨by omega, .inr (.inl hf)⟩
      have hz := (lzcnt_lt ha h0 j).2 ⟨by unfold leaves at hl; omega, hf⟩
      have hlz : lzcnt (tag a) ≤ 64 := by unfold lzcnt; split <;> omega
      rw [if_neg hl, if_neg (by omega), cl_eq hc (by omega), shl_or ha hf]
      unfold lshift
      rw [if_pos (by omega), Int.toNat_natCast]

/-- **C75**: `a << k` for variable `k`. -/
theorem C75_shl {a k : Int} (ha : inFix a) (hk : inFix k) :
    shl (tag a) (tag k) = if leaves a k then none else some (tag (lshift a k)) := by
  exact shl_core ha hk (untag hk)

/-- **C75**: a literal shifted by a variable. -/
theorem C75_shlLhsImm {a k : Int} (ha : inFix a) (hk : inFix k) :
    shlLhsImm a (tag k) = if leaves a k then none else some (tag (lshift a k)) := by
  exact shl_core ha hk (untag hk)

/-- The first shift that overflows: one place less still fits. -/
def firstOverflow (a k : Int) : Prop := 0 < a ∧ 0 < k ∧ inFix (a * 2 ^ (k.toNat - 1)) ∧ ¬ inFix (a * 2 ^ k.toNat)

/-- **C75** (partial): `a >> k` for variable `k`: the result is right, and the code leaves
for the interpreter only on shifts to the left as above. Missing: the first left shift that
overflows, where the code is wrong, see `C75_shr_fails`. -/
theorem C75_shr_partial {a k : Int} (ha : inFix a) (hk : inFix k) (h : ¬ firstOverflow a (-k)) :
    shr (tag a) (tag k) = some (tag (lshift a (-k))) ∨ (shr (tag a) (tag k) = none ∧ leaves a (-k)) := by
  unfold shr
  have hu := untag hk
  by_cases hn : k < 0
  · have hm : ((tag k).sshiftRight 1).msb = true := by
      rw [BitVec.msb_eq_toInt, hu]; simp [hn]
    simp only [hm, if_true]
    have hc := neg_toInt hk hu
    obtain ⟨j, hj⟩ := Int.eq_ofNat_of_zero_le (by omega : 0 ≤ -k)
    rw [hj] at hc h ⊢
    rw [hc]
    by_cases h0 : a < 0
    · right
      rw [lzcnt_neg ha h0]
      exact ⟨if_pos (by omega), by omega, .inl h0⟩
    · have hz := lzcnt_lt ha (by omega) j
      have hz1 := lzcnt_lt ha (by omega) (j - 1)
      by_cases hlt : (lzcnt (tag a) : Int) < j
      · right
        refine ⟨if_pos hlt, by omega, .inr ?_⟩
        rw [Int.toNat_natCast]
        by_cases h63 : 63 ≤ (j : Int)
        · exact .inr h63
        · left; intro hf
          have := hz.2 ⟨by omega, hf⟩
          omega
      · left
        rw [if_neg hlt]
        refine congrArg some ?_
        have hf : inFix (a * 2 ^ j) := by
          by_contra hf
          have h63 : lzcnt (tag a) ≤ 63 := by
            unfold lzcnt
            rw [if_neg (by have := tag_toNat ha (by omega); omega)]; omega
          have h2 := hz1.1 (by omega)
          refine h ⟨?_, by omega, ?_, ?_⟩
          · rcases Int.lt_or_eq_of_le (by omega : 0 ≤ a) with h | h
            · exact h
            · subst h; rw [Int.zero_mul] at hf; exact absurd (by decide) hf
          · rw [Int.toNat_natCast]; exact h2.2
          · rw [Int.toNat_natCast]; exact hf
        have h63 : lzcnt (tag a) ≤ 63 := by
          unfold lzcnt
          rw [if_neg (by have := tag_toNat ha (by omega); omega)]; omega
        rw [cl_eq hc (by omega), shl_or ha hf]
        unfold lshift
        rw [if_pos (by omega), Int.toNat_natCast]
  · left
    have hm : ((tag k).sshiftRight 1).msb = false := by
      rw [BitVec.msb_eq_toInt, hu]; simp; omega
    simp only [hm, Bool.false_eq_true, if_false]
    rw [shrBlock_eq ha (k := k.toNat) (by rw [hu]; omega)]
    unfold lshift
    by_cases h0 : k = 0
    · subst h0; simp
    · rw [if_neg (by omega), Int.neg_neg]

/-- **C75 fails**: on the first left shift that overflows, `a >> -n` wraps around to a
negative number instead of leaving for the interpreter. -/
theorem C75_shr_fails {a : Int} {n : Nat} (ha : inFix a) (hn : n < 64) (h : firstOverflow a n) :
    shr (tag a) (tag (-n)) = some (tag (a * 2 ^ n - 2 ^ 63)) ∧ a * 2 ^ n - 2 ^ 63 < 0 := by
  obtain ⟨h0, h1, h2, h3⟩ := h
  rw [Int.toNat_natCast] at h2 h3
  have hk : inFix (-(n : Int)) := by unfold inFix; omega
  have hu := untag hk
  obtain ⟨j, rfl⟩ : ∃ j, n = j + 1 := ⟨n - 1, by omega⟩
  simp only [Nat.add_sub_cancel] at h2
  have e : a * 2 ^ (j + 1) = 2 * (a * 2 ^ j) := by ring
  have hpos : 0 ≤ a * 2 ^ j := by positivity
  have hfix : inFix (a * 2 ^ (j + 1) - 2 ^ 63) := by
    unfold inFix at *; omega
  refine ⟨?_, by unfold inFix at h2; omega⟩
  unfold shr
  have hm : ((tag (-((j + 1 : Nat) : Int))).sshiftRight 1).msb = true := by
    rw [BitVec.msb_eq_toInt, hu]; simp; omega
  simp only [hm, if_true]
  have hc := neg_toInt hk hu
  rw [Int.neg_neg] at hc
  have hz := lzcnt_lt ha (by omega) j
  have hj63 : j < 63 := by omega
  have := hz.2 ⟨hj63, h2⟩
  rw [hc, if_neg (by omega), cl_eq hc hn]
  refine congrArg some (eq_tag hfix ?_)
  have hs : ((tag a - 1) <<< (j + 1)).toInt = 2 * (a * 2 ^ (j + 1)) - 2 ^ 64 := by
    have hshift : (tag a - 1) <<< (j + 1) = ((tag a - 1) <<< j) <<< 1 := by
      rw [BitVec.shiftLeft_add]
    have e1 : (tag a - 1).toInt * 2 ^ j = 2 * (a * 2 ^ j) := by rw [untag_tag ha]; ring
    unfold inFix at h2 h3
    have hx : ((tag a - 1) <<< j).toInt = 2 * (a * 2 ^ j) := by
      rw [shl_toInt (by rw [e1]; omega) (by rw [e1]; omega), e1]
    have h2x : ((tag a - 1) <<< j) <<< 1 = ((tag a - 1) <<< j) + ((tag a - 1) <<< j) := by
      rw [BitVec.shiftLeft_eq_mul_twoPow]
      have : BitVec.twoPow 64 1 = 2#64 := by decide
      rw [this, BitVec.mul_two]
    rw [hshift, h2x, BitVec.toInt_add, hx, e]
    have e3 : 2 * (a * 2 ^ j) + 2 * (a * 2 ^ j) = (2 * (2 * (a * 2 ^ j)) - 2 ^ 64) + ((2 ^ 64 : Nat) : Int) := by
      push_cast; ring
    rw [e3, Int.add_bmod_right]
    exact bm (by omega) (by omega)
  rw [or_one, hs]
  omega

/-- `1 >> -62` and `5 >> -60` (shift amount in a variable). -/
example : shr (tag 1) (tag (-62)) = some (tag (-(2 ^ 62))) ∧ shr (tag 5) (tag (-60)) = some (tag (-3458764513820540928)) := by
  decide

example : firstOverflow 5 60 := ⟨by decide, by decide, by decide, by decide⟩

/-- **C75**: a shift by a literal amount. -/
theorem C75_shrImm {a : Int} (ha : inFix a) (k : Nat) : shrImm (tag a) k = tag (a / 2 ^ k) := by
  unfold shrImm
  by_cases hk : 64 ≤ k
  · rw [if_pos hk, tag_msb ha, div_pow_big ha (by omega)]
    by_cases h : a < 0
    · simp only [h, decide_true, if_true]; rw [if_neg (by omega)]
    · simp only [h, decide_false, Bool.false_eq_true, if_false]; rw [if_pos (by omega)]
  · rw [if_neg hk]
    exact eq_tag (div_pow_fix ha k) (sar_or ha k)

theorem shlRhsImm_eq {a : Int} (ha : inFix a) (k : Nat) :
    shlRhsImm (tag a) k = if leaves a k then none else some (tag (a * 2 ^ k)) := by
  unfold shlRhsImm
  by_cases h0 : a < 0
  · rw [lzcnt_neg ha h0, if_pos (by omega), if_pos (show leaves a k from ⟨by omega, .inl h0⟩)]
  · have := lzcnt_lt ha (by omega) k
    by_cases h : k < lzcnt (tag a)
    · have h2 := this.1 h
      rw [if_neg (by omega), if_neg, shl_or ha h2.2]
      rintro ⟨_, h3 | h3 | h3⟩
      · exact h0 h3
      · exact h3 (by rw [Int.toNat_natCast]; exact h2.2)
      · omega
    · rw [if_pos (by omega), if_pos]
      refine ⟨by omega, .inr ?_⟩
      by_cases h63 : 63 ≤ (k : Int)
      · exact .inr h63
      · exact .inl fun hf => h (this.2 ⟨by omega, by rwa [Int.toNat_natCast] at hf⟩)

theorem tag_inj {a b : Int} (ha : inFix a) (hb : inFix b) (h : tag a = tag b) : a = b := by
  have := congrArg BitVec.toInt h
  rw [tag_toInt ha, tag_toInt hb] at this
  omega

/-- by 64 places or more -/
theorem shlZero_eq {a : Int} (ha : inFix a) :
    shlZero (tag a) = if a = 0 then some (tag 0) else none := by
  unfold shlZero
  by_cases h : a = 0
  · subst h; rfl
  · rw [if_neg h, if_neg (fun e => h (tag_inj ha (by decide) e))]

/-- **C75**: `a << k`, `a >> k` by a literal: the result is right, and the code leaves for
the interpreter only on shifts to the left of a negative number, of 63 places or more, or
whose result is no fixnum. -/
theorem C75_shlLit {a : Int} (ha : inFix a) (k : Int) :
    shlLit (tag a) k = some (tag (lshift a k)) ∨ (shlLit (tag a) k = none ∧ leaves a k) := by
  unfold shlLit lshift
  by_cases h1 : 0 ≤ k ∧ k < 64
  · rw [if_pos h1, if_pos h1.1]
    obtain ⟨j, rfl⟩ := Int.eq_ofNat_of_zero_le h1.1
    rw [Int.toNat_natCast, shlRhsImm_eq ha]
    by_cases hl : leaves a j
    · exact .inr ⟨if_pos hl, hl⟩
    · exact .inl (if_neg hl)
  · rw [if_neg h1]
    by_cases h2 : k < 0
    · rw [if_pos h2, if_neg (by omega)]
      left
      rw [C75_shrImm ha]
      by_cases h3 : (-k).toNat < 64
      · have : min (-k).toNat 64 = (-k).toNat := by omega
        rw [this]
      · have : min (-k).toNat 64 = 64 := by omega
        rw [this, div_pow_big ha (by omega), div_pow_big ha (by omega)]
    · rw [if_neg h2, if_pos (by omega), shlZero_eq ha]
      by_cases h0 : a = 0
      · subst h0; left; rw [if_pos rfl, Int.zero_mul]
      · right; rw [if_neg h0]
        exact ⟨rfl, by omega, .inr (.inr (by omega))⟩

theorem C75_shrLit {a : Int} (ha : inFix a) (k : Int) :
    shrLit (tag a) k = some (tag (lshift a (-k))) ∨ (shrLit (tag a) k = none ∧ leaves a (-k)) := by
  have hr : ∀ j : Nat, tag (a / 2 ^ (min j 64)) = tag (a / 2 ^ j) := by
    intro j
    by_cases h3 : j < 64
    · have : min j 64 = j := by omega
      rw [this]
    · have : min j 64 = 64 := by omega
      rw [this, div_pow_big ha (by omega), div_pow_big ha (by omega)]
  unfold shrLit lshift
  by_cases h1 : 0 ≤ k
  · rw [if_pos h1, C75_shrImm ha, hr]
    left
    by_cases h0 : k = 0
    · subst h0; simp
    · rw [if_neg (by omega), Int.neg_neg]
  · rw [if_neg h1, if_pos (by omega : 0 ≤ -k)]
    by_cases h2 : (-k).toNat < 64
    · rw [if_pos h2, shlRhsImm_eq ha]
      have : ((-k).toNat : Int) = -k := by omega
      rw [this]
      by_cases hl : leaves a (-k)
      · exact .inr ⟨if_pos hl, hl⟩
      · exact .inl (if_neg hl)
    · rw [if_neg h2, shlZero_eq ha]
      by_cases h0 : a = 0
      · subst h0; left; rw [if_pos rfl, Int.zero_mul]
      · right; rw [if_neg h0]
        exact ⟨rfl, by omega, .inr (.inr (by omega))⟩

/-! Constant folding agrees with the same specification. -/

theorem foldRight_eq {a : Int} (ha : inFix a) (k : Nat) : foldRight a k = a / 2 ^ k := by
  unfold foldRight
  by_cases hk : 64 ≤ k
  · rw [if_pos hk, div_pow_big ha (by omega)]
  · rw [if_neg hk, Int.shiftRight_eq_div_pow]; push_cast; rfl

theorem foldShlPos_eq {a v : Int} {k : Nat} (ha : inFix a) (h : foldShlPos a k = some v) :
    v = a * 2 ^ k ∧ inFix v := by
  unfold foldShlPos at h
  by_cases h0 : a = 0
  · subst h0
    rw [if_pos rfl] at h
    injection h with h; subst h
    exact ⟨by simp, by decide⟩
  · rw [if_neg h0] at h
    by_cases hk : 63 ≤ k
    · rw [if_pos hk] at h; cases h
    · rw [if_neg hk] at h
      simp only at h
      split at h
      · rename_i hc
        injection h with h; subst h
        refine ⟨?_, hc.2⟩
        have hx := ofInt_toInt (c := a) (by unfold inFix at ha; omega) (by unfold inFix at ha; omega)
        rw [BitVec.toInt_sshiftRight, Int.shiftRight_eq_div_pow] at hc
        have hd : ((2 ^ k : Nat) : Int) ∣ (BitVec.ofInt 64 a <<< k : W).toInt := by
          rw [BitVec.toInt_shiftLeft, Nat.shiftLeft_eq, Int.bmod_eq_self_sub_mul_bdiv]
          refine Int.dvd_sub ?_ (Dvd.dvd.mul_right ?_ _)
          · push_cast; exact Dvd.intro_left _ rfl
          · exact_mod_cast Nat.pow_dvd_pow 2 (by omega)
        have := Int.ediv_mul_cancel hd
        rw [hc.1] at this
        rw [← this]; push_cast; rfl
      · cases h

/-- **C75**: what is folded at compile time is what the interpreter computes. -/
theorem C75_fold {a k v : Int} (ha : inFix a) :
    (foldShl a k = some v → v = lshift a k) ∧ (foldShr a k = some v → v = lshift a (-k)) := by
  constructor
  · intro h
    unfold foldShl at h
    unfold lshift
    by_cases hk : 0 ≤ k
    · rw [if_pos hk] at h ⊢
      exact (foldShlPos_eq ha h).1
    · rw [if_neg hk] at h ⊢
      rw [foldRight_eq ha] at h
      exact (Option.some.inj h).symm
  · intro h
    unfold foldShr at h
    unfold lshift
    by_cases hk : 0 ≤ k
    · rw [if_pos hk, foldRight_eq ha] at h
      have h := (Option.some.inj h).symm
      by_cases h0 : k = 0
      · subst h0; simpa using h
      · rw [if_neg (by omega), Int.neg_neg]; exact h
    · rw [if_neg hk] at h
      rw [if_pos (by omega)]
      exact (foldShlPos_eq ha h).1

/-! ### Comparisons -/

/-- what each comparison means -/
def CmpKind.int : CmpKind → Int → Int → Bool
  | .eq, a, b | .teq, a, b => decide (a = b)
  | .ne, a, b => decide (a ≠ b)
  | .ge, a, b => decide (a ≥ b)
  | .gt, a, b => decide (a > b)
  | .le, a, b => decide (a ≤ b)
  | .lt, a, b => decide (a < b)

def boolW (b : Bool) : W := if b then trueW else falseW

theorem setcc (b : Bool) : ((if b then 1 else 0 : W) <<< 3) ||| falseW = boolW b := by
  cases b <;> decide

/-- **C76**: comparing two fixnums. -/
theorem C76_int {a b : Int} (ha : inFix a) (hb : inFix b) (k : CmpKind) :
    intCmp k (tag a) (tag b) = boolW (k.int a b) := by
  unfold intCmp
  rw [setcc]
  congr 1
  have he : (tag a = tag b) ↔ a = b := ⟨tag_inj ha hb, fun h => by rw [h]⟩
  have h1 : (tag b).sle (tag a) = decide (a ≥ b) := by
    unfold BitVec.sle; rw [tag_toInt ha, tag_toInt hb]; congr 1; rw [eq_iff_iff]; omega
  have h2 : (tag b).slt (tag a) = decide (a > b) := by
    unfold BitVec.slt; rw [tag_toInt ha, tag_toInt hb]; congr 1; rw [eq_iff_iff]; omega
  have h3 : (tag a).sle (tag b) = decide (a ≤ b) := by
    unfold BitVec.sle; rw [tag_toInt ha, tag_toInt hb]; congr 1; rw [eq_iff_iff]; omega
  have h4 : (tag a).slt (tag b) = decide (a < b) := by
    unfold BitVec.slt; rw [tag_toInt ha, tag_toInt hb]; congr 1; rw [eq_iff_iff]; omega
  have h5 : (tag a == tag b) = decide (a = b) := by
    rw [Bool.eq_iff_iff, beq_iff_eq, decide_eq_true_eq, he]
  cases k with
  | eq => exact h5
  | teq => exact h5
  | ne =>
    show (!(tag a == tag b)) = decide (a ≠ b)
    rw [h5, decide_not]
  | ge => exact h1
  | gt => exact h2
  | le => exact h3
  | lt => exact h4

/-- what each comparison means for two floats that compare as `o`; a NaN is unordered to
everything. -/
def CmpKind.flt : CmpKind → FOrd → Bool
  | .eq, o | .teq, o => decide (o = .eq)
  | .ne, o => decide (o ≠ .eq)
  | .ge, o => decide (o = .gt ∨ o = .eq)
  | .gt, o => decide (o = .gt)
  | .le, o => decide (o = .lt ∨ o = .eq)
  | .lt, o => decide (o = .lt)

/-- **C76**: comparing two floats. -/
theorem C76_float (k : CmpKind) (o : FOrd) : fltCmp k o = boolW (k.flt o) := by
  cases k <;> cases o <;> rfl

/-- **C76**: branching on a float comparison goes where the comparison says. -/
theorem C76_branch (k : CmpKind) (o : FOrd) :
    condbr k .brIf o = k.flt o ∧ condbr k .brIfNot o = !k.flt o := by
  cases k <;> cases o <;> exact ⟨rfl, rfl⟩

/-! ### Concrete cases meeting the hypotheses -/

example : inFix 7 ∧ inFix (-3) ∧ inFix (2 ^ 62 - 1) ∧ inFix (-(2 ^ 62)) ∧ ¬ inFix (2 ^ 62) := by
  refine ⟨?_, ?_, ?_, ?_, ?_⟩ <;> unfold inFix <;> decide
example : add (tag (2 ^ 62 - 1)) (tag 1) = none ∧ add (tag 7) (tag (-3)) = some (tag 4) := by decide
example : mul (tag (2 ^ 40)) (tag (2 ^ 22)) = none ∧ mul (tag (2 ^ 40)) (tag (-(2 ^ 22))) = some (tag (-(2 ^ 62))) := by decide
example : div (tag (-7)) (tag 2) = some (tag (-4)) ∧ rem (tag (-7)) (tag 2) = some (tag 1) := by decide
example : rem (tag 7) (tag (-2)) = some (tag (-1)) ∧ remPow2 (tag (-7)) 2 = tag 1 := by decide
example : shl (tag 3) (tag 60) = some (tag (3 * 2 ^ 60)) ∧ shl (tag 3) (tag 61) = none ∧
    shl (tag (-5)) (tag (-1)) = some (tag (-3)) := by decide
example : shr (tag (-5)) (tag 100) = some (tag (-1)) ∧ shlLit (tag 5) 3 = some (tag 40) := by decide
example : bitXor (tag (-1)) (tag 5) = tag (-6) ∧ bitIndex (tag (-2)) 70 = tag 1 := by decide
example : intCmp .lt (tag (-1)) (tag 0) = trueW ∧ intCmp .ge (tag (-1)) (tag 0) = falseW := by decide
example : fltCmp .ne .unordered = trueW ∧ fltCmp .le .unordered = falseW := by decide

/-! ### Float operators on registers and spill slots -/

theorem loc_inj {x y : Nat} (h : loc x = loc y) : x = y := by
  unfold loc at h
  split at h <;> split at h <;> simp at h <;> omega

/-- a pool register: not one of the two scratch registers -/
def Pool (L : Loc) : Prop := ∀ p, L = .xmm p → 2 ≤ p

theorem loc_pool (x : Nat) : Pool (loc x) := by
  intro p h
  unfold loc at h
  split at h <;> simp at h
  omega

theorem get_setX {F : Type} (m : FMach F) (p : Nat) (v : F) (L : Loc) :
    (m.setX p v).get L = if L = .xmm p then v else m.get L := by
  cases L <;> simp [FMach.get, FMach.setX]

theorem get_setM {F : Type} (m : FMach F) (o : Nat) (v : F) (L : Loc) :
    (m.setM o v).get L = if L = .spill o then v else m.get L := by
  cases L <;> simp [FMach.get, FMach.setM]

theorem xmm_get {F : Type} (m : FMach F) (p : Nat) : m.xmm p = m.get (.xmm p) := rfl

theorem work_pool {D : Loc} (hD : Pool D) : workReg D = 0 ∧ (∃ o, D = .spill o) ∨ 2 ≤ workReg D ∧ D = .xmm (workReg D) := by
  cases D with
  | xmm p => exact .inr ⟨hD p rfl, rfl⟩
  | spill o => exact .inl ⟨rfl, o, rfl⟩

/-- the right operand's register: its value, apart from `work`, all pool locations kept -/
theorem routeR_ok {F : Type} {comm : Bool} {D R : Loc} (hD : Pool D) (hR : Pool R) (m : FMach F) :
    ((routeR comm (workReg D) R m).2 = 1 ∨ .xmm (routeR comm (workReg D) R m).2 = R) ∧
    ((routeR comm (workReg D) R m).1.xmm (routeR comm (workReg D) R m).2 = m.get R) ∧
    ((routeR comm (workReg D) R m).2 = workReg D → D = R) ∧
    ∀ L, Pool L → (routeR comm (workReg D) R m).1.get L = m.get L := by
  have h1 : ∀ L, Pool L → L ≠ .xmm 1 := fun L hL e => by have := hL 1 e; omega
  have hw := work_pool hD
  cases R with
  | xmm p =>
    have hp := hR p rfl
    simp only [routeR]
    split
    · refine ⟨.inl rfl, ?_, ?_, ?_⟩
      · simp [FMach.setX, FMach.get]
      · intro e; simp only at e; omega
      · intro L hL; rw [get_setX, if_neg (h1 L hL)]
    · refine ⟨.inr rfl, rfl, ?_, fun _ _ => rfl⟩
      intro e; simp only at e
      rcases hw with ⟨a, _⟩ | ⟨_, b⟩
      · omega
      · rw [b, e]
  | spill o =>
    refine ⟨.inl rfl, ?_, ?_, ?_⟩
    · simp [routeR, FMach.setX, FMach.get]
    · intro e
      have e : 1 = workReg D := e
      omega
    · intro L hL
      show (m.setX 1 (m.mem o)).get L = _
      rw [get_setX, if_neg (h1 L hL)]

theorem loadL_get {F : Type} (w : Nat) (A : Loc) (m : FMach F) (L : Loc) :
    (loadL w A m).get L = if L = .xmm w then m.get A else m.get L := by
  unfold loadL
  split
  · rename_i h
    split
    · rename_i h'; rw [h, h']
    · rfl
  · exact get_setX _ _ _ _

/-- **C76**: the code for `dst <- l op r` leaves the operation's result in `dst` and every
other float register as it was, wherever the three live, provided `dst` is not `r` (the
allocator pins `r` while it picks `dst`, or `dst` is `l`). -/
theorem C76_floatBinop {F : Type} (op : F → F → F) (comm : Bool) (d l r : Nat) (h : d = r → d = l) (m : FMach F) :
    (floatBinop op comm d l r m).get (loc d) = op (m.get (loc l)) (m.get (loc r)) ∧
    ∀ y, y ≠ d → (floatBinop op comm d l r m).get (loc y) = m.get (loc y) := by
  obtain ⟨q1, q2, q3, q4⟩ := routeR_ok (comm := comm) (loc_pool d) (loc_pool r) m
  have hw := work_pool (loc_pool d)
  have e1 : (loadL (workReg (loc d)) (loc l) (routeR comm (workReg (loc d)) (loc r) m).1).xmm (workReg (loc d)) = m.get (loc l) := by
    rw [xmm_get, loadL_get, if_pos rfl, q4 _ (loc_pool l)]
  have e2 : (loadL (workReg (loc d)) (loc l) (routeR comm (workReg (loc d)) (loc r) m).1).xmm
      (routeR comm (workReg (loc d)) (loc r) m).2 = m.get (loc r) := by
    rw [xmm_get, loadL_get]
    split
    · rename_i e
      have hdr := loc_inj (q3 (Loc.xmm.inj e))
      rw [q4 _ (loc_pool l), ← h hdr, hdr]
    · exact q2
  have e3 : ∀ L, L ≠ .xmm (workReg (loc d)) → Pool L →
      (loadL (workReg (loc d)) (loc l) (routeR comm (workReg (loc d)) (loc r) m).1).get L = m.get L := by
    intro L hL hP
    rw [loadL_get, if_neg hL, q4 _ hP]
  unfold floatBinop
  simp only [e1, e2]
  rcases hw with ⟨a, o, b⟩ | ⟨a, b⟩
  · rw [a] at e3
    rw [b]
    simp only [storeD, workReg]
    constructor
    · rw [get_setM, if_pos rfl]; simp [FMach.setX]
    · intro y hy
      have n1 : loc y ≠ .spill o := fun e => hy (loc_inj (e.trans b.symm))
      have n2 : loc y ≠ .xmm 0 := fun e => by have := loc_pool y 0 e; omega
      rw [get_setM, if_neg n1, get_setX, if_neg n2]
      exact e3 _ n2 (loc_pool y)
  · have st : ∀ m' : FMach F, storeD (loc d) (workReg (loc d)) m' = m' := by
      intro m'; rw [b]; rfl
    rw [st]
    constructor
    · conv_lhs => arg 2; rw [b]
      rw [get_setX, if_pos rfl]
    · intro y hy
      have n1 : loc y ≠ .xmm (workReg (loc d)) := fun e => hy (loc_inj (e.trans b.symm))
      rw [get_setX, if_neg n1, e3 _ n1 (loc_pool y)]

/-- Without the proviso, a commutative operation would compute `l op l`. -/
theorem floatBinop_alias {F : Type} (op : F → F → F) (m : FMach F) :
    (floatBinop op true 1 0 1 m).get (loc 1) = op (m.get (loc 0)) (m.get (loc 0)) := rfl

end Verif.FixOps
