import Verif.IntArith.Bits
import Mathlib.Tactic.NormNum

/-!
# Properties C04–C08: Integer operators

`Value.bigint n` is the stored form of the integer `n`; by C01 it is the only
stored form and different integers have different stored forms, so a theorem
"the result is `Value.bigint (a + b)`" says both that the number is right and
that its representation is canonical.
-/

namespace Verif.IntArith
open Verif.Value

/-! ## C04 Exact +, -, *, unary minus -/

theorem C04_add (a b : Int) :
    addValues (Value.bigint a) (Value.bigint b) = .ok (Value.bigint (a + b)) := by
  obtain ⟨k, ek, hk⟩ := ofVal_denotes a
  obtain ⟨l, el, hl⟩ := ofVal_denotes b
  simp only [addValues, ek, el, bind, Except.bind, pure, Except.pure]
  rw [binop_toVal _ hk hl]

theorem C04_sub (a b : Int) :
    subValues (Value.bigint a) (Value.bigint b) = .ok (Value.bigint (a - b)) := by
  obtain ⟨k, ek, hk⟩ := ofVal_denotes a
  obtain ⟨l, el, hl⟩ := ofVal_denotes b
  simp only [subValues, ek, el, bind, Except.bind, pure, Except.pure]
  rw [binop_toVal _ hk hl]

theorem C04_mul (a b : Int) :
    mulValues (Value.bigint a) (Value.bigint b) = .ok (Value.bigint (a * b)) := by
  obtain ⟨k, ek, hk⟩ := ofVal_denotes a
  obtain ⟨l, el, hl⟩ := ofVal_denotes b
  simp only [mulValues, ek, el, bind, Except.bind, pure, Except.pure]
  rw [binop_toVal _ hk hl]

theorem C04_neg (a : Int) : negValue (Value.bigint a) = .ok (Value.bigint (-a)) := by
  obtain ⟨k, ek, hk⟩ := ofVal_denotes a
  simp only [negValue, ek, bind, Except.bind, pure, Except.pure]
  rw [negKind_toVal hk]

-- inline + inline overflowing into a heap Integer, and heap - heap coming back
example : addValues (Value.bigint (2 ^ 62 - 1)) (Value.bigint 1) = .ok (.bigint (2 ^ 62)) := by
  decide
example : subValues (Value.bigint (2 ^ 70)) (Value.bigint (2 ^ 70 - 5)) = .ok (.imm 11#64) := by
  decide
example : mulValues (Value.bigint (2 ^ 61)) (Value.bigint (2 ^ 61)) = .ok (.bigint (2 ^ 122)) := by
  decide
example : negValue (Value.bigint (-(2 ^ 62))) = .ok (.bigint (2 ^ 62)) := by decide

/-! ## C05 Floored division and modulo -/

/-- C05: quotient and remainder satisfy the floored-division law; `/`, `%` and
`divmod` agree; nothing panics on overflow. -/
theorem C05_divmod (a b : Int) (h0 : b ≠ 0) :
    ∃ q r, divValues (Value.bigint a) (Value.bigint b) = .ok (Value.bigint q) ∧
      remValues (Value.bigint a) (Value.bigint b) = .ok (Value.bigint r) ∧
      divmodValues (Value.bigint a) (Value.bigint b) = .ok (Value.bigint q, Value.bigint r) ∧
      a = b * q + r ∧ (0 < b → 0 ≤ r ∧ r < b) ∧ (b < 0 → b < r ∧ r ≤ 0) := by
  obtain ⟨k, ek, hk⟩ := ofVal_denotes a
  obtain ⟨l, el, hl⟩ := ofVal_denotes b
  obtain ⟨kq, kr, q, r, e1, e2, e3, v1, v2, hs⟩ := rubyDivMod_ok hk hl h0
  have hz : l.isZero = false := by rw [hl.isZero]; simp [h0]
  refine ⟨q, r, ?_, ?_, ?_, hs⟩
  · simp [divValues, ek, el, hz, e1, v1, bind, Except.bind, pure, Except.pure]
  · simp [remValues, ek, el, hz, e2, v2, bind, Except.bind, pure, Except.pure]
  · simp [divmodValues, ek, el, hz, e3, v1, v2, bind, Except.bind, pure, Except.pure]

/-- C05, as a closed formula. -/
theorem C05_div_eq_floor (a b : Int) (h0 : b ≠ 0) :
    divValues (Value.bigint a) (Value.bigint b) = .ok (Value.bigint (a.fdiv b)) ∧
    remValues (Value.bigint a) (Value.bigint b) = .ok (Value.bigint (a.fmod b)) := by
  obtain ⟨q, r, e1, e2, -, h1, h2, h3⟩ := C05_divmod a b h0
  have g1 := Int.mul_fdiv_add_fmod a b
  have key : q = a.fdiv b := by
    rcases lt_or_gt_of_ne h0 with hb | hb
    · have m1 := h3 hb
      have m2 : b < a.fmod b ∧ a.fmod b ≤ 0 := by
        have := Int.fmod_def a b
        have e : a.fmod b = -((-a).fmod (-b)) := by
          rw [Int.neg_fmod_neg]; simp
        have p := Int.fmod_nonneg_of_pos (-a) (b := -b) (by omega)
        have p2 := Int.fmod_lt_of_pos (-a) (b := -b) (by omega)
        omega
      have : b * (q - a.fdiv b) = a.fmod b - r := by rw [mul_sub]; omega
      rcases lt_trichotomy (q - a.fdiv b) 0 with h | h | h
      · nlinarith
      · omega
      · nlinarith
    · have m1 := h2 hb
      have p := Int.fmod_nonneg_of_pos a hb
      have p2 := Int.fmod_lt_of_pos a hb
      have : b * (q - a.fdiv b) = a.fmod b - r := by rw [mul_sub]; omega
      rcases lt_trichotomy (q - a.fdiv b) 0 with h | h | h
      · nlinarith
      · omega
      · nlinarith
  have : r = a.fmod b := by rw [key] at h1; omega
  rw [e1, e2, key, this]
  exact ⟨rfl, rfl⟩

/-- C05: division by zero raises ZeroDivisionError. -/
theorem C05_zero_div (a : Int) :
    divValues (Value.bigint a) (Value.bigint 0) = .error .zeroDiv ∧
    remValues (Value.bigint a) (Value.bigint 0) = .error .zeroDiv ∧
    divmodValues (Value.bigint a) (Value.bigint 0) = .error .zeroDiv := by
  obtain ⟨k, ek, hk⟩ := ofVal_denotes a
  obtain ⟨l, el, hl⟩ := ofVal_denotes 0
  have hz : l.isZero = true := by rw [hl.isZero]; rfl
  refine ⟨?_, ?_, ?_⟩
  · simp [divValues, ek, el, hz, bind, Except.bind]
  · simp [remValues, ek, el, hz, bind, Except.bind]
  · simp [divmodValues, ek, el, hz, bind, Except.bind]

-- -7 / 2 = -4 rem 1, 7 / -2 = -4 rem -1; smallest inline / -1 leaves the inline range
example : divmodValues (Value.bigint (-7)) (Value.bigint 2) =
    .ok (Value.bigint (-4), Value.bigint 1) := by decide
example : divmodValues (Value.bigint 7) (Value.bigint (-2)) =
    .ok (Value.bigint (-4), Value.bigint (-1)) := by decide
example : divValues (Value.bigint (-(2 ^ 62))) (Value.bigint (-1)) = .ok (.bigint (2 ^ 62)) := by
  decide
example : remValues (Value.bigint (-(2 ^ 80))) (Value.bigint 7) = .ok (Value.bigint 3) := by
  decide

/-! ## C06 Shifts -/

theorem U32MAX_def : U32MAX = 4294967295 := rfl

theorem safeIntShl_eq {a : Int} (ha : -(2 ^ 62) ≤ a ∧ a < 2 ^ 62) (n : Nat) :
    safeIntShl a n = if n ≤ U32MAX then .ok (Value.bigint (a * 2 ^ n))
      else if a = 0 then .ok (Value.bigint 0) else .error .shiftTooBig := by
  unfold safeIntShl
  by_cases h : n > U32MAX
  · rw [if_pos h, if_neg (not_le.2 h)]
    split
    · rw [integerI_eq 0 (by decide)]
    · rfl
  · rw [if_neg h, if_pos (not_lt.1 h)]
    split
    · rename_i hc
      rw [integerI_eq _ (wrap64_fits _), shl_lossless hc.1 hc.2]
    · rfl

theorem safeBigShl_eq (a : Int) (n : Nat) :
    safeBigShl a n = if n ≤ U32MAX then .ok (Value.bigint (a * 2 ^ n))
      else if a = 0 then .ok (Value.bigint 0) else .error .shiftTooBig := by
  unfold safeBigShl
  by_cases h : n > U32MAX
  · rw [if_pos h, if_neg (not_le.2 h)]
    split
    · rw [integerI_eq 0 (by decide)]
    · rfl
  · rw [if_neg h, if_pos (not_lt.1 h)]

theorem fits_ediv {a : Int} (ha : -(2 ^ 62) ≤ a ∧ a < 2 ^ 62) (n : Nat) :
    fits64 (a / 2 ^ n) = true := by
  rw [fits64_iff]
  have hp := two_pow_pos n
  have h1 := Int.natAbs_ediv_le_natAbs a (2 ^ n)
  omega

theorem safeIntShr_eq {a : Int} (ha : -(2 ^ 62) ≤ a ∧ a < 2 ^ 62) (n : Nat) :
    safeIntShr a n = Value.bigint (a / 2 ^ n) := by
  unfold safeIntShr
  split
  · rename_i h
    rw [ediv_sign_of_small (natAbs_lt_two_pow_of_fits ha h)]
    by_cases h : a < 0
    · rw [if_neg (by omega), if_pos h, integerI_eq _ (by decide)]
    · rw [if_pos (by omega), if_neg h, integerI_eq _ (by decide)]
  · rw [integerI_eq _ (fits_ediv ha n)]

theorem safeBigShr_eq (a : Int) (n : Nat) (h : n ≤ U32MAX ∨ a.natAbs < 2 ^ n) :
    safeBigShr a n = Value.bigint (a / 2 ^ n) := by
  unfold safeBigShr
  by_cases hn : n > U32MAX
  · rw [if_pos hn]
    have h : a.natAbs < 2 ^ n := by rcases h with h | h <;> [omega; exact h]
    rw [ediv_sign_of_small h]
    split <;> rw [integerI_eq _ (by decide)]
  · rw [if_neg hn]

/-- The left-shift result demanded for a count `n`: the product, or an error when
the count is beyond 32 bits and there is something to shift. -/
def shlSpec (a : Int) (n : Nat) : Res Val :=
  if n ≤ U32MAX then .ok (Value.bigint (a * 2 ^ n))
  else if a = 0 then .ok (Value.bigint 0) else .error .shiftTooBig

/-- C06: `a << n` for `n ≥ 0`. -/
theorem C06_shl_left (a : Int) (n : Nat) :
    shlValues (Value.bigint a) (Value.bigint n) = shlSpec a n := by
  unfold shlSpec
  obtain ⟨k, ek, hk⟩ := ofVal_denotes a
  obtain ⟨l, el, hl⟩ := ofVal_denotes (n : Int)
  rw [shlValues, ek, el, ok_bind, ok_bind]
  cases hl with
  | small _ hn =>
    cases hk with
    | small _ ha => simp [shlKind, safeIntShl_eq ha]
    | big _ ha => simp [shlKind, safeBigShl_eq]
  | big _ hn =>
    have hn1 : 2 ^ 62 ≤ n := by
      by_contra hc
      exact hn ⟨by omega, by omega⟩
    have hn2 : ¬ n ≤ U32MAX := by have := U32MAX_def; omega
    have hn3 : (0 : Int) < n := by omega
    cases hk <;> simp only [shlKind, hn3, if_true, hn2, if_false] <;> split <;>
      first | rfl | (rw [integerI_eq 0 (by decide)]; rfl)

/-- C06: `a >> -n` for `n > 0` shifts left. -/
theorem C06_shr_left (a : Int) (n : Nat) (h0 : 0 < n) :
    shrValues (Value.bigint a) (Value.bigint (-n)) = shlSpec a n := by
  unfold shlSpec
  obtain ⟨k, ek, hk⟩ := ofVal_denotes a
  obtain ⟨l, el, hl⟩ := ofVal_denotes (-(n : Int))
  rw [shrValues, ek, el, ok_bind, ok_bind]
  have hneg : ¬ (-(n : Int) ≥ 0) := by omega
  have hneg' : ¬ (-(n : Int) > 0) := by omega
  cases hl with
  | small _ hn =>
    cases hk with
    | small _ ha => rw [shrKind, if_neg hneg, neg_neg, Int.toNat_natCast, safeIntShl_eq ha]
    | big _ ha => rw [shrKind, if_neg hneg, neg_neg, Int.toNat_natCast, safeBigShl_eq]
  | big _ hn =>
    have hn1 : 2 ^ 62 ≤ n := by
      by_contra hc
      exact hn ⟨by omega, by omega⟩
    have hn2 : ¬ n ≤ U32MAX := by have := U32MAX_def; omega
    cases hk <;> simp only [shrKind, hneg', if_false, hn2] <;> split <;>
      first | rfl | (rw [integerI_eq 0 (by decide)]; rfl)

/-- What a right shift must return. -/
def IsShr (a : Int) (n : Nat) (q : Int) : Prop := q * 2 ^ n ≤ a ∧ a < (q + 1) * 2 ^ n

theorem isShr_ediv (a : Int) (n : Nat) : IsShr a n (a / 2 ^ n) := by
  have hp := two_pow_pos n
  constructor
  · exact Int.ediv_mul_le a (ne_of_gt hp)
  · exact Int.lt_ediv_add_one_mul_self a hp

/-- C06: `a >> n` for `n ≥ 0` is the floored quotient.  Missing from the full
statement: a heap Integer of more than `2^32 - 1` bits shifted by more than
`2^32 - 1`, see `C06_shr_fails`. -/
theorem C06_shr_right_partial (a : Int) (n : Nat) (hs : n ≤ U32MAX ∨ a.natAbs < 2 ^ n) :
    ∃ q, shrValues (Value.bigint a) (Value.bigint n) = .ok (Value.bigint q) ∧ IsShr a n q := by
  refine ⟨a / 2 ^ n, ?_, isShr_ediv a n⟩
  obtain ⟨k, ek, hk⟩ := ofVal_denotes a
  obtain ⟨l, el, hl⟩ := ofVal_denotes (n : Int)
  rw [shrValues, ek, el, ok_bind, ok_bind]
  cases hl with
  | small _ hn =>
    cases hk with
    | small _ ha => simp [shrKind, safeIntShr_eq ha, pure, Except.pure]
    | big _ ha => simp [shrKind, safeBigShr_eq a n hs, pure, Except.pure]
  | big _ hn =>
    have hn1 : 2 ^ 62 ≤ n := by
      by_contra hc
      exact hn ⟨by omega, by omega⟩
    have hn3 : (0 : Int) < n := by omega
    have hn2 : ¬ n ≤ U32MAX := by have := U32MAX_def; omega
    have hs' : a.natAbs < 2 ^ n := by rcases hs with h | h <;> [exact absurd h hn2; exact h]
    rw [ediv_sign_of_small hs']
    cases hk <;> simp only [shrKind, hn3, if_true, pure, Except.pure]
    · by_cases h : a < 0
      · rw [if_neg (by omega), if_pos h, integerI_eq _ (by decide)]
      · rw [if_pos (by omega), if_neg h, integerI_eq _ (by decide)]
    · split <;> rw [integerI_eq _ (by decide)]

/-- C06: `a << -n` for `n > 0` shifts right (same missing case). -/
theorem C06_shl_right_partial (a : Int) (n : Nat) (h0 : 0 < n)
    (hs : n ≤ U32MAX ∨ a.natAbs < 2 ^ n) :
    ∃ q, shlValues (Value.bigint a) (Value.bigint (-n)) = .ok (Value.bigint q) ∧ IsShr a n q := by
  refine ⟨a / 2 ^ n, ?_, isShr_ediv a n⟩
  obtain ⟨k, ek, hk⟩ := ofVal_denotes a
  obtain ⟨l, el, hl⟩ := ofVal_denotes (-(n : Int))
  rw [shlValues, ek, el, ok_bind, ok_bind]
  have hneg : ¬ (-(n : Int) ≥ 0) := by omega
  have hneg' : ¬ (-(n : Int) > 0) := by omega
  cases hl with
  | small _ hn =>
    cases hk with
    | small _ ha =>
      simp only [shlKind, if_neg hneg, neg_neg, Int.toNat_natCast, safeIntShr_eq ha, pure, Except.pure]
    | big _ ha =>
      simp only [shlKind, if_neg hneg, neg_neg, Int.toNat_natCast, safeBigShr_eq a n hs, pure, Except.pure]
  | big _ hn =>
    have hn1 : 2 ^ 62 ≤ n := by
      by_contra hc
      exact hn ⟨by omega, by omega⟩
    have hn2 : ¬ n ≤ U32MAX := by have := U32MAX_def; omega
    have hs' : a.natAbs < 2 ^ n := by rcases hs with h | h <;> [exact absurd h hn2; exact h]
    rw [ediv_sign_of_small hs']
    cases hk <;> simp only [shlKind, hneg', if_false, pure, Except.pure]
    · by_cases h : a < 0
      · rw [if_neg (by omega), if_pos h, integerI_eq _ (by decide)]
      · rw [if_pos (by omega), if_neg h, integerI_eq _ (by decide)]
    · split <;> rw [integerI_eq _ (by decide)]

/-- C06 is false without the side condition: for `2^32 ≤ n < 2^62`,
`(2**n) >> n` is 0 instead of 1. -/
theorem C06_shr_fails (n : Nat) (h1 : U32MAX < n) (h2 : n < 2 ^ 62) :
    shrValues (Value.bigint (2 ^ n)) (Value.bigint n) = .ok (Value.bigint 0) ∧
    IsShr (2 ^ n) n 1 ∧ ¬ IsShr (2 ^ n) n 0 := by
  have hp : (2 : Int) ^ 62 ≤ 2 ^ n := by
    apply pow_le_pow_right₀ (by decide)
    have := U32MAX_def; omega
  refine ⟨?_, ⟨by omega, by omega⟩, fun h => ?_⟩
  · rw [shrValues, ofVal_bigint, ofVal_bigint, ok_bind, ok_bind]
    rw [if_neg (by omega), if_pos (by omega)]
    have : ¬ (2 : Int) ^ n < 0 := by omega
    rw [shrKind]
    simp [safeBigShr, h1, pure, Except.pure, this]
    exact integerI_eq 0 (by decide)
  · have := h.2; omega

/-- C06: when the compiler folds a shift of two inline constants, the constant is
what the operator would return, and it is inline. -/
theorem C06_fold_shl (a n r : Int) (ha : -(2 ^ 62) ≤ a ∧ a < 2 ^ 62)
    (hn : -(2 ^ 62) ≤ n ∧ n < 2 ^ 62) (h : foldShl a n = some r) :
    shlValues (Value.bigint a) (Value.bigint n) = .ok (Value.bigint r) ∧
      -(2 ^ 62) ≤ r ∧ r < 2 ^ 62 := by
  have main : ∀ k : Nat, foldShlPos a k = some r →
      safeIntShl a k = .ok (Value.bigint r) ∧ -(2 ^ 62) ≤ r ∧ r < 2 ^ 62 := by
    intro k hk
    unfold foldShlPos at hk
    rw [safeIntShl_eq ha]
    split at hk
    · rename_i h0
      obtain rfl := Option.some.inj hk
      subst h0
      simp
    split at hk
    · exact absurd hk (by simp)
    simp only [] at hk
    split at hk
    · rename_i h63 hc
      obtain rfl := Option.some.inj hk
      have hl := shl_lossless (l := a) (r := k) (by omega) hc.1
      rw [if_pos (by have := U32MAX_def; omega), hl]
      refine ⟨rfl, ?_⟩
      have := (isI63_iff _).1 hc.2
      rw [toInt_ofInt_of_range ((fits64_iff _).1 (wrap64_fits _)), hl] at this
      exact this
    · exact absurd hk (by simp)
  rw [shlValues, ofVal_bigint, ofVal_bigint, ok_bind, ok_bind, if_pos ha, if_pos hn, shlKind]
  unfold foldShl at h
  by_cases h0 : n ≥ 0
  · rw [if_pos h0] at h
    rw [if_pos h0]
    exact main _ h
  · rw [if_neg h0] at h
    rw [if_neg h0]
    have hr := Option.some.inj h
    have hv : r = a / 2 ^ (-n).toNat := by
      rw [← hr]
      split
      · rename_i h64
        rw [ediv_sign_of_small (natAbs_lt_two_pow_of_fits ha h64)]
        split <;> split <;> first | rfl | omega
      · rfl
    rw [safeIntShr_eq ha, hv]
    refine ⟨rfl, ?_⟩
    have h1 := Int.natAbs_ediv_le_natAbs a (2 ^ (-n).toNat)
    have h2 := isShr_ediv a (-n).toNat
    have hp := two_pow_pos (-n).toNat
    by_cases ha0 : 0 ≤ a
    · have := Int.ediv_nonneg ha0 (le_of_lt hp); omega
    · have : a / 2 ^ (-n).toNat < 0 := Int.ediv_neg_of_neg_of_pos (by omega) hp
      omega

theorem C06_fold_shr (a n r : Int) (ha : -(2 ^ 62) ≤ a ∧ a < 2 ^ 62)
    (hn : -(2 ^ 62) < n ∧ n < 2 ^ 62) (h : foldShr a n = some r) :
    shrValues (Value.bigint a) (Value.bigint n) = .ok (Value.bigint r) ∧
      -(2 ^ 62) ≤ r ∧ r < 2 ^ 62 := by
  have e1 : shrValues (Value.bigint a) (Value.bigint n) =
      shlValues (Value.bigint a) (Value.bigint (-n)) := by
    rw [shrValues, shlValues, ofVal_bigint, ofVal_bigint, ofVal_bigint, ok_bind, ok_bind, ok_bind,
      ok_bind, if_pos ha, if_pos (by omega), if_pos (by omega), shrKind, shlKind]
    by_cases h0 : n ≥ 0
    · by_cases h1 : n = 0
      · subst h1
        simp only [ge_iff_le, le_refl, if_true, neg_zero]
        simp [safeIntShr_eq ha, safeIntShl_eq ha, pure, Except.pure]
      · rw [if_pos h0, if_neg (by omega), neg_neg]
    · rw [if_neg h0, if_pos (by omega)]
  by_cases h0 : n ≥ 0
  · by_cases h1 : n = 0
    · subst h1
      have : foldShl a (-0) = some r ∨ a = r := by
        right
        simp [foldShr] at h
        exact h
      rcases this with h | h
      · rw [e1]; exact C06_fold_shl a (-0) r ha (by decide) h
      · subst h
        rw [shrValues, ofVal_bigint, ofVal_bigint, ok_bind, ok_bind, if_pos ha]
        rw [if_pos (by decide), shrKind]
        simp [safeIntShr_eq ha, pure, Except.pure]
        exact ha
    · rw [e1]
      apply C06_fold_shl a (-n) r ha (by omega)
      unfold foldShl foldShr at *
      rw [if_pos h0] at h
      rw [if_neg (by omega), neg_neg, ← h]
      congr 1
      by_cases h64 : n ≥ 64
      · rw [if_pos h64, if_pos (by omega)]
      · rw [if_neg h64, if_neg (by omega)]
  · rw [e1]
    apply C06_fold_shl a (-n) r ha (by omega)
    unfold foldShl foldShr at *
    rw [if_neg h0] at h
    rw [if_pos (by omega)]
    exact h

example : shlValues (Value.bigint 3) (Value.bigint 100) = .ok (.bigint (3 * 2 ^ 100)) := by
  rw [show (100 : Int) = ((100 : Nat) : Int) by rfl, C06_shl_left]; decide
example : shrValues (Value.bigint (-5)) (Value.bigint 1) = .ok (Value.bigint (-3)) := by decide
example : shrValues (Value.bigint (-5)) (Value.bigint 1000) = .ok (Value.bigint (-1)) := by decide
example : shlValues (Value.bigint 1) (Value.bigint (2 ^ 32)) = .error .shiftTooBig := by decide
example : foldShl 5 3 = some 40 := by decide
example : foldShl 1 62 = none := by decide

/-! ## C07 Power -/

theorem neg_one_pow (n : Nat) : (-1 : Int) ^ n = if n % 2 = 1 then -1 else 1 := by
  split
  · rename_i h
    exact Odd.neg_one_pow (Nat.odd_iff.2 h)
  · rename_i h
    exact Even.neg_one_pow (Nat.even_iff.2 (by omega))

/-- C07: for `n ≥ 0`, `a ** n` is either the exact power or the "exponent is too
large" error; never a wrong number, another error or a panic. -/
theorem C07_pow_exact_or_error (a : Int) (n : Nat) :
    powValues (Value.bigint a) (Value.bigint n) = .ok (.int (Value.bigint (a ^ n))) ∨
    powValues (Value.bigint a) (Value.bigint n) = .error .expTooLarge := by
  obtain ⟨k, ek, hk⟩ := ofVal_denotes a
  obtain ⟨l, el, hl⟩ := ofVal_denotes (n : Int)
  rw [powValues, ek, el, ok_bind, ok_bind]
  cases hl with
  | small _ hn =>
    have h0 : ¬ (n : Int) < 0 := by omega
    cases hk with
    | small _ ha =>
      rw [powKind, powII]
      by_cases hr : -(2 ^ 31) ≤ (n : Int) ∧ (n : Int) < 2 ^ 31
      · rw [if_pos hr, if_neg h0]
        simp only [Int.toNat_natCast]
        split
        · rename_i h; left; rw [integerI_eq _ h]
        · split
          · right; rfl
          · left; rfl
      · rw [if_neg hr]; right; rfl
    | big _ ha =>
      rw [powKind, powBigFix]
      rw [if_neg h0]
      simp only [Int.toNat_natCast]
      split
      · right; rfl
      · split
        · left; rfl
        · right; rfl
  | big _ hn =>
    have hn1 : 2 ^ 62 ≤ n := by
      by_contra hc
      exact hn ⟨by omega, by omega⟩
    have : ∀ k : RealKind, (k = .integer a ∨ k = .bigint a) →
        powBigExp a n = .ok (.int (Value.bigint (a ^ n))) ∨ powBigExp a n = .error .expTooLarge := by
      intro _ _
      unfold powBigExp
      split
      · rename_i h; subst h; left; rw [one_pow, integerI_eq _ (by decide)]
      split
      · rename_i h; subst h; left
        rw [neg_one_pow]
        by_cases hp : n % 2 = 1
        · rw [if_pos hp, if_pos (by omega), integerI_eq _ (by decide)]
        · rw [if_neg hp, if_neg (by omega), integerI_eq _ (by decide)]
      split
      · rename_i h; subst h; left
        rw [if_pos (by omega), zero_pow (by omega), integerI_eq _ (by decide)]
      · right; rfl
    cases hk with
    | small _ _ => rw [powKind]; exact this (.integer a) (Or.inl rfl)
    | big _ _ => rw [powKind]; exact this (.bigint a) (Or.inr rfl)

theorem bits_pos {a : Int} (h : a ≠ 0) : 1 ≤ bits a := by
  unfold bits
  have := Nat.size_pos.2 (Int.natAbs_pos.2 h)
  omega

theorem checkPowLimit_of {b n : Nat} (hb : b ≤ BIGLEN_LIMIT) (h1 : 1 ≤ b)
    (h : b * n ≤ BIGLEN_LIMIT) : checkPowLimit b n = true := by
  unfold checkPowLimit
  have : n ≤ BIGLEN_LIMIT := le_trans (by nlinarith) h
  simp [hb, this, h]

/-- C07: the power is computed whenever the bit length of the base times the
exponent is within the limit of 2^34 bits, for exponents below 2^31 (any base)
or any exponent within the limit (heap base).  Missing from the full statement:
inline bases with exponents `2^31 ≤ n < 2^62`, see `C07_pow_rejects`. -/
theorem C07_pow_computed_partial (a : Int) (n : Nat) (hb : bits a ≤ BIGLEN_LIMIT)
    (hl : bits a * n ≤ BIGLEN_LIMIT)
    (hn : n < 2 ^ 31 ∨ (¬ (-(2 ^ 62) ≤ a ∧ a < 2 ^ 62) ∧ n ≤ U32MAX)) :
    powValues (Value.bigint a) (Value.bigint n) = .ok (.int (Value.bigint (a ^ n))) := by
  have hn62 : n < 2 ^ 62 := by have := U32MAX_def; omega
  have hm : -(2 ^ 62) ≤ (n : Int) ∧ (n : Int) < 2 ^ 62 := by omega
  have h0 : ¬ (n : Int) < 0 := by omega
  rw [powValues, ofVal_bigint, ofVal_bigint, ok_bind, ok_bind, if_pos hm]
  by_cases ha : -(2 ^ 62) ≤ a ∧ a < 2 ^ 62
  · rw [if_pos ha]
    have hn' : n < 2 ^ 31 := by
      rcases hn with h | h
      · exact h
      · exact absurd ha h.1
    rw [powKind, powII]
    rw [if_pos (by omega), if_neg h0]
    simp only [Int.toNat_natCast]
    split
    · rename_i h; rw [integerI_eq _ h]
    · rename_i hf
      by_cases hz : a = 0
      · exfalso; apply hf
        subst hz
        cases n with
        | zero => decide
        | succ m => rw [zero_pow (by omega)]; decide
      · rw [checkPowLimit_of hb (bits_pos hz) hl]
        simp
  · rw [if_neg ha]
    rw [powKind, powBigFix]
    rw [if_neg h0]
    simp only [Int.toNat_natCast]
    rw [checkPowLimit_of hb (bits_pos (by rintro rfl; exact ha (by decide))) hl]
    have : n ≤ U32MAX := by
      rcases hn with h | h
      · have := U32MAX_def; omega
      · exact h.2
    simp [this]

/-- C07: an inline base with an exponent in `[2^31, 2^62)` is refused however
small the result is. -/
theorem C07_pow_rejects (a : Int) (ha : -(2 ^ 62) ≤ a ∧ a < 2 ^ 62) (n : Nat)
    (h1 : 2 ^ 31 ≤ n) (h2 : n < 2 ^ 62) :
    powValues (Value.bigint a) (Value.bigint n) = .error .expTooLarge := by
  rw [powValues, ofVal_bigint, ofVal_bigint, ok_bind, ok_bind, if_pos ha]
  rw [if_pos (by omega)]
  rw [powKind, powII]
  rw [if_neg (by omega)]

/-- The number denoted by a result of `**`, as a fraction. -/
def PowVal.frac : PowVal → Option (Int × Int)
  | .int v => (toInt? v).map (·, 1)
  | .ratio p q => some (p, q)

/-- C07: a negative power of a nonzero inline base (exponent above `-2^31`), or of
a heap base (exponent above `-2^32`), is the fraction `1/(a**n)`
(cross-multiplied: `p * a^n = q`, `q ≠ 0`).  Missing: larger exponents, see
`C07_neg_pow_fails`, `C07_neg_pow_panics`. -/
theorem C07_neg_pow_partial (a : Int) (h0 : a ≠ 0) (n : Nat) (hpos : 0 < n)
    (hn : n < 2 ^ 31 ∨ (¬ (-(2 ^ 62) ≤ a ∧ a < 2 ^ 62) ∧ n < 2 ^ 32)) :
    ∃ v p q, powValues (Value.bigint a) (Value.bigint (-n)) = .ok v ∧
      v.frac = some (p, q) ∧ q ≠ 0 ∧ p * a ^ n = q := by
  have hm : -(2 ^ 62) ≤ -(n : Int) ∧ -(n : Int) < 2 ^ 62 := by omega
  have hlt : -(n : Int) < 0 := by omega
  rw [powValues, ofVal_bigint, ofVal_bigint, ok_bind, ok_bind, if_pos hm]
  by_cases ha : -(2 ^ 62) ≤ a ∧ a < 2 ^ 62
  · rw [if_pos ha]
    have hn' : n < 2 ^ 31 := by
      rcases hn with h | h
      · exact h
      · exact absurd ha h.1
    rw [powKind, powII]
    rw [if_pos (by omega), if_pos hlt, if_neg h0]
    by_cases h1 : a = 1
    · rw [if_pos h1]
      refine ⟨_, 1, 1, rfl, ?_, by decide, by simp [h1]⟩
      simp only [PowVal.frac]
      rw [integerI_eq _ (by decide), toInt?_bigint]; rfl
    rw [if_neg h1, if_neg (by omega)]
    by_cases h2 : a = -1
    · rw [if_pos h2]
      refine ⟨_, (-1) ^ n, 1, rfl, ?_, by decide, by rw [h2, ← mul_pow]; simp⟩
      simp only [PowVal.frac, neg_neg]
      rw [neg_one_pow]
      by_cases hp : n % 2 = 1
      · rw [if_pos hp, if_pos (by omega), integerI_eq _ (by decide), toInt?_bigint]; rfl
      · rw [if_neg hp, if_neg (by omega), integerI_eq _ (by decide), toInt?_bigint]; rfl
    rw [if_neg h2]
    refine ⟨_, 1, a ^ n, rfl, ?_, pow_ne_zero _ h0, one_mul _⟩
    simp [PowVal.frac]
  · rw [if_neg ha]
    rw [powKind, powBigFix]
    have h1 : a ≠ 1 := by rintro rfl; exact ha (by decide)
    have h2 : a ≠ -1 := by rintro rfl; exact ha (by decide)
    rw [if_pos hlt, if_neg h0, if_neg h1, if_neg h2]
    refine ⟨_, 1, a ^ n, rfl, ?_, pow_ne_zero _ h0, one_mul _⟩
    have : asU32 (- -(n : Int)) = n := by
      unfold asU32
      rw [neg_neg, Int.emod_eq_of_lt (by omega) (by omega)]
      simp
    simp only [PowVal.frac, this]

/-- C07: zero to a negative power raises ZeroDivisionError. -/
theorem C07_zero_neg_pow_partial (n : Nat) (hpos : 0 < n) (hn : n ≤ 2 ^ 31 ∨ 2 ^ 62 < n) :
    powValues (Value.bigint 0) (Value.bigint (-n)) = .error .zeroDiv := by
  rw [powValues, ofVal_bigint, ofVal_bigint, ok_bind, ok_bind]
  rw [if_pos (by decide)]
  rcases hn with hn | hn
  · rw [if_pos (by omega)]
    rw [powKind, powII]
    rw [if_pos (by omega), if_pos (by omega)]; rfl
  · rw [if_neg (by omega)]
    rw [powKind, powBigExp]
    rw [if_neg (by decide), if_neg (by decide)]
    simp

/-- C07 is false for heap bases and exponents beyond 32 bits: the exponent is
truncated, so `(2**64) ** -(2**32)` is `1/1`. -/
theorem C07_neg_pow_fails :
    powValues (Value.bigint (2 ^ 64)) (Value.bigint (-(2 ^ 32))) = .ok (.ratio 1 1) := by
  decide

/-- C07: `a ** -(2**31)` negates `i32::MIN` (overflow panic in checked builds). -/
theorem C07_neg_pow_panics :
    powValues (Value.bigint 2) (Value.bigint (-(2 ^ 31))) = .error .panic := by decide

/-- C07: `1 ** (2**31)` is refused although the result is 1, while the larger
exponent `2**62` is accepted. -/
theorem C07_pow_unit_fails :
    powValues (Value.bigint 1) (Value.bigint (2 ^ 31)) = .error .expTooLarge ∧
    powValues (Value.bigint 1) (Value.bigint (2 ^ 62)) = .ok (.int (Value.bigint 1)) := by
  decide

example : powValues (Value.bigint 3) (Value.bigint 100) = .ok (.int (.bigint (3 ^ 100))) := by
  decide
example : powValues (Value.bigint (-3)) (Value.bigint (-3)) = .ok (.ratio 1 (-27)) := by decide
-- the hypotheses of `C07_pow_computed_partial` for `(2**40) ** 1000`
example : bits (2 ^ 40) ≤ BIGLEN_LIMIT ∧ bits (2 ^ 40) * 1000 ≤ BIGLEN_LIMIT := by
  have h : bits (2 ^ 40) ≤ 41 := by unfold bits; rw [Nat.size_le]; norm_num
  have h' : BIGLEN_LIMIT = 17179869184 := rfl
  generalize bits (2 ^ 40) = b at h ⊢
  omega

/-! ## C08 Bit operators -/

theorem C08_aux (bv : BitVec 64 → BitVec 64 → BitVec 64) (big : Int → Int → Int)
    (f : Bool → Bool → Bool)
    (hbv : ∀ x y i, i < 64 → (bv x y).getLsbD i = f (x.getLsbD i) (y.getLsbD i))
    (hbig : ∀ x y k, Int.testBit (big x y) k = f (Int.testBit x k) (Int.testBit y k))
    (a b : Int) :
    ∃ c, bitValues bv big (Value.bigint a) (Value.bigint b) = .ok (Value.bigint c) ∧
      ∀ k, bitOf c k = f (bitOf a k) (bitOf b k) := by
  obtain ⟨k, ek, hk⟩ := ofVal_denotes a
  obtain ⟨l, el, hl⟩ := ofVal_denotes b
  rw [bitValues, ek, el, ok_bind, ok_bind]
  have gen : ∀ k, bitOf (big a b) k = f (bitOf a k) (bitOf b k) := by
    intro k
    rw [bitOf_eq_testBit, hbig, ← bitOf_eq_testBit, ← bitOf_eq_testBit]
  cases hk with
  | small _ ha =>
    cases hl with
    | small _ hb =>
      refine ⟨(bv (BitVec.ofInt 64 a) (BitVec.ofInt 64 b)).toInt, ?_, ?_⟩
      · rw [bitKind, ← (C01_canonical _ _).2 rfl]; rfl
      · intro k
        have e1 : a = (BitVec.ofInt 64 a).toInt := (toInt_ofInt_of_range (by omega)).symm
        have e2 : b = (BitVec.ofInt 64 b).toInt := (toInt_ofInt_of_range (by omega)).symm
        conv_rhs => rw [e1, e2]
        rw [bitOf_toInt, bitOf_toInt, bitOf_toInt]
        split
        · rename_i h; exact hbv _ _ _ h
        · rw [BitVec.msb_eq_getLsbD_last, BitVec.msb_eq_getLsbD_last, BitVec.msb_eq_getLsbD_last]
          exact hbv _ _ _ (by decide)
    | big _ hb => exact ⟨_, rfl, gen⟩
  | big _ ha =>
    cases hl <;> exact ⟨_, rfl, gen⟩

/-- C08: bit `k` of `a & b` is the conjunction of bits `k` of `a` and `b`. -/
theorem C08_and (a b : Int) :
    ∃ c, bitandValues (Value.bigint a) (Value.bigint b) = .ok (Value.bigint c) ∧
      ∀ k, bitOf c k = (bitOf a k && bitOf b k) :=
  C08_aux _ _ _ (fun x y i _ => by simp only [BitVec.getLsbD_and]) Int.testBit_land a b

theorem C08_or (a b : Int) :
    ∃ c, bitorValues (Value.bigint a) (Value.bigint b) = .ok (Value.bigint c) ∧
      ∀ k, bitOf c k = (bitOf a k || bitOf b k) :=
  C08_aux _ _ _ (fun x y i _ => by simp only [BitVec.getLsbD_or]) Int.testBit_lor a b

theorem C08_xor (a b : Int) :
    ∃ c, bitxorValues (Value.bigint a) (Value.bigint b) = .ok (Value.bigint c) ∧
      ∀ k, bitOf c k = (bitOf a k ^^ bitOf b k) :=
  C08_aux _ _ _ (fun x y i _ => by simp only [BitVec.getLsbD_xor]) Int.testBit_lxor a b

/-- C08: the bits determine the number, so the laws above pin the results down. -/
theorem C08_bits_determine (a b : Int) (h : ∀ k, bitOf a k = bitOf b k) : a = b := bitOf_ext h

example : bitandValues (Value.bigint (2 ^ 70 + 7)) (Value.bigint (2 ^ 70 + 12)) =
    .ok (.bigint (2 ^ 70 + 4)) := by decide
example : bitandValues (Value.bigint (-4)) (Value.bigint 7) = .ok (Value.bigint 4) := by decide
example : bitxorValues (Value.bigint (-1)) (Value.bigint 5) = .ok (Value.bigint (-6)) := by decide

end Verif.IntArith
