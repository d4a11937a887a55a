import Verif.Rational.SimplestProps

/-!
# C46: Float#to_r is exact; Float#rationalize without argument
-/

namespace Verif.Rational

/-- The form every finite non-zero double has. -/
structure F.Ok (f : F) : Prop where
  pos : 0 < f.m
  bound : f.m < 2 ^ 53
  low : -1074 ≤ f.e
  high : f.e ≤ 971

/-- The number a double denotes. -/
def F.val (f : F) : ℚ := (if f.negative then -1 else 1) * f.m * 2 ^ f.e

theorem doublings_spec (m fuel : Nat) : ∀ (e : Int) (n : Nat), -e ≤ fuel → (n : Int) - e ≤ 1074 ∨ 0 ≤ e →
    ∃ k : Nat, doublings m e fuel n = n + k ∧ (0 ≤ e + k ∨ m % 2 ^ (-(e + k)).toNat = 0) := by
  induction fuel with
  | zero => intro e n h _; exact ⟨0, rfl, .inl (by push_cast at h ⊢; omega)⟩
  | succ fuel ih =>
    intro e n h hn
    unfold doublings
    split
    · rename_i hc; exact ⟨0, rfl, by simpa using hc⟩
    · rename_i hc
      rw [not_or] at hc
      rw [if_neg (by omega)]
      obtain ⟨k, h1, h2⟩ := ih (e + 1) (n + 1) (by push_cast at h; omega) (by push_cast; omega)
      refine ⟨k + 1, by rw [h1]; omega, ?_⟩
      have : e + ((k + 1 : Nat) : Int) = e + 1 + k := by push_cast; ring
      rw [this]; exact h2

/-- **C46, `Float#to_r`.**  The Rational is in lowest terms and exactly the Float's value, for every
finite non-zero double. -/
theorem C46_to_r_exact (f : F) (hf : f.Ok) : ∃ r, fromFloat f = some r ∧ r.Valid ∧ r.val = f.val := by
  have hl := hf.low
  obtain ⟨k, h1, h2⟩ := doublings_spec f.m 1076 f.e 0 (by push_cast; omega) (by push_cast; omega)
  rw [zero_add] at h1
  unfold fromFloat
  rw [h1]
  dsimp only
  generalize hw : (if 0 ≤ f.e + (k : Int) then (f.m : Int) * 2 ^ (f.e + (k : Int)).toNat
    else ((f.m / 2 ^ (-(f.e + (k : Int))).toNat : Nat) : Int)) = w
  have hwv : (w : ℚ) / 2 ^ k = f.m * 2 ^ f.e := by
    have two : (2 : ℚ) ≠ 0 := by norm_num
    rw [div_eq_iff (by positivity), mul_assoc, ← zpow_natCast, ← zpow_add₀ two, ← hw]
    split
    · rename_i h0
      push_cast
      rw [← zpow_natCast (2 : ℚ) (f.e + (k : Int)).toNat, Int.toNat_of_nonneg h0]
    · rename_i h0
      have hm : f.m % 2 ^ (-(f.e + (k : Int))).toNat = 0 := by
        rcases h2 with h | h
        · exact absurd h h0
        · exact h
      obtain ⟨c, hc⟩ := Nat.dvd_of_mod_eq_zero hm
      rw [hc, Nat.mul_div_cancel_left _ (Nat.two_pow_pos _)]
      push_cast
      rw [← zpow_natCast (2 : ℚ) (-(f.e + (k : Int))).toNat, Int.toNat_of_nonneg (by omega),
        mul_right_comm, ← zpow_add₀ two, neg_add_cancel, zpow_zero, one_mul]
  obtain ⟨r, e1, e2, e3⟩ := C28_new (if f.negative then -w else w) (2 ^ k)
    (pow_ne_zero _ (by decide))
  refine ⟨r, e1, e2, ?_⟩
  rw [e3]
  unfold F.val
  have : (((2 : Int) ^ k : Int) : ℚ) = 2 ^ k := by push_cast; rfl
  rw [this, mul_assoc, ← hwv]
  split
  · push_cast; ring
  · ring

example : fromFloat ⟨true, 6755399441055744, -54⟩ = some ⟨-3, 8⟩ := by decide +kernel
example : F.Ok ⟨true, 6755399441055744, -54⟩ := ⟨by decide, by decide, by decide, by decide⟩

theorem abs_val (f : F) : |f.val| = f.m * 2 ^ f.e := by
  unfold F.val
  have h2 : (0 : ℚ) ≤ 2 ^ f.e := (zpow_pos (by norm_num) _).le
  rw [mul_assoc, abs_mul, abs_of_nonneg (mul_nonneg (Nat.cast_nonneg _) h2)]
  split <;> simp

theorem frexp_bounds (f : F) (hf : f.Ok) :
    (2 : ℚ) ^ (frexp f - 1) ≤ |f.val| ∧ |f.val| < 2 ^ frexp f := by
  have two : (2 : ℚ) ≠ 0 := by norm_num
  have h2 : (0 : ℚ) < 2 ^ f.e := zpow_pos (by norm_num) _
  rw [abs_val]
  have l1 : 2 ^ f.m.log2 ≤ f.m := Nat.log2_self_le hf.pos.ne'
  have l2 : f.m < 2 ^ (f.m.log2 + 1) := Nat.lt_log2_self
  have l1 : (2 : ℚ) ^ f.m.log2 ≤ f.m := by exact_mod_cast l1
  have l2 : (f.m : ℚ) < 2 ^ (f.m.log2 + 1) := by exact_mod_cast l2
  unfold frexp
  constructor
  · have : f.e + ((f.m.log2 + 1 : Nat) : Int) - 1 = (f.m.log2 : Int) + f.e := by push_cast; ring
    rw [this, zpow_add₀ two, zpow_natCast]
    exact mul_le_mul_of_nonneg_right l1 h2.le
  · rw [add_comm, zpow_add₀ two, zpow_natCast]
    exact mul_lt_mul_of_pos_right l2 h2

theorem frexp_unique (f : F) (hf : f.Ok) (E : Int) (h1 : (2 : ℚ) ^ (E - 1) ≤ |f.val|)
    (h2 : |f.val| < 2 ^ E) : frexp f = E := by
  obtain ⟨b1, b2⟩ := frexp_bounds f hf
  have one : (1 : ℚ) < 2 := by norm_num
  have c1 := (zpow_lt_zpow_iff_right₀ one).1 (lt_of_le_of_lt h1 b2)
  have c2 := (zpow_lt_zpow_iff_right₀ one).1 (lt_of_le_of_lt b1 h2)
  omega

theorem eps_spec (k : Nat) : ∃ eps, mk 1 (2 ^ k) = some eps ∧ eps.Valid ∧ eps.val = 1 / 2 ^ k := by
  obtain ⟨r, e1, e2, e3⟩ := C28_new 1 (2 ^ k) (pow_ne_zero _ (by decide))
  exact ⟨r, e1, e2, by rw [e3]; push_cast; rfl⟩

/-- The result in terms of the exact value and the shift. -/
theorem floatRationalize_spec (f : F) (hf : f.Ok) (k : Nat) (hk : asU32 (53 - frexp f + 1) = k)
    (hlt : (1 : ℚ) / 2 ^ k < |f.val|) :
    ∃ N, ∀ fuel, N ≤ fuel → ∃ r, floatRationalize fuel f = some r ∧
      IsSimplest f.val (1 / 2 ^ k) r := by
  obtain ⟨v, e1, v1, w1⟩ := C46_to_r_exact f hf
  obtain ⟨eps, e2, v2, w2⟩ := eps_spec k
  have habs : |eps.val| = 1 / 2 ^ k := by rw [w2, abs_of_nonneg (by positivity)]
  refine ⟨v.num.natAbs + v.den.natAbs, fun fuel hfu => ?_⟩
  obtain ⟨r, h1, h2⟩ := C30_float_rationalize_partial v eps v1 v2 (by rw [habs, w1]; exact hlt)
    fuel hfu
  refine ⟨r, ?_, by rwa [w1, habs] at h2⟩
  unfold floatRationalize
  rw [e1, hk, e2]
  exact h1

/-- **C46, `Float#rationalize` below 2^53.**  With `2^(E-1) ≤ |f| < 2^E`, the result is the simplest
fraction within `2^(E-54)` of the Float: for a normal Float `±m·2^e` that is half the distance
`2^e` to its neighbour. -/
theorem C46_rationalize_partial (f : F) (hf : f.Ok) (E : Int) (h1 : (2 : ℚ) ^ (E - 1) ≤ |f.val|)
    (h2 : |f.val| < 2 ^ E) (hE : E ≤ 53) :
    ∃ N, ∀ fuel, N ≤ fuel → ∃ r, floatRationalize fuel f = some r ∧
      IsSimplest f.val (2 ^ (E - 54)) r := by
  have hfe := frexp_unique f hf E h1 h2
  have hEl : -1074 ≤ E := by
    rw [← hfe]; unfold frexp; have := hf.low; omega
  have hk : asU32 (53 - frexp f + 1) = (54 - E).toNat := by
    rw [hfe, asU32_of_lt (by omega) (by omega)]; congr 1; ring
  have hpow : (1 : ℚ) / 2 ^ (54 - E).toNat = 2 ^ (E - 54) := by
    rw [← zpow_natCast, Int.toNat_of_nonneg (by omega), one_div, ← zpow_neg]; congr 1; ring
  have := floatRationalize_spec f hf _ hk (by
    rw [hpow]
    exact lt_of_lt_of_le (zpow_lt_zpow_right₀ (by norm_num) (by omega)) h1)
  rwa [hpow] at this

/-- 0.3 is `5404319552844595 · 2^-54`, and `0.3.rationalize` is `(3/10)`. -/
example : floatRationalize 20 ⟨false, 5404319552844595, -54⟩ = some ⟨3, 10⟩ := by decide +kernel

theorem simplest_of_integer {x eps : ℚ} {r : R} (h : IsSimplest x eps r) (s : Int)
    (hs : |(s : ℚ) - x| ≤ eps) : r.val = r.num ∧ |r.num| ≤ |s| := by
  have hv : R.val ⟨s, 1⟩ = s := by unfold R.val; push_cast; rw [div_one]
  obtain ⟨a, b⟩ := h.least ⟨s, 1⟩ ⟨Int.one_pos, by simp⟩ (by rw [hv]; exact hs)
  have := h.valid.pos
  have a : r.den ≤ 1 := a
  have hd : r.den = 1 := by omega
  refine ⟨?_, b⟩
  unfold R.val; rw [hd]; norm_num

theorem val_is_int (f : F) (he : 0 ≤ f.e) : ∃ k : Int, f.val = k := by
  refine ⟨(if f.negative then -1 else 1) * f.m * 2 ^ f.e.toNat, ?_⟩
  unfold F.val
  push_cast
  rw [← zpow_natCast, Int.toNat_of_nonneg he]

theorem e_nonneg (f : F) (hf : f.Ok) (h : (2 : ℚ) ^ (53 : Int) ≤ |f.val|) : 0 ≤ f.e := by
  by_contra hneg
  rw [abs_val] at h
  have hm : (f.m : ℚ) < 2 ^ (53 : Int) := by exact_mod_cast hf.bound
  have h1 : (2 : ℚ) ^ f.e ≤ 1 := zpow_le_one_of_nonpos₀ (by norm_num) (by omega)
  have h2 : (f.m : ℚ) * 2 ^ f.e ≤ f.m * 1 := mul_le_mul_of_nonneg_left h1 (Nat.cast_nonneg _)
  linarith

/-- **C46, `Float#rationalize` from 2^54.**  The result is the Float's value. -/
theorem C46_rationalize_large (f : F) (hf : f.Ok) (h : (2 : ℚ) ^ (54 : Int) ≤ |f.val|) :
    ∃ N, ∀ fuel, N ≤ fuel → ∃ r, floatRationalize fuel f = some r ∧ r.val = f.val := by
  have he := e_nonneg f hf (le_trans (zpow_le_zpow_right₀ (by norm_num) (by decide)) h)
  obtain ⟨i, hi⟩ := val_is_int f he
  have hfr : 54 < frexp f :=
    (zpow_lt_zpow_iff_right₀ (show (1 : ℚ) < 2 by norm_num)).1 (lt_of_le_of_lt h (frexp_bounds f hf).2)
  have hhi : frexp f ≤ 1025 := by
    unfold frexp
    have h1 := hf.high
    have h2 : f.m.log2 < 53 := (Nat.log2_lt hf.pos.ne').2 hf.bound
    omega
  have hk : 0 < asU32 (53 - frexp f + 1) := by
    unfold asU32
    have : (53 - frexp f + 1) % 2 ^ 32 = 53 - frexp f + 1 + 2 ^ 32 := by
      rw [← Int.add_emod_right, Int.emod_eq_of_lt (by omega) (by omega)]
    rw [this]; omega
  have hlt1 : (1 : ℚ) / 2 ^ asU32 (53 - frexp f + 1) < 1 := by
    rw [div_lt_one (by positivity)]
    exact one_lt_pow₀ (by norm_num) (by omega)
  have h54 : (1 : ℚ) ≤ 2 ^ (54 : Int) := by norm_num
  obtain ⟨N, hN⟩ := floatRationalize_spec f hf _ rfl (by linarith)
  refine ⟨N, fun fuel hfu => ?_⟩
  obtain ⟨r, h1, h2⟩ := hN fuel hfu
  refine ⟨r, h1, ?_⟩
  obtain ⟨a, -⟩ := simplest_of_integer h2 i (by rw [hi, sub_self, abs_zero]; positivity)
  have hc := h2.close
  rw [a, hi] at hc
  have hc : |((r.num - i : Int) : ℚ)| < 1 := by push_cast; linarith
  have hc : |r.num - i| < 1 := by exact_mod_cast hc
  have : r.num = i := by have := Int.abs_lt_one_iff.1 hc; omega
  rw [a, hi, this]

/-- **C46 fails between 2^53 and 2^54.**  Every Float there is a whole number, and `rationalize`
returns the whole number one nearer to zero, not the Float: `9007199254740992.0.rationalize` is
`(9007199254740991/1)`. -/
theorem C46_rationalize_off_by_one (f : F) (hf : f.Ok) (h1 : (2 : ℚ) ^ (53 : Int) ≤ |f.val|)
    (h2 : |f.val| < 2 ^ (54 : Int)) :
    ∃ N, ∀ fuel, N ≤ fuel → ∃ r, floatRationalize fuel f = some r ∧ |r.val| = |f.val| - 1 := by
  have hfe := frexp_unique f hf 54 h1 h2
  have hk : asU32 (53 - frexp f + 1) = 0 := by rw [hfe]; rfl
  have h53 : (4 : ℚ) ≤ 2 ^ (53 : Int) := by norm_num
  obtain ⟨N, hN⟩ := floatRationalize_spec f hf 0 hk (by norm_num; linarith)
  obtain ⟨i, hi⟩ := val_is_int f (e_nonneg f hf h1)
  refine ⟨N, fun fuel hfu => ?_⟩
  obtain ⟨r, e1, e2⟩ := hN fuel hfu
  refine ⟨r, e1, ?_⟩
  have hone : (1 : ℚ) / 2 ^ 0 = 1 := by norm_num
  rw [hone] at e2
  have hiabs : 4 ≤ |i| := by
    have : (4 : ℚ) ≤ |(i : ℚ)| := by rw [← hi]; linarith
    exact_mod_cast this
  have hc := e2.close
  rcases le_total 0 i with hp | hp
  · obtain ⟨a, b⟩ := simplest_of_integer e2 (i - 1) (by rw [hi]; push_cast; norm_num)
    rw [abs_of_nonneg hp] at hiabs
    rw [a, hi] at hc
    have hc : |r.num - i| ≤ 1 := by exact_mod_cast hc
    rw [abs_of_nonneg (show 0 ≤ i - 1 by omega)] at b
    have b1 := abs_le.1 hc
    have b2 := abs_le.1 b
    have : r.num = i - 1 := by omega
    rw [a, hi, this]
    have e : |((i - 1 : Int) : ℚ)| = ((|i - 1| : Int) : ℚ) := by push_cast; rfl
    have e' : |(i : ℚ)| = ((|i| : Int) : ℚ) := by push_cast; rfl
    rw [e, e', abs_of_nonneg hp, abs_of_nonneg (show 0 ≤ i - 1 by omega)]
    push_cast; ring
  · obtain ⟨a, b⟩ := simplest_of_integer e2 (i + 1) (by rw [hi]; push_cast; norm_num)
    rw [abs_of_nonpos hp] at hiabs
    rw [a, hi] at hc
    have hc : |r.num - i| ≤ 1 := by exact_mod_cast hc
    rw [abs_of_nonpos (show i + 1 ≤ 0 by omega)] at b
    have b1 := abs_le.1 hc
    have b2 := abs_le.1 b
    have : r.num = i + 1 := by omega
    rw [a, hi, this]
    have e : |((i + 1 : Int) : ℚ)| = ((|i + 1| : Int) : ℚ) := by push_cast; rfl
    have e' : |(i : ℚ)| = ((|i| : Int) : ℚ) := by push_cast; rfl
    rw [e, e', abs_of_nonpos hp, abs_of_nonpos (show i + 1 ≤ 0 by omega)]
    push_cast; ring

example : floatRationalize 3 ⟨false, 2 ^ 52, 1⟩ = some ⟨2 ^ 53 - 1, 1⟩ := by decide +kernel

end Verif.Rational
