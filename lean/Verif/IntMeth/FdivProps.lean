import Verif.IntMeth.DigitProps

/-!
C115: `fdiv` of integers beyond 53 bits is the correctly rounded quotient.
-/

namespace Verif.IntMeth

/-- `y` is `x > 0` rounded to double precision, to nearest, ties to even, with the exponent
unbounded above: on the grid of step `2^e` that belongs to the size of `x`. -/
def IsRounded (x y : ℚ) : Prop :=
  ∃ (e : ℤ) (m : ℕ), -1074 ≤ e ∧ (2 ^ 52 * 2 ^ e ≤ x ∨ e = -1074) ∧ x < 2 ^ 53 * 2 ^ e ∧
    y = m * 2 ^ e ∧ 2 * |x - y| ≤ 2 ^ e ∧ (2 * |x - y| = 2 ^ e → m % 2 = 0)

/-- A non-negative number with 53 bits above `2^-1074`. -/
def IsDouble (z : ℚ) : Prop := ∃ (e : ℤ) (m : ℕ), -1074 ≤ e ∧ m < 2 ^ 53 ∧ z = m * 2 ^ e

theorem zpow2_pos (e : ℤ) : (0 : ℚ) < 2 ^ e := zpow_pos (by norm_num) e

/-- A multiple of the step is not nearer than half a step allows. -/
theorem near_multiple {x y : ℚ} {e : ℤ} {m : ℕ} (hy : y = m * 2 ^ e) (h : 2 * |x - y| ≤ 2 ^ e)
    (k : ℕ) : |x - y| ≤ |x - k * 2 ^ e| := by
  by_cases hk : k = m
  · subst hk; rw [hy]
  · have hp := zpow2_pos e
    have hd : (2 : ℚ) ^ e ≤ |y - k * 2 ^ e| := by
      rw [hy, ← sub_mul, abs_mul, abs_of_pos hp]
      have : (1 : ℚ) ≤ |(m : ℚ) - k| := by
        have h1 : (1 : ℤ) ≤ |(m : ℤ) - k| := Int.one_le_abs (by omega)
        exact_mod_cast h1
      nlinarith
    have := abs_sub_abs_le_abs_sub (y - k * 2 ^ e) (y - x)
    have e1 : y - k * 2 ^ e - (y - x) = x - k * 2 ^ e := by ring
    rw [e1, abs_sub_comm y x] at this
    linarith

/-- The rounded number is a nearest double. -/
theorem C115_rounded_is_nearest (x y : ℚ) (h : IsRounded x y) (z : ℚ) (hz : IsDouble z) :
    |x - y| ≤ |x - z| := by
  obtain ⟨e, m, he, hlo, hhi, hy, hn, _⟩ := h
  obtain ⟨e', m', he', hm', rfl⟩ := hz
  by_cases hee : e ≤ e'
  · have : (m' : ℚ) * 2 ^ e' = ((m' * 2 ^ (e' - e).toNat : ℕ) : ℚ) * 2 ^ e := by
      push_cast
      rw [mul_assoc]
      congr 1
      rw [← zpow_natCast, ← zpow_add₀ (by norm_num)]
      congr 1
      omega
    rw [this]
    exact near_multiple hy hn _
  · have hlo : (2 : ℚ) ^ 52 * 2 ^ e ≤ x := by
      rcases hlo with h | h
      · exact h
      · omega
    have h1 := near_multiple hy hn (2 ^ 52)
    have hz : (m' : ℚ) * 2 ^ e' ≤ 2 ^ 52 * 2 ^ e := by
      have h2 : (2 : ℚ) ^ e' ≤ 2 ^ (e - 1) := zpow_le_zpow_right₀ (by norm_num) (by omega)
      have h3 : (2 : ℚ) ^ e = 2 ^ (e - 1) * 2 := by
        rw [← zpow_add_one₀ (by norm_num)]; congr 1; omega
      have h4 : (m' : ℚ) ≤ 2 ^ 53 := by exact_mod_cast hm'.le
      have hp := zpow2_pos e'
      have hp2 := zpow2_pos (e - 1)
      rw [h3]
      calc (m' : ℚ) * 2 ^ e' ≤ 2 ^ 53 * 2 ^ (e - 1) := by
            apply mul_le_mul h4 h2 hp.le (by positivity)
        _ = 2 ^ 52 * (2 ^ (e - 1) * 2) := by ring
    push_cast at h1
    refine h1.trans ?_
    rw [abs_of_nonneg (by linarith), abs_of_nonneg (by linarith)]
    linarith

/-! ### The sticky bit -/

theorem or_one (q : Nat) : q ||| 1 = 2 * (q / 2) + 1 := by
  have h1 : (q ||| 1) / 2 = q / 2 := by rw [Nat.or_div_two]; simp
  have h2 : (q ||| 1) % 2 = 1 := by rw [Nat.or_mod_two_eq_one]; simp
  omega

/-- Rounding the quotient with its sticky bit rounds the exact quotient: `H` is half the
step and even. -/
theorem sticky_rne {N D H q' : Nat} (hD : 0 < D) (hH : 0 < H) (hH2 : H % 2 = 0)
    (hq : q' = if N % D ≠ 0 then N / D ||| 1 else N / D) :
    2 * |(N : ℚ) / D - (rne q' (2 * H) : ℚ) * (2 * H : ℕ)| ≤ (2 * H : ℕ) ∧
    (2 * |(N : ℚ) / D - (rne q' (2 * H) : ℚ) * (2 * H : ℕ)| = (2 * H : ℕ) →
      rne q' (2 * H) % 2 = 0) := by
  have hN := Nat.div_add_mod N D
  have hr := Nat.mod_lt N hD
  have hX : (N : ℚ) / D = (N / D : ℕ) + ((N % D : ℕ) : ℚ) / D := by
    have hD' : (D : ℚ) ≠ 0 := by exact_mod_cast hD.ne'
    field_simp
    exact_mod_cast hN.symm
  have f0 : (0 : ℚ) ≤ ((N % D : ℕ) : ℚ) / D := by positivity
  have f1 : ((N % D : ℕ) : ℚ) / D < 1 := by
    rw [div_lt_one (by exact_mod_cast hD)]; exact_mod_cast hr
  have f2 : N % D = 0 → ((N % D : ℕ) : ℚ) / D = 0 := by intro h; rw [h]; simp
  have f3 : N % D ≠ 0 → 0 < ((N % D : ℕ) : ℚ) / D := by
    intro h
    have : (0 : ℚ) < (N % D : ℕ) := by exact_mod_cast Nat.pos_of_ne_zero h
    have hD' : (0 : ℚ) < D := by exact_mod_cast hD
    positivity
  rw [hX]
  generalize ((N % D : ℕ) : ℚ) / D = f at *
  generalize hqq : N / D = q at *
  generalize N % D = R at *
  have hv := Nat.div_add_mod q' (2 * H)
  have hvl := Nat.mod_lt q' (show 2 * H > 0 by omega)
  have hpar : R ≠ 0 → q' = 2 * (q / 2) + 1 := by
    intro h; rw [hq, if_pos h, or_one]
  have hpar0 : R = 0 → q' = q := by
    intro h; rw [hq, if_neg (by simp [h])]
  generalize hu : q' / (2 * H) = u at *
  generalize hvv : q' % (2 * H) = v at *
  clear hq hN hqq hu hvv hX
  have hprod : (q' : ℚ) = u * (2 * H : ℕ) + v := by
    have : q' = u * (2 * H) + v := by rw [mul_comm]; omega
    exact_mod_cast this
  have hrn : rne q' (2 * H) = if 2 * v < 2 * H then u else if 2 * v > 2 * H then u + 1 else u + u % 2 := by
    unfold rne
    have e1 : q' % (2 * H) = v := by
      rw [← hv, Nat.mul_add_mod, Nat.mod_eq_of_lt hvl]
    have e2 : q' / (2 * H) = u := by
      rw [← hv, Nat.mul_add_div (by omega), Nat.div_eq_of_lt hvl]; rfl
    rw [e1, e2]
  -- v is odd when the remainder is not zero
  have hvodd : R ≠ 0 → v % 2 = 1 := by
    intro h
    have h1 := hpar h
    have h2 : (2 * H * u) % 2 = 0 := by rw [mul_assoc]; exact Nat.mul_mod_right 2 _
    omega
  -- the exact offset within the step
  have hoff : ∃ t : ℚ, ((q : ℚ) + f) = u * (2 * H : ℕ) + t ∧ 0 ≤ t ∧
      (v < H → t < H) ∧ (v > H → H < t) ∧ (v = H → t = H) ∧ t < 2 * H := by
    by_cases hR : R = 0
    · refine ⟨v, ?_, by positivity, ?_, ?_, ?_, ?_⟩
      · rw [f2 hR, add_zero, ← hpar0 hR]; exact hprod
      · intro h; exact_mod_cast h
      · intro h; exact_mod_cast h
      · intro h; exact_mod_cast h
      · exact_mod_cast hvl
    · have hpos := f3 hR
      have hq1 := hpar hR
      have ho := hvodd hR
      by_cases hqo : q % 2 = 1
      · have : q' = q := by omega
        have hh : ((q : ℚ) + f) = u * (2 * H : ℕ) + (v + f) := by rw [← this, hprod]; ring
        refine ⟨v + f, hh, by positivity, ?_, ?_, ?_, ?_⟩
        · intro h
          have : (v : ℚ) + 1 ≤ H := by exact_mod_cast h
          linarith
        · intro h
          have : (H : ℚ) < v := by exact_mod_cast h
          linarith
        · intro h; omega
        · have : (v : ℚ) + 1 ≤ 2 * H := by exact_mod_cast hvl
          linarith
      · have h2 : q' = q + 1 := by omega
        have hh : ((q : ℚ) + f) = u * (2 * H : ℕ) + (v - 1 + f) := by
          have : (q : ℚ) = q' - 1 := by rw [h2]; push_cast; ring
          rw [this, hprod]; ring
        have hv1 : (1 : ℚ) ≤ v := by exact_mod_cast (show 1 ≤ v by omega)
        refine ⟨v - 1 + f, hh, by linarith, ?_, ?_, ?_, ?_⟩
        · intro h
          have : (v : ℚ) ≤ H := by exact_mod_cast h.le
          linarith
        · intro h
          have : (H : ℚ) + 1 ≤ v := by exact_mod_cast h
          linarith
        · intro h; omega
        · have : (v : ℚ) + 1 ≤ 2 * H := by exact_mod_cast hvl
          linarith
  obtain ⟨t, ht, t0, t1, t2, t3, t4⟩ := hoff
  rw [ht]
  by_cases c1 : 2 * v < 2 * H
  · have hm : rne q' (2 * H) = u := by rw [hrn, if_pos c1]
    rw [hm]
    have h1 := t1 (by omega)
    push_cast
    have e : (u : ℚ) * (2 * H) + t - u * (2 * H) = t := by ring
    rw [e, abs_of_nonneg t0]
    exact ⟨by linarith, fun h => by linarith⟩
  · by_cases c2 : 2 * v > 2 * H
    · have hm : rne q' (2 * H) = u + 1 := by rw [hrn, if_neg c1, if_pos c2]
      rw [hm]
      have h1 := t2 (by omega)
      push_cast
      have e : (u : ℚ) * (2 * H) + t - (u + 1) * (2 * H) = -(2 * H - t) := by ring
      rw [e, abs_neg, abs_of_nonneg (by linarith)]
      exact ⟨by linarith, fun h => by linarith⟩
    · have h1 := t3 (by omega)
      rcases Nat.mod_two_eq_zero_or_one u with h2 | h2
      · have hm : rne q' (2 * H) = u := by rw [hrn, if_neg c1, if_neg c2]; omega
        rw [hm]
        push_cast
        have e : (u : ℚ) * (2 * H) + t - u * (2 * H) = t := by ring
        rw [e, abs_of_nonneg t0, h1]
        exact ⟨le_rfl, fun _ => h2⟩
      · have hm : rne q' (2 * H) = u + 1 := by rw [hrn, if_neg c1, if_neg c2]; omega
        rw [hm]
        push_cast
        have e : (u : ℚ) * (2 * H) + t - (u + 1) * (2 * H) = -(2 * H - t) := by ring
        rw [e, abs_neg, abs_of_nonneg (by linarith), h1]
        exact ⟨by linarith, fun _ => by omega⟩

/-! ### fdiv -/

theorem bitLength_nat (a : Nat) : bitLength (a : Int) = a.size := by
  rw [bitLength_eq, if_neg (by omega), Int.toNat_natCast]

/-- Numerator and denominator of the scaled quotient. -/
theorem scaled_eq {a b : Nat} (ha : 0 < a) (hb : 0 < b) (extra : Int)
    (he : extra = 56 - (a.size : Int) + b.size) :
    ∃ N D : Nat, 0 < D ∧ (N : ℚ) / D = (a : ℚ) / b * 2 ^ extra ∧
      scaledQuot a b extra = (if N % D ≠ 0 then N / D ||| 1 else N / D) ∧
      2 ^ 55 ≤ N / D ∧ N / D < 2 ^ 57 := by
  have a1 : a < 2 ^ a.size := Nat.lt_size_self a
  have a2 : 2 ^ (a.size - 1) ≤ a := by
    have := (Nat.lt_size (m := a.size - 1) (n := a)).1 (by
      have := Nat.size_pos.2 ha; omega)
    exact this
  have b1 : b < 2 ^ b.size := Nat.lt_size_self b
  have b2 : 2 ^ (b.size - 1) ≤ b := by
    have := (Nat.lt_size (m := b.size - 1) (n := b)).1 (by
      have := Nat.size_pos.2 hb; omega)
    exact this
  have sa := Nat.size_pos.2 ha
  have sb := Nat.size_pos.2 hb
  generalize a.size = l at *
  generalize b.size = r at *
  refine ⟨a * 2 ^ extra.toNat, b * 2 ^ (-extra).toNat, by positivity, ?_, ?_, ?_, ?_⟩
  · have : (2 : ℚ) ^ extra = 2 ^ extra.toNat / 2 ^ (-extra).toNat := by
      rw [← zpow_natCast, ← zpow_natCast, ← zpow_sub₀ (by norm_num)]
      congr 1; omega
    rw [this]
    push_cast
    field_simp
  · unfold scaledQuot
    have h1 : (if extra > 0 then a * 2 ^ extra.toNat else a) = a * 2 ^ extra.toNat := by
      split
      · rfl
      · have : extra.toNat = 0 := by omega
        simp [this]
    have h2 : (if extra < 0 then b * 2 ^ (-extra).toNat else b) = b * 2 ^ (-extra).toNat := by
      split
      · rfl
      · have : (-extra).toNat = 0 := by omega
        simp [this]
    rw [h1, h2]
  · rw [Nat.le_div_iff_mul_le (by positivity)]
    calc 2 ^ 55 * (b * 2 ^ (-extra).toNat) ≤ 2 ^ 55 * (2 ^ r * 2 ^ (-extra).toNat) := by
          gcongr
      _ = 2 ^ (l - 1) * 2 ^ extra.toNat := by
          rw [← pow_add, ← pow_add, ← pow_add]; congr 1; omega
      _ ≤ a * 2 ^ extra.toNat := by gcongr
  · rw [Nat.div_lt_iff_lt_mul (by positivity)]
    calc a * 2 ^ extra.toNat < 2 ^ l * 2 ^ extra.toNat := by gcongr
      _ = 2 ^ 57 * (2 ^ (r - 1) * 2 ^ (-extra).toNat) := by
          rw [← pow_add, ← pow_add, ← pow_add]; congr 1; omega
      _ ≤ 2 ^ 57 * (b * 2 ^ (-extra).toNat) := by gcongr

theorem size_eq_of {q k : Nat} (h1 : 2 ^ k ≤ q) (h2 : q < 2 ^ (k + 1)) : q.size = k + 1 := by
  have := Nat.size_le.2 h2
  have := Nat.lt_size.2 h1
  omega

/-- The result of `fdiv` (for operands of which one needs more than 53 bits, none needs
2^30) is the exact quotient rounded once, to nearest even, when the quotient is not below
the normal range: infinite when the rounded number does not fit. -/
theorem C115_fdiv_partial (self other : Int) (hs : self ≠ 0) (ho : other ≠ 0)
    (hbs : self.natAbs.size < 2 ^ 30) (hbo : other.natAbs.size < 2 ^ 30)
    (hnormal : (2 : ℚ) ^ (-1022 : ℤ) ≤ |(self : ℚ) / other|) :
    ∃ y : ℚ, IsRounded |(self : ℚ) / other| y ∧
      (fdivBig self other).1 = decide ((self : ℚ) / other < 0) ∧
      ((fdivBig self other).2 = .inf ∧ 2 ^ 1024 ≤ y ∨
        ∃ m e, (fdivBig self other).2 = .fin m e ∧ y = m * 2 ^ e ∧ y < 2 ^ 1024) := by
  have hx : |(self : ℚ) / other| = (self.natAbs : ℚ) / other.natAbs := by
    rw [abs_div, Nat.cast_natAbs, Nat.cast_natAbs]; push_cast; rfl
  have hsign : (fdivBig self other).1 = decide ((self : ℚ) / other < 0) := by
    have e : (fdivBig self other).1 = (decide (self < 0) != decide (other < 0)) := rfl
    rw [e]
    have : ((self : ℚ) / other < 0) ↔ ((0 < self ∧ other < 0) ∨ (self < 0 ∧ 0 < other)) := by
      rw [div_neg_iff]; norm_cast
    rw [Bool.eq_iff_iff, decide_eq_true_iff, this]
    rcases lt_or_gt_of_ne hs with h1 | h1 <;> rcases lt_or_gt_of_ne ho with h2 | h2 <;>
      simp [h1, h2, h1.le, h2.le, not_lt_of_gt]
  rw [hx] at hnormal ⊢
  generalize hA : self.natAbs = a at *
  generalize hB : other.natAbs = b at *
  have ha : 0 < a := by omega
  have hb : 0 < b := by omega
  generalize hE : (56 - (a.size : Int) + b.size) = extra
  obtain ⟨N, D, hD, hND, hsq, hq1, hq2⟩ := scaled_eq ha hb extra hE.symm
  have hdef : (fdivBig self other).2 =
      ldexp (toF (scaledQuot a b extra)).1 (toF (scaledQuot a b extra)).2 (asI32 (-extra)) := by
    unfold fdivBig
    simp only [hA, hB]
    rw [bitLength_nat, bitLength_nat, hE]
  have hi32 : asI32 (-extra) = -extra := by
    unfold asI32
    apply Int.bmod_eq_of_le <;> omega
  rw [hi32] at hdef
  -- the size of the quotient
  obtain ⟨k, hk, hk1, hk2⟩ : ∃ k, (k = 55 ∨ k = 56) ∧ 2 ^ k ≤ N / D ∧ N / D < 2 ^ (k + 1) := by
    by_cases h : N / D < 2 ^ 56
    · exact ⟨55, .inl rfl, hq1, h⟩
    · exact ⟨56, .inr rfl, by omega, hq2⟩
  generalize hQ : scaledQuot a b extra = q' at *
  have hor := or_one (N / D)
  have hqr : 2 ^ k ≤ q' ∧ q' < 2 ^ (k + 1) := by
    rw [hsq]
    have h1 : 2 ^ k = 2 * 2 ^ (k - 1) := by
      have : k = (k - 1) + 1 := by omega
      conv_lhs => rw [this, pow_succ]
      ring
    have h2 : 2 ^ (k + 1) = 2 * 2 ^ k := by rw [pow_succ]; ring
    split
    · omega
    · exact ⟨hk1, hk2⟩
  have hsz := size_eq_of hqr.1 hqr.2
  have hH : 2 ^ (k + 1 - 53) = 2 * 2 ^ (k - 53) := by
    have : k + 1 - 53 = (k - 53) + 1 := by omega
    rw [this, pow_succ]; ring
  have hto : toF q' = (rne q' (2 * 2 ^ (k - 53)), k + 1 - 53) := by
    unfold toF
    rw [hsz, if_neg (by omega), hH]
  obtain ⟨r1, r2⟩ := sticky_rne (q' := q') hD (H := 2 ^ (k - 53)) (by positivity)
    (by rcases hk with rfl | rfl <;> decide) hsq
  rw [hto] at hdef
  simp only at hdef
  generalize hm : rne q' (2 * 2 ^ (k - 53)) = m at *
  rw [← hH] at r1 r2
  generalize hs' : k + 1 - 53 = s at *
  push_cast at r1 r2
  rw [hND] at r1 r2
  have hT := zpow2_pos extra
  have hstep : (2 : ℚ) ^ ((s : ℤ) - extra) * 2 ^ extra = 2 ^ s := by
    rw [← zpow_add₀ (by norm_num), sub_add_cancel, zpow_natCast]
  have hxq : (2 : ℚ) ^ k ≤ (a : ℚ) / b * 2 ^ extra ∧ (a : ℚ) / b * 2 ^ extra < 2 ^ (k + 1) := by
    rw [← hND]
    have hD' : (0 : ℚ) < D := by exact_mod_cast hD
    constructor
    · rw [le_div_iff₀ hD']
      exact_mod_cast (Nat.le_div_iff_mul_le hD).1 hk1
    · rw [div_lt_iff₀ hD']
      exact_mod_cast (Nat.div_lt_iff_lt_mul hD).1 hk2
  generalize (a : ℚ) / b = x at *
  have hks : (2 : ℚ) ^ k = 2 ^ 52 * 2 ^ s := by 
    rw [show k = 52 + s by omega, pow_add]
  have hks1 : (2 : ℚ) ^ (k + 1) = 2 ^ 53 * 2 ^ s := by
    rw [show k + 1 = 53 + s by omega, pow_add]
  have hlo : 2 ^ 52 * 2 ^ ((s : ℤ) - extra) ≤ x := by
    have := hxq.1
    rw [hks, ← hstep, ← mul_assoc] at this
    exact le_of_mul_le_mul_right this hT
  have hhi : x < 2 ^ 53 * 2 ^ ((s : ℤ) - extra) := by
    have := hxq.2
    rw [hks1, ← hstep, ← mul_assoc] at this
    exact lt_of_mul_lt_mul_right this hT.le
  have he : -1074 ≤ (s : ℤ) - extra := by
    by_contra hc
    have h1 : (2 : ℚ) ^ ((s : ℤ) - extra) ≤ 2 ^ (-1075 : ℤ) :=
      zpow_le_zpow_right₀ (by norm_num) (by omega)
    have h2 : (2 : ℚ) ^ 53 * 2 ^ (-1075 : ℤ) = 2 ^ (-1022 : ℤ) := by
      rw [← zpow_natCast, ← zpow_add₀ (by norm_num)]; norm_num
    have : x < 2 ^ (-1022 : ℤ) := by
      rw [← h2]
      exact lt_of_lt_of_le hhi (by gcongr)
    linarith
  have habs : |x * 2 ^ extra - (m : ℚ) * 2 ^ s| = |x - m * 2 ^ ((s : ℤ) - extra)| * 2 ^ extra := by
    rw [← abs_of_pos hT, ← abs_mul, abs_of_pos hT, sub_mul, mul_assoc, hstep]
  rw [habs, ← hstep] at r1 r2
  have hr : IsRounded x (m * 2 ^ ((s : ℤ) - extra)) := by
    refine ⟨(s : ℤ) - extra, m, he, .inl hlo, hhi, rfl, ?_, ?_⟩
    · rw [← mul_assoc] at r1
      exact le_of_mul_le_mul_right r1 hT
    · intro h
      apply r2
      rw [← mul_assoc, h]
  refine ⟨_, hr, hsign, ?_⟩
  rw [hdef]
  unfold ldexp
  have e1 : (s : Int) + -extra = s - extra := by ring
  rw [e1, if_neg (by omega)]
  generalize hee : (s : ℤ) - extra = e at *
  have hsize : ∀ j : ℤ, (m ≠ 0 ∧ (m.size : ℤ) + e > j) ↔ (2 : ℚ) ^ j ≤ m * 2 ^ e := by
    intro j
    have hpe := zpow2_pos e
    have hj : (2 : ℚ) ^ j = 2 ^ (j - e) * 2 ^ e := by
      rw [← zpow_add₀ (by norm_num), sub_add_cancel]
    rw [hj, mul_le_mul_iff_left₀ hpe]
    constructor
    · rintro ⟨h0, h⟩
      by_cases hneg : j - e < 0
      · have h1 : (2 : ℚ) ^ (j - e) ≤ 2 ^ (0 : ℤ) := zpow_le_zpow_right₀ (by norm_num) (by omega)
        have h2 : (1 : ℚ) ≤ m := by exact_mod_cast Nat.one_le_iff_ne_zero.2 h0
        rw [zpow_zero] at h1
        linarith
      · obtain ⟨i, hi⟩ := Int.eq_ofNat_of_zero_le (show 0 ≤ j - e by omega)
        rw [hi, zpow_natCast]
        have : 2 ^ i ≤ m := Nat.lt_size.1 (by omega)
        exact_mod_cast this
    · intro h
      have h0 : m ≠ 0 := by
        rintro rfl
        have := zpow2_pos (j - e)
        simp at h
        linarith
      refine ⟨h0, ?_⟩
      by_cases hneg : j - e < 0
      · have := Nat.size_pos.2 (Nat.pos_of_ne_zero h0); omega
      · obtain ⟨i, hi⟩ := Int.eq_ofNat_of_zero_le (show 0 ≤ j - e by omega)
        rw [hi, zpow_natCast] at h
        have : 2 ^ i ≤ m := by exact_mod_cast h
        have := Nat.lt_size.2 this
        omega
  have hb1024 := hsize 1024
  have e2 : ((2 : ℚ) ^ (1024 : ℤ)) = 2 ^ 1024 := zpow_natCast 2 1024
  rw [e2] at hb1024
  by_cases hc : m ≠ 0 ∧ (m.size : ℤ) + e > 1024
  · rw [if_pos hc]
    exact .inl ⟨rfl, hb1024.1 hc⟩
  · rw [if_neg hc]
    refine .inr ⟨m, e, rfl, rfl, ?_⟩
    by_contra hh
    exact hc (hb1024.2 (le_of_not_gt hh))

/-- A case: `(2^60 + 1).fdiv(3)`. -/
example : fdivBig (2 ^ 60 + 1) (-3) = (true, .fin 6004799503160661 6) := by decide +kernel

theorem witness_eq : ((2 ^ 60 + 1 : ℚ) / 2 ^ 1135) = (2 ^ 60 + 1) / 2 ^ 61 * 2 ^ (-1074 : ℤ) := by
  have h1 : (2 : ℚ) ^ (-1074 : ℤ) = (2 ^ 1074)⁻¹ := by
    show (2 : ℚ) ^ (-((1074 : ℕ) : ℤ)) = _
    rw [zpow_neg, zpow_natCast]
  have h2 : (2 : ℚ) ^ 1135 = 2 ^ 61 * 2 ^ 1074 := by rw [← pow_add]
  rw [h1, h2, ← div_eq_mul_inv, div_div]

/-- Below the normal range the quotient is rounded twice: `(2^60+1).fdiv(2^1135)` is a
little more than half of the least positive double, and the result is 0. -/
theorem C115_subnormal_fails :
    fdivBig (2 ^ 60 + 1) (2 ^ 1135) = (false, .fin 0 (-1074)) ∧
    IsRounded ((2 ^ 60 + 1 : ℚ) / 2 ^ 1135) (1 * 2 ^ (-1074 : ℤ)) ∧
    ¬ IsRounded ((2 ^ 60 + 1 : ℚ) / 2 ^ 1135) 0 := by
  have hp := zpow2_pos (-1074)
  refine ⟨by decide +kernel, ?_, ?_⟩
  · rw [witness_eq]
    refine ⟨-1074, 1, le_rfl, .inr rfl, ?_, by simp, ?_, ?_⟩
    · generalize (2 : ℚ) ^ (-1074 : ℤ) = t at *
      nlinarith
    · rw [← sub_mul, abs_mul, abs_of_pos hp, ← mul_assoc]
      have : 2 * |((2 : ℚ) ^ 60 + 1) / 2 ^ 61 - 1| ≤ 1 := by
        rw [abs_of_neg (by norm_num)]; norm_num
      generalize (2 : ℚ) ^ (-1074 : ℤ) = t at *
      nlinarith
    · intro h
      exfalso
      rw [← sub_mul, abs_mul, abs_of_pos hp, ← mul_assoc] at h
      have : 2 * |((2 : ℚ) ^ 60 + 1) / 2 ^ 61 - 1| = 1 := by
        apply mul_right_cancel₀ hp.ne'
        rw [h, one_mul]
      rw [abs_of_neg (by norm_num)] at this
      norm_num at this
  · rintro ⟨e, m, he, hlo, _, _, hn, _⟩
    rw [sub_zero] at hn
    rw [witness_eq] at hn hlo
    have hpe := zpow2_pos e
    rw [abs_of_pos (by positivity)] at hn
    rcases hlo with h | h
    · generalize ((2 : ℚ) ^ 60 + 1) / 2 ^ 61 * 2 ^ (-1074 : ℤ) = x at *
      generalize (2 : ℚ) ^ e = t at *
      nlinarith
    · rw [h] at hn
      generalize (2 : ℚ) ^ (-1074 : ℤ) = t at *
      have : (2 : ℚ) * ((2 ^ 60 + 1) / 2 ^ 61) > 1 := by norm_num
      nlinarith

end Verif.IntMeth
