import Verif.Rational.RoundLemmas

/-!
# C29: Rational#floor, #ceil, #truncate and #round

The specification is `toDigits`: multiply by `10^n`, round to an integer, divide.
-/

namespace Verif.Rational

theorem floor_pos (a : R) (ha : a.Valid) (n : Int) (hn : 0 < n) (h32 : n < 2 ^ 32) :
    (floor a n).val = some (toDigits Int.floor a.val n) ∧ (floor a n).KindOk n := by
  unfold floor
  rw [if_neg (by omega), if_pos hn, asU32_of_lt hn.le h32]
  exact positive_digits Int.floor (fun k => Int.floor_intCast k) a ha n hn _
    (by rw [scaled a n hn.le, floor_div _ _ ha.pos])

theorem ceil_pos (a : R) (ha : a.Valid) (n : Int) (hn : 0 < n) (h32 : n < 2 ^ 32) :
    (ceil a n).val = some (toDigits Int.ceil a.val n) ∧ (ceil a n).KindOk n := by
  unfold ceil
  rw [if_neg (by omega), if_pos hn, asU32_of_lt hn.le h32]
  exact positive_digits Int.ceil (fun k => Int.ceil_intCast k) a ha n hn _
    (by rw [scaled a n hn.le, ceil_div _ _ ha.pos])

theorem ten_pos (k : Nat) : (0 : Int) < 10 ^ k := Int.pow_pos (by decide)

theorem val_nonneg_iff {a : R} (ha : a.Valid) : 0 ≤ a.num ↔ 0 ≤ a.val := by
  have hda : (0 : ℚ) < a.den := by exact_mod_cast ha.pos
  unfold R.val
  rw [le_div_iff₀ hda, zero_mul]
  exact_mod_cast Iff.rfl

theorem val_int_iff {a : R} (ha : a.Valid) : a.den = 1 ↔ ∃ k : Int, a.val = k := by
  constructor
  · intro h; refine ⟨a.num, ?_⟩; unfold R.val; rw [h]; norm_num
  · rintro ⟨k, hk⟩
    have hv : R.val ⟨k, 1⟩ = k := by unfold R.val; push_cast; rw [div_one]
    have := ((C28_equality a ⟨k, 1⟩ ha ⟨Int.one_pos, by simp⟩).2).1 (by rw [hk, hv])
    rw [this]

/-- **C29, `floor`.**  `floor(n)` is the largest number with `n` decimal digits that is not above
the receiver; the result is an Integer for `n ≤ 0` and a Rational for `n > 0`.  Missing: negative
digits on a negative non-integer (`C29_floor_negative_digits`) and 2^32 or more digits
(`C29_digits_wrap`). -/
theorem C29_floor_partial (a : R) (ha : a.Valid) (n : Int) (h1 : -(2 ^ 32) < n) (h2 : n < 2 ^ 32)
    (h : 0 ≤ n ∨ 0 ≤ a.val ∨ ∃ k : Int, a.val = k) :
    (floor a n).val = some (toDigits Int.floor a.val n) ∧ (floor a n).KindOk n := by
  rcases lt_trichotomy 0 n with hn | hn | hn
  · exact floor_pos a ha n hn h2
  · subst hn
    refine ⟨?_, le_refl _⟩
    show some (((a.num.fdiv a.den : Int)) : ℚ) = _
    unfold toDigits
    rw [zpow_zero, mul_one, div_one]
    unfold R.val; rw [floor_div _ _ ha.pos]
  · unfold floor
    rw [if_neg (by omega), if_neg (by omega), asU32_of_lt (by omega) (by omega)]
    refine ⟨?_, hn.le⟩
    show some _ = _
    rw [pow_ten_neg n hn.le]
    unfold toDigits
    have hd := ha.pos
    rw [scaled_neg a n hn.le, floor_div _ _ (Int.mul_pos hd (ten_pos _)),
      ← int_fdiv_fdiv _ _ _ hd (ten_pos _)]
    have : a.num.tdiv a.den = a.num.fdiv a.den := by
      rcases h with h | h | h
      · omega
      · rw [Int.fdiv_eq_ediv_of_nonneg _ hd.le,
          Int.tdiv_eq_ediv_of_nonneg ((val_nonneg_iff ha).2 h)]
      · rw [(val_int_iff ha).2 h]; simp
    rw [this]

example : floor ⟨-22, 7⟩ 2 = .rat ⟨-63, 20⟩ := by decide +kernel
example : floor ⟨12345, 2⟩ (-2) = .int 6100 := by decide +kernel

/-- **C29, `ceil`.**  Missing: negative digits on a positive non-integer
(`C29_ceil_negative_digits`) and 2^32 or more digits. -/
theorem C29_ceil_partial (a : R) (ha : a.Valid) (n : Int) (h1 : -(2 ^ 32) < n) (h2 : n < 2 ^ 32)
    (h : 0 ≤ n ∨ a.val ≤ 0 ∨ ∃ k : Int, a.val = k) :
    (ceil a n).val = some (toDigits Int.ceil a.val n) ∧ (ceil a n).KindOk n := by
  rcases lt_trichotomy 0 n with hn | hn | hn
  · exact ceil_pos a ha n hn h2
  · subst hn
    refine ⟨?_, le_refl _⟩
    show some (((-((-a.num).fdiv a.den) : Int)) : ℚ) = _
    unfold toDigits
    rw [zpow_zero, mul_one, div_one]
    unfold R.val; rw [ceil_div _ _ ha.pos]
  · unfold ceil
    rw [if_neg (by omega), if_neg (by omega), asU32_of_lt (by omega) (by omega)]
    refine ⟨?_, hn.le⟩
    show some _ = _
    rw [pow_ten_neg n hn.le]
    unfold toDigits
    have hd := ha.pos
    rw [scaled_neg a n hn.le, ceil_div _ _ (Int.mul_pos hd (ten_pos _)),
      ← int_fdiv_fdiv _ _ _ hd (ten_pos _)]
    have : -(a.num.tdiv a.den) = (-a.num).fdiv a.den := by
      rw [← Int.neg_tdiv]
      rcases h with h | h | h
      · omega
      · have h : 0 ≤ (neg a).val := by rw [(neg_spec ha).2]; linarith
        have h : 0 ≤ -a.num := (val_nonneg_iff (neg_spec ha).1).2 h
        rw [Int.fdiv_eq_ediv_of_nonneg _ hd.le, Int.tdiv_eq_ediv_of_nonneg h]
      · rw [(val_int_iff ha).2 h]; simp
    rw [this]

example : ceil ⟨22, 7⟩ 2 = .rat ⟨63, 20⟩ := by decide +kernel
example : ceil ⟨-12345, 2⟩ (-2) = .int (-6100) := by decide +kernel

/-- **C29, `truncate`.**  Complete but for 2^32 or more digits. -/
theorem C29_truncate_partial (a : R) (ha : a.Valid) (n : Int) (h1 : -(2 ^ 32) < n)
    (h2 : n < 2 ^ 32) :
    (truncate a n).val = some (toDigits truncQ a.val n) ∧ (truncate a n).KindOk n := by
  rcases lt_trichotomy 0 n with hn | hn | hn
  · unfold truncate
    rw [if_neg (by omega), if_pos hn, asU32_of_lt hn.le h2]
    exact positive_digits truncQ truncQ_int a ha n hn _
      (by rw [scaled a n hn.le, trunc_div _ _ ha.pos])
  · subst hn
    refine ⟨?_, le_refl _⟩
    show some (((a.num.tdiv a.den : Int)) : ℚ) = _
    unfold toDigits
    rw [zpow_zero, mul_one, div_one]
    unfold R.val; rw [trunc_div _ _ ha.pos]
  · unfold truncate
    rw [if_neg (by omega), if_neg (by omega), asU32_of_lt (by omega) (by omega)]
    refine ⟨?_, hn.le⟩
    show some _ = _
    rw [pow_ten_neg n hn.le]
    unfold toDigits
    rw [scaled_neg a n hn.le, trunc_div _ _ (Int.mul_pos ha.pos (ten_pos _)),
      ← int_tdiv_tdiv _ _ _ ha.pos (ten_pos _)]

example : truncate ⟨-22, 7⟩ 2 = .rat ⟨-157, 50⟩ := by decide +kernel
example : truncate ⟨-12345, 2⟩ (-2) = .int (-6100) := by decide +kernel

theorem round0_nonneg (a : R) (ha : a.Valid) (half : Half) (h : 0 ≤ a.num) :
    round0 a half = roundQ half a.val := by
  have hd := ha.pos
  unfold R.val
  rw [← pick_eq half a.num a.den h hd]
  unfold round0 pick
  by_cases h1 : a.den = 1
  · rw [if_pos h1, h1]
    simp
  · rw [if_neg h1]
    dsimp only
    rw [Int.tdiv_eq_ediv_of_nonneg h, Int.tmod_eq_emod_of_nonneg h]
    have hm := Int.emod_nonneg a.num hd.ne'
    have c1 : a.den.natAbs < (a.num % a.den * 2).natAbs ↔ a.den < 2 * (a.num % a.den) := by omega
    have c2 : (a.num % a.den * 2).natAbs < a.den.natAbs ↔ 2 * (a.num % a.den) < a.den := by omega
    simp only [c1, c2, h, decide_true, if_true]

theorem round0_neg (a : R) (ha : a.Valid) (half : Half) (h : a.num < 0) :
    round0 a half = roundQ half a.val + if 1 / 2 < Int.fract (-a.val) then 1 else 0 := by
  obtain ⟨p, hp⟩ : ∃ p, a.num = -p := ⟨-a.num, by omega⟩
  have hp0 : 0 < p := by omega
  have hd := ha.pos
  have hdq : (0 : ℚ) < a.den := by exact_mod_cast hd
  have hv : a.val = -((p : ℚ) / a.den) := by unfold R.val; rw [hp]; push_cast; rw [neg_div]
  have hfr : Int.fract ((p : ℚ) / a.den) = ((p % a.den : Int) : ℚ) / a.den := by
    unfold Int.fract
    rw [floor_div p _ hd, Int.fdiv_eq_ediv_of_nonneg _ hd.le]
    have h := Int.emod_add_mul_ediv p a.den
    have h : ((p % a.den : Int) : ℚ) + a.den * ((p / a.den : Int) : ℚ) = p := by exact_mod_cast h
    have h' : ((p % a.den : Int) : ℚ) = p - a.den * ((p / a.den : Int) : ℚ) := by linarith
    rw [h']
    field_simp
  have c0 : (1 : ℚ) / 2 < Int.fract (-a.val) ↔ a.den < 2 * (p % a.den) := by
    rw [hv, neg_neg, hfr, div_lt_div_iff₀ (by norm_num) hdq, one_mul, mul_comm]
    exact_mod_cast Iff.rfl
  simp only [c0]
  rw [hv, roundQ_neg, ← pick_eq half p a.den hp0.le hd]
  have hm := Int.emod_nonneg p hd.ne'
  unfold round0 pick
  by_cases h1 : a.den = 1
  · rw [if_pos h1, hp, h1]
    simp
  · rw [if_neg h1]
    dsimp only
    rw [hp, Int.neg_tdiv, Int.neg_tmod, Int.tdiv_eq_ediv_of_nonneg hp0.le,
      Int.tmod_eq_emod_of_nonneg hp0.le]
    have c1 : a.den.natAbs < (-(p % a.den) * 2).natAbs ↔ a.den < 2 * (p % a.den) := by omega
    have c2 : (-(p % a.den) * 2).natAbs < a.den.natAbs ↔ 2 * (p % a.den) < a.den := by omega
    have hneg : ¬ (0 ≤ -p) := by omega
    simp only [c1, c2, if_neg hneg]
    split
    · omega
    · split
      · omega
      · rw [decide_eq_false hneg, tie_neg]; omega

theorem round0_spec (a : R) (ha : a.Valid) (half : Half)
    (h : 0 ≤ a.val ∨ Int.fract (-a.val) ≤ 1 / 2) : round0 a half = roundQ half a.val := by
  by_cases h0 : 0 ≤ a.num
  · exact round0_nonneg a ha half h0
  · rw [round0_neg a ha half (by omega)]
    rcases h with h | h
    · exact absurd ((val_nonneg_iff ha).2 h) h0
    · rw [if_neg (not_lt.2 h), add_zero]

/-- **C29 fails for `round` on every negative number nearer to the integer below.**  Without
digits, the result is one too large: `Rational(-5, 3).round` is `-1`, not `-2`. -/
theorem C29_round_negative_is_one_too_large (a : R) (ha : a.Valid) (half : Half)
    (hneg : a.val < 0) (hfr : 1 / 2 < Int.fract (-a.val)) :
    round a 0 half = .int (roundQ half a.val + 1) := by
  unfold round
  rw [if_pos rfl, round0_neg a ha half, if_pos hfr]
  by_contra h
  exact absurd ((val_nonneg_iff ha).1 (by omega)) (not_le.2 hneg)

example : round ⟨-5, 3⟩ 0 .up = .int (-1) := by decide +kernel
example : R.Valid ⟨-5, 3⟩ ∧ R.val ⟨-5, 3⟩ < 0 ∧ 1 / 2 < Int.fract (-R.val ⟨-5, 3⟩) := by
  refine ⟨⟨by decide, by decide⟩, by norm_num [R.val], ?_⟩
  have : -R.val ⟨-5, 3⟩ = 2 / 3 + ((1 : Int) : ℚ) := by norm_num [R.val]
  rw [this, Int.fract_add_intCast, Int.fract_eq_self.2 (by norm_num)]
  norm_num

/-- The negative-digits branch of `round`, on a non-negative number. -/
theorem round_digits_nonneg (p d D : Int) (hp : 0 ≤ p) (hd : 0 < d) (hD : 0 < D) (hev : D % 2 = 0)
    (half : Half) (h : half = .up ∨ d = 1) :
    pick half (p / d / D) (p / d % D) D = roundQ half ((p : ℚ) / (d * D : Int)) := by
  have hdD := Int.mul_pos hd hD
  rw [← pick_eq half p (d * D) hp hdD]
  have hq : p / (d * D) = p / d / D := by rw [Int.ediv_ediv_of_nonneg hd.le]
  have e1 := Int.emod_add_mul_ediv p d
  have e2 := Int.emod_add_mul_ediv (p / d) D
  have e3 := Int.emod_add_mul_ediv p (d * D)
  have s0 := Int.emod_nonneg p hd.ne'
  have s1 := Int.emod_lt_of_pos p hd
  have r0 := Int.emod_nonneg (p / d) hD.ne'
  have hr : p % (d * D) = (p / d % D) * d + p % d := by
    rw [hq] at e3
    have : d * (p / d) = d * (p / d % D) + d * D * (p / d / D) := by
      conv_lhs => rw [← e2]
      ring
    linarith
  rw [hq]
  unfold pick
  rw [hr]
  generalize p / d / D = q
  generalize p / d % D = r at *
  generalize p % d = s at *
  rcases lt_trichotomy D (2 * r) with h1 | h1 | h1
  · rw [if_pos h1, if_pos (by nlinarith)]
  · rw [if_neg (by omega), if_neg (by omega)]
    have he : 2 * (r * d + s) = d * D + 2 * s := by rw [h1]; ring
    rcases h with h | h
    · by_cases hs : s = 0
      · rw [if_neg (by omega), if_neg (by omega)]
      · rw [if_pos (by omega), h]; rfl
    · rw [if_neg (by omega), if_neg (by omega)]
  · rw [if_neg (by omega), if_pos h1]
    have h2 : 2 * r + 2 ≤ D := by omega
    have h3 : (2 * r + 2) * d ≤ D * d := Int.mul_le_mul_of_nonneg_right h2 hd.le
    have h4 : 2 * (r * d + s) < d * D := by nlinarith
    rw [if_neg (by omega), if_pos h4]

theorem ten_even (k : Nat) (hk : k ≠ 0) : (10 : Int) ^ k % 2 = 0 := by
  obtain ⟨j, rfl⟩ := Nat.exists_eq_succ_of_ne_zero hk
  rw [pow_succ]
  omega

/-- **C29, `round`.**  Missing: negative numbers nearer to the number below, with digits `≥ 0`
(`C29_round_negative_is_one_too_large`); negative digits with `half: :down` or `:even` on a
non-integer (`C29_round_half_down_negative_digits`); 2^32 or more digits. -/
theorem C29_round_partial (a : R) (ha : a.Valid) (n : Int) (half : Half) (h1 : -(2 ^ 32) < n)
    (h2 : n < 2 ^ 32)
    (hpos : 0 ≤ n → 0 ≤ a.val ∨ Int.fract (-(a.val * 10 ^ n)) ≤ 1 / 2)
    (hneg : n < 0 → half = .up ∨ ∃ k : Int, a.val = k) :
    (round a n half).val = some (toDigits (roundQ half) a.val n) ∧ (round a n half).KindOk n := by
  have h10 : (0 : ℚ) < 10 ^ n := zpow_pos (by norm_num) _
  rcases lt_trichotomy 0 n with hn | hn | hn
  · unfold round
    rw [if_neg (by omega), if_pos hn, asU32_of_lt hn.le h2]
    obtain ⟨s, e1, e2, e3⟩ := C28_new (a.num * 10 ^ n.toNat) a.den ha.pos.ne'
    rw [← scaled a n hn.le] at e3
    rw [e1]
    refine positive_digits (roundQ half) (roundQ_int half) a ha n hn _ ?_
    rw [← e3, round0_spec s e2 half]
    rw [e3]
    rcases hpos hn.le with h | h
    · exact .inl (mul_nonneg h h10.le)
    · exact .inr h
  · subst hn
    refine ⟨?_, le_refl _⟩
    show some (((round0 a half : Int)) : ℚ) = _
    unfold toDigits
    rw [zpow_zero, mul_one, div_one, round0_spec a ha half]
    have := hpos (le_refl _)
    rwa [zpow_zero, mul_one] at this
  · unfold round
    rw [if_neg (by omega), if_neg (by omega), asU32_of_lt (by omega) (by omega)]
    refine ⟨?_, hn.le⟩
    show some _ = _
    have hD := ten_pos (-n).toNat
    have hev := ten_even (-n).toNat (by omega)
    have hd := ha.pos
    have hh : half = .up ∨ a.den = 1 := by
      rcases hneg hn with h | h
      · exact .inl h
      · exact .inr ((val_int_iff ha).2 h)
    unfold toDigits
    rw [scaled_neg a n hn.le, ← pow_ten_neg n hn.le]
    generalize (10 : Int) ^ (-n).toNat = D at *
    congr 2
    rcases le_total 0 a.num with hp | hp
    · rw [← round_digits_nonneg a.num a.den D hp hd hD hev half hh]
      have hi : 0 ≤ a.num / a.den := Int.ediv_nonneg hp hd.le
      rw [Int.tdiv_eq_ediv_of_nonneg hp, Int.tdiv_eq_ediv_of_nonneg hi,
        Int.tmod_eq_emod_of_nonneg hi]
      unfold pick
      have hm := Int.emod_nonneg (a.num / a.den) hD.ne'
      have c1 : D.natAbs < (a.num / a.den % D * 2).natAbs ↔ D < 2 * (a.num / a.den % D) := by omega
      have c2 : (a.num / a.den % D * 2).natAbs < D.natAbs ↔ 2 * (a.num / a.den % D) < D := by omega
      simp only [c1, c2, if_pos hi, decide_eq_true hi]
      split
      · rfl
      · split <;> rfl
    · obtain ⟨p, hpe⟩ : ∃ p, a.num = -p := ⟨-a.num, by omega⟩
      have hp0 : 0 ≤ p := by omega
      have hi : 0 ≤ p / a.den := Int.ediv_nonneg hp0 hd.le
      have key := round_digits_nonneg p a.den D hp0 hd hD hev half hh
      rw [hpe]
      have hx : (((-p : Int)) : ℚ) / ((a.den * D : Int) : ℚ) = -((p : ℚ) / ((a.den * D : Int) : ℚ)) := by
        push_cast; rw [neg_div]
      rw [hx, roundQ_neg, ← key, Int.neg_tdiv, Int.neg_tdiv, Int.neg_tmod,
        Int.tdiv_eq_ediv_of_nonneg hp0, Int.tdiv_eq_ediv_of_nonneg hi,
        Int.tmod_eq_emod_of_nonneg hi]
      unfold pick
      have hm := Int.emod_nonneg (p / a.den) hD.ne'
      have c1 : D.natAbs < (-(p / a.den % D) * 2).natAbs ↔ D < 2 * (p / a.den % D) := by omega
      have c2 : (-(p / a.den % D) * 2).natAbs < D.natAbs ↔ 2 * (p / a.den % D) < D := by omega
      simp only [c1, c2]
      by_cases hz : p / a.den = 0
      · have hz2 : p / a.den % D = 0 := by rw [hz]; simp
        rw [hz2, if_neg (by omega), if_pos (by omega), if_neg (by omega), if_pos (by omega)]
      · have hni : ¬ (0 ≤ -(p / a.den)) := by omega
        rw [if_neg hni, decide_eq_false hni, tie_neg]
        split
        · ring
        · split
          · ring
          · rfl

example : round ⟨5, 2⟩ 0 .even = .int 2 := by decide +kernel
example : round ⟨-5, 2⟩ 0 .up = .int (-3) := by decide +kernel
example : round ⟨22, 7⟩ 2 .up = .rat ⟨157, 50⟩ := by decide +kernel
example : round ⟨-155, 1⟩ (-1) .even = .int (-160) := by decide +kernel

/-- **C29 fails: `floor` with negative digits cuts to an integer first.**
`Rational(-1, 2).floor(-1)` is `0`; the largest multiple of ten not above `-1/2` is `-10`. -/
theorem C29_floor_negative_digits :
    floor ⟨-1, 2⟩ (-1) = .int 0 ∧ toDigits Int.floor (R.val ⟨-1, 2⟩) (-1) = -10 := by
  refine ⟨by decide +kernel, ?_⟩
  have : R.val ⟨-1, 2⟩ * 10 ^ (-1 : Int) = -(1 / 20) := by norm_num [R.val]
  unfold toDigits
  rw [this, show ⌊(-(1 / 20) : ℚ)⌋ = -1 by rw [Int.floor_eq_iff]; norm_num]
  norm_num

/-- **C29 fails: `ceil` with negative digits likewise.**  `Rational(1, 2).ceil(-1)` is `0`, not
`10`. -/
theorem C29_ceil_negative_digits :
    ceil ⟨1, 2⟩ (-1) = .int 0 ∧ toDigits Int.ceil (R.val ⟨1, 2⟩) (-1) = 10 := by
  refine ⟨by decide +kernel, ?_⟩
  have : R.val ⟨1, 2⟩ * 10 ^ (-1 : Int) = 1 / 20 := by norm_num [R.val]
  unfold toDigits
  rw [this, show ⌈(1 / 20 : ℚ)⌉ = 1 by rw [Int.ceil_eq_iff]; norm_num]
  norm_num

/-- **C29 fails: `round` with negative digits and `half: :down`.**  `Rational(11, 2)` is nearer to
`10`, but is taken for a tie. -/
theorem C29_round_half_down_negative_digits :
    round ⟨11, 2⟩ (-1) .down = .int 0 ∧ toDigits (roundQ .down) (R.val ⟨11, 2⟩) (-1) = 10 := by
  refine ⟨by decide +kernel, ?_⟩
  have : R.val ⟨11, 2⟩ * 10 ^ (-1 : Int) = ((0 : Int) : ℚ) + 11 / 20 := by norm_num [R.val]
  unfold toDigits
  rw [this, roundQ_split .down 0 (11 / 20) (le_refl _) (by norm_num) (by norm_num)]
  norm_num

/-- **C29 fails: the number of digits is cut to 32 bits.**  `Rational(1, 3).floor(2**32)` is
`(0/1)`. -/
theorem C29_digits_wrap :
    floor ⟨1, 3⟩ (2 ^ 32) = .rat ⟨0, 1⟩ ∧
    toDigits Int.floor (R.val ⟨1, 3⟩) (2 ^ 32) ≠ R.val ⟨0, 1⟩ := by
  refine ⟨by decide +kernel, ?_⟩
  have h0 : R.val ⟨0, 1⟩ = 0 := by norm_num [R.val]
  rw [h0]
  unfold toDigits
  have hp : (10 : ℚ) ≤ 10 ^ (2 ^ 32 : Int) := by
    have := zpow_le_zpow_right₀ (a := (10 : ℚ)) (by norm_num) (show (1 : Int) ≤ 2 ^ 32 by norm_num)
    simpa using this
  generalize (10 : ℚ) ^ (2 ^ 32 : Int) = T at *
  have h1 : (1 : Int) ≤ ⌊R.val ⟨1, 3⟩ * T⌋ := by
    rw [Int.le_floor]
    have : R.val ⟨1, 3⟩ = 1 / 3 := by norm_num [R.val]
    rw [this]; push_cast; linarith
  have h2 : (0 : ℚ) < (⌊R.val ⟨1, 3⟩ * T⌋ : ℚ) := by exact_mod_cast h1
  exact (div_pos h2 (by linarith)).ne'

end Verif.Rational
