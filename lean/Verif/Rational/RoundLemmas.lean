import Verif.Rational.Props
import Mathlib.Algebra.Order.Floor.Ring
import Mathlib.Tactic.NormNum

/-! # Rounding: the specification on `ℚ`, and lemmas -/

namespace Verif.Rational

/-- Toward zero. -/
def truncQ (x : ℚ) : Int := if 0 ≤ x then ⌊x⌋ else ⌈x⌉

/-- To the nearest integer, ties by the given rule. -/
def roundQ (half : Half) (x : ℚ) : Int :=
  if Int.fract x < 1 / 2 then ⌊x⌋
  else if 1 / 2 < Int.fract x then ⌈x⌉
  else match half with
    | .up => if 0 ≤ x then ⌈x⌉ else ⌊x⌋
    | .down => if 0 ≤ x then ⌊x⌋ else ⌈x⌉
    | .even => if Even ⌊x⌋ then ⌊x⌋ else ⌈x⌉

/-- Round to `n` decimal digits (before the point, if `n` is negative) by a way `f` of rounding to
integers. -/
def toDigits (f : ℚ → Int) (x : ℚ) (n : Int) : ℚ := f (x * 10 ^ n) / 10 ^ n

/-- The number a result denotes. -/
def Rounded.val : Rounded → Option ℚ
  | .int i => some i
  | .rat r => some r.val
  | .panic => none

/-- Zero and negative digits give an Integer, positive digits a Rational in lowest terms. -/
def Rounded.KindOk (n : Int) : Rounded → Prop
  | .int _ => n ≤ 0
  | .rat r => 0 < n ∧ r.Valid
  | .panic => False

theorem floor_div (n d : Int) (hd : 0 < d) : ⌊(n : ℚ) / (d : ℚ)⌋ = n.fdiv d := by
  rw [Int.fdiv_eq_ediv_of_nonneg _ hd.le]
  have hd' : (0 : ℚ) < d := by exact_mod_cast hd
  rw [Int.floor_eq_iff]
  have h1 := Int.emod_add_mul_ediv n d
  have h2 := Int.emod_nonneg n hd.ne'
  have h3 := Int.emod_lt_of_pos n hd
  constructor
  · rw [le_div_iff₀ hd']
    have : n / d * d ≤ n := by nlinarith
    exact_mod_cast this
  · rw [div_lt_iff₀ hd']
    have : n < (n / d + 1) * d := by nlinarith
    exact_mod_cast this

theorem ceil_div (n d : Int) (hd : 0 < d) : ⌈(n : ℚ) / (d : ℚ)⌉ = -((-n).fdiv d) := by
  have := floor_div (-n) d hd
  rw [← this]
  push_cast
  rw [neg_div, Int.floor_neg, neg_neg]

theorem trunc_div (n d : Int) (hd : 0 < d) : truncQ ((n : ℚ) / (d : ℚ)) = n.tdiv d := by
  have hd' : (0 : ℚ) < d := by exact_mod_cast hd
  unfold truncQ
  by_cases hn : 0 ≤ n
  · have : (0 : ℚ) ≤ n := by exact_mod_cast hn
    rw [if_pos (div_nonneg this hd'.le), floor_div n d hd, Int.fdiv_eq_ediv_of_nonneg _ hd.le,
      Int.tdiv_eq_ediv_of_nonneg hn]
  · have : (n : ℚ) < 0 := by exact_mod_cast not_le.1 hn
    rw [if_neg (not_le.2 (div_neg_of_neg_of_pos this hd')), ceil_div n d hd,
      Int.fdiv_eq_ediv_of_nonneg _ hd.le, ← Int.tdiv_eq_ediv_of_nonneg (by omega), Int.neg_tdiv,
      neg_neg]

theorem truncQ_int (k : Int) : truncQ (k : ℚ) = k := by
  unfold truncQ; simp

theorem roundQ_int (half : Half) (k : Int) : roundQ half (k : ℚ) = k := by
  unfold roundQ; simp

theorem strip_eq (p : Nat) (hp : 1 < p) (t : Nat) (ht : 0 < t) :
    t = (strip p t).1 * p ^ (strip p t).2 := by
  induction t using Nat.strongRecOn with
  | ind t ih =>
    unfold strip
    split
    · rename_i h
      have hdvd : p ∣ t := Nat.dvd_of_mod_eq_zero h.2.2
      have hq : 0 < t / p := Nat.div_pos (Nat.le_of_dvd ht hdvd) (by omega)
      have := ih (t / p) (Nat.div_lt_self ht hp) hq
      show t = (strip p (t / p)).1 * p ^ ((strip p (t / p)).2 + 1)
      rw [pow_succ, ← mul_assoc, ← this, Nat.div_mul_cancel hdvd]
    · simp

/-- When the code keeps the receiver, it has that few digits. -/
theorem sufficient_spec (a : R) (ha : a.Valid) (n : Int) (hn : 0 ≤ n)
    (h : ndigitsSufficient a n = true) : ∃ k : Int, a.val * 10 ^ n = k := by
  have hda : (a.den : ℚ) ≠ 0 := by exact_mod_cast ha.pos.ne'
  obtain ⟨m, rfl⟩ := Int.eq_ofNat_of_zero_le hn
  have key : a.den ∣ 10 ^ m → ∃ k : Int, a.val * 10 ^ (m : Int) = k := by
    rintro ⟨c, hc⟩
    refine ⟨a.num * c, ?_⟩
    have hc : (10 : ℚ) ^ m = a.den * c := by exact_mod_cast hc
    unfold R.val
    rw [zpow_natCast, hc]
    push_cast
    field_simp
  apply key
  unfold ndigitsSufficient at h
  split at h
  · rename_i h1; rw [h1]; exact one_dvd _
  · split at h
    · cases h
    · rename_i h5
      rw [ne_eq, not_not] at h5
      have hle := of_decide_eq_true h
      have hpos : 0 < a.den.natAbs := by have := ha.pos; omega
      have e2 := strip_eq 2 (by decide) a.den.natAbs hpos
      generalize strip 2 a.den.natAbs = s2 at *
      have hs2 : 0 < s2.1 := by
        rcases Nat.eq_zero_or_pos s2.1 with h0 | h0
        · rw [h0, zero_mul] at e2; omega
        · exact h0
      have e5 := strip_eq 5 (by decide) s2.1 hs2
      rw [h5, one_mul] at e5
      generalize strip 5 s2.1 = s5 at *
      have l2 : s2.2 ≤ m := by have := le_trans (le_max_left _ _) hle; omega
      have l5 : s5.2 ≤ m := by have := le_trans (le_max_right _ _) hle; omega
      have : a.den.natAbs ∣ 10 ^ m := by
        rw [e2, e5, show (10 : Nat) = 5 * 2 from rfl, mul_pow]
        exact mul_dvd_mul (pow_dvd_pow _ l5) (pow_dvd_pow _ l2)
      have h2 := Int.natCast_dvd_natCast.2 this
      have h3 : ((a.den.natAbs : Nat) : Int) = a.den := by have := ha.pos; omega
      rw [h3] at h2
      exact_mod_cast h2

/-- The shape all four methods share for positive digits. -/
theorem positive_digits (f : ℚ → Int) (hf : ∀ k : Int, f k = k) (a : R) (ha : a.Valid) (n : Int)
    (hn : 0 < n) (z : Int) (hz : f (a.val * 10 ^ n) = z) :
    let res := if ndigitsSufficient a n then Rounded.rat a else .of (mk z (10 ^ n.toNat))
    res.val = some (toDigits f a.val n) ∧ res.KindOk n := by
  dsimp only
  have h10 : (10 : ℚ) ^ n ≠ 0 := zpow_ne_zero _ (by norm_num)
  split
  · rename_i hs
    obtain ⟨k, hk⟩ := sufficient_spec a ha n hn.le hs
    refine ⟨?_, hn, ha⟩
    show some a.val = _
    unfold toDigits
    rw [hk, hf, ← hk, mul_div_cancel_right₀ _ h10]
  · obtain ⟨r, h1, h2, h3⟩ := C28_new z (10 ^ n.toNat) (pow_ne_zero _ (by decide))
    rw [h1]
    refine ⟨?_, hn, h2⟩
    show some r.val = _
    rw [h3]
    unfold toDigits
    rw [hz]
    push_cast
    rw [← zpow_natCast, Int.toNat_of_nonneg hn.le]

theorem scaled (a : R) (n : Int) (hn : 0 ≤ n) :
    a.val * 10 ^ n = ((a.num * 10 ^ n.toNat : Int) : ℚ) / (a.den : ℚ) := by
  unfold R.val
  push_cast
  rw [← zpow_natCast, Int.toNat_of_nonneg hn]
  ring

theorem scaled_neg (a : R) (n : Int) (hn : n ≤ 0) :
    a.val * 10 ^ n = (a.num : ℚ) / ((a.den * 10 ^ (-n).toNat : Int) : ℚ) := by
  unfold R.val
  push_cast
  have : (10 : ℚ) ^ n = (10 ^ (-n).toNat)⁻¹ := by
    rw [← zpow_natCast, Int.toNat_of_nonneg (by omega), zpow_neg, inv_inv]
  rw [this, div_mul_eq_div_div, div_eq_mul_inv (_ / _)]

theorem pow_ten_neg (n : Int) (hn : n ≤ 0) (i : Int) :
    ((i * 10 ^ (-n).toNat : Int) : ℚ) = i / 10 ^ n := by
  push_cast
  have : (10 : ℚ) ^ n = (10 ^ (-n).toNat)⁻¹ := by
    rw [← zpow_natCast, Int.toNat_of_nonneg (by omega), zpow_neg, inv_inv]
  rw [this, div_inv_eq_mul]

theorem int_fdiv_fdiv (a b c : Int) (hb : 0 < b) (hc : 0 < c) :
    (a.fdiv b).fdiv c = a.fdiv (b * c) := by
  rw [Int.fdiv_eq_ediv_of_nonneg _ hb.le, Int.fdiv_eq_ediv_of_nonneg _ hc.le,
    Int.fdiv_eq_ediv_of_nonneg _ (Int.mul_pos hb hc).le, Int.ediv_ediv_of_nonneg hb.le]

theorem int_tdiv_tdiv (a b c : Int) (hb : 0 < b) (hc : 0 < c) :
    (a.tdiv b).tdiv c = a.tdiv (b * c) := by
  rcases le_total 0 a with h | h
  · rw [Int.tdiv_eq_ediv_of_nonneg h, Int.tdiv_eq_ediv_of_nonneg (Int.ediv_nonneg h hb.le),
      Int.tdiv_eq_ediv_of_nonneg h, Int.ediv_ediv_of_nonneg hb.le]
  · obtain ⟨p, rfl⟩ : ∃ p, a = -p := ⟨-a, by omega⟩
    have hp : 0 ≤ p := by omega
    rw [Int.neg_tdiv, Int.neg_tdiv, Int.neg_tdiv, Int.tdiv_eq_ediv_of_nonneg hp,
      Int.tdiv_eq_ediv_of_nonneg (Int.ediv_nonneg hp hb.le),
      Int.tdiv_eq_ediv_of_nonneg hp, Int.ediv_ediv_of_nonneg hb.le]

/-! ## Rounding to nearest -/

/-- The decision the code takes from a non-negative quotient `q`, remainder `r`, divisor `d`. -/
def pick (half : Half) (q r d : Int) : Int :=
  if d < 2 * r then q + 1 else if 2 * r < d then q else tie half true q

theorem roundQ_split (half : Half) (q : Int) (f : ℚ) (hq : 0 ≤ q) (h0 : 0 ≤ f) (h1 : f < 1) :
    roundQ half (q + f) =
      if 1 / 2 < f then q + 1 else if f < 1 / 2 then q else tie half true q := by
  have hfl : ⌊(q : ℚ) + f⌋ = q := by
    rw [Int.floor_eq_iff]; constructor <;> linarith
  have hfr : Int.fract ((q : ℚ) + f) = f := by
    unfold Int.fract; rw [hfl]; ring
  have hce : 0 < f → ⌈(q : ℚ) + f⌉ = q + 1 := by
    intro h; rw [Int.ceil_eq_iff]; push_cast; constructor <;> linarith
  have hnn : (0 : ℚ) ≤ q + f := by
    have : (0 : ℚ) ≤ q := by exact_mod_cast hq
    linarith
  unfold roundQ
  rw [hfr, hfl]
  rcases lt_trichotomy f (1 / 2) with h | h | h
  · rw [if_pos h, if_neg (not_lt.2 h.le), if_pos h]
  · have hlt : ¬ f < 1 / 2 := by rw [h]; exact lt_irrefl _
    have hgt : ¬ 1 / 2 < f := by rw [h]; exact lt_irrefl _
    have hp : 0 < f := by rw [h]; norm_num
    rw [if_neg hlt, if_neg hgt, if_neg hgt, if_neg hlt, hce hp]
    have hev : q.tmod 2 = 0 ↔ Even q := by
      rw [Int.even_iff, ← Int.dvd_iff_tmod_eq_zero, ← Int.dvd_iff_emod_eq_zero]
    cases half
    · simp [hnn, tie]
    · simp [hnn, tie]
    · simp [tie, hev]
  · have hp : 0 < f := by linarith
    rw [if_neg (not_lt.2 h.le), if_pos h, if_pos h, hce hp]

theorem roundQ_neg (half : Half) (x : ℚ) : roundQ half (-x) = -roundQ half x := by
  by_cases hf : Int.fract x = 0
  · obtain ⟨k, hk⟩ : ∃ k : Int, x = k := ⟨⌊x⌋, by
      have := Int.floor_add_fract x; rw [hf, add_zero] at this; exact this.symm⟩
    rw [hk]
    have : (-(k : ℚ)) = ((-k : Int) : ℚ) := by push_cast; rfl
    rw [this, roundQ_int, roundQ_int]
  · have hx0 : x ≠ 0 := by rintro rfl; exact hf (by simp)
    have hfn := Int.fract_neg (x := x) hf
    have hcf : ⌈x⌉ = ⌊x⌋ + 1 := by
      rw [Int.ceil_eq_iff]
      have h1 := Int.floor_add_fract x
      have h2 := Int.fract_nonneg x
      have h3 := Int.fract_lt_one x
      have h4 : 0 < Int.fract x := lt_of_le_of_ne h2 (Ne.symm hf)
      push_cast
      constructor <;> linarith
    unfold roundQ
    rw [hfn, Int.floor_neg, Int.ceil_neg]
    rcases lt_trichotomy (Int.fract x) (1 / 2) with h | h | h
    · rw [if_neg (by linarith), if_pos (by linarith), if_pos h]
    · have g1 : ¬ (1 - Int.fract x < 1 / 2) := by linarith
      have g2 : ¬ (1 / 2 < 1 - Int.fract x) := by linarith
      have g3 : ¬ (Int.fract x < 1 / 2) := by linarith
      have g4 : ¬ (1 / 2 < Int.fract x) := by linarith
      rw [if_neg g1, if_neg g2, if_neg g3, if_neg g4]
      have hev : Even (-⌈x⌉) ↔ ¬ Even ⌊x⌋ := by
        rw [even_neg, hcf, Int.even_add_one]
      rcases lt_or_gt_of_ne hx0 with hx | hx
      · have e1 : ¬ (0 ≤ x) := not_le.2 hx
        have e2 : 0 ≤ -x := by linarith
        cases half
        · simp only [if_neg e1, if_pos e2]
        · simp only [if_neg e1, if_pos e2]
        · dsimp only
          by_cases he : Even ⌊x⌋
          · rw [if_neg (by rw [hev]; exact fun h => h he), if_pos he]
          · rw [if_pos (hev.2 he), if_neg he]
      · have e1 : 0 ≤ x := hx.le
        have e2 : ¬ (0 ≤ -x) := by linarith
        cases half
        · simp only [if_pos e1, if_neg e2]
        · simp only [if_pos e1, if_neg e2]
        · dsimp only
          by_cases he : Even ⌊x⌋
          · rw [if_neg (by rw [hev]; exact fun h => h he), if_pos he]
          · rw [if_pos (hev.2 he), if_neg he]
    · rw [if_pos (by linarith), if_neg (by linarith), if_pos h]

theorem pick_eq (half : Half) (p d : Int) (hp : 0 ≤ p) (hd : 0 < d) :
    pick half (p / d) (p % d) d = roundQ half ((p : ℚ) / d) := by
  have hd' : (0 : ℚ) < d := by exact_mod_cast hd
  have hx : (p : ℚ) / d = ((p / d : Int) : ℚ) + ((p % d : Int) : ℚ) / d := by
    have h := Int.emod_add_mul_ediv p d
    have h : ((p % d : Int) : ℚ) + d * ((p / d : Int) : ℚ) = p := by exact_mod_cast h
    rw [eq_comm, ← h]
    field_simp
    ring
  have h2 : (0 : ℚ) ≤ ((p % d : Int) : ℚ) := by exact_mod_cast Int.emod_nonneg p hd.ne'
  have h3 : ((p % d : Int) : ℚ) < d := by exact_mod_cast Int.emod_lt_of_pos p hd
  rw [hx, roundQ_split half _ _ (Int.ediv_nonneg hp hd.le) (div_nonneg h2 hd'.le)
    ((div_lt_one hd').2 h3)]
  unfold pick
  have c1 : (1 : ℚ) / 2 < ((p % d : Int) : ℚ) / d ↔ d < 2 * (p % d) := by
    rw [div_lt_div_iff₀ (by norm_num) hd', one_mul, mul_comm]; exact_mod_cast Iff.rfl
  have c2 : ((p % d : Int) : ℚ) / d < 1 / 2 ↔ 2 * (p % d) < d := by
    rw [div_lt_div_iff₀ hd' (by norm_num), one_mul, mul_comm]; exact_mod_cast Iff.rfl
  simp only [c1, c2]

theorem tie_neg (half : Half) (q : Int) : tie half false (-q) = -tie half true q := by
  cases half
  · simp [tie]; omega
  · simp [tie]
  · unfold tie
    dsimp only
    rw [Int.neg_tmod]
    by_cases h : q.tmod 2 = 0
    · simp [h]
    · rw [if_neg (by omega), if_neg h]; simp; omega

end Verif.Rational
