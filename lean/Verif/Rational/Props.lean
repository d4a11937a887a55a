import Verif.Rational.Model
import Mathlib.Data.Rat.Lemmas
import Mathlib.RingTheory.Coprime.Lemmas
import Mathlib.Data.Rat.Floor
import Mathlib.Tactic.FieldSimp
import Mathlib.Tactic.Ring
import Mathlib.Tactic.Linarith
import Mathlib.Tactic.Positivity

/-!
# C28: Rational values are in lowest terms and computed exactly

The specification is Mathlib's field of rational numbers `ℚ`.
-/

namespace Verif.Rational

/-- The number a pair denotes. -/
def R.val (r : R) : ℚ := (r.num : ℚ) / (r.den : ℚ)

/-- Lowest terms with a positive denominator. -/
structure R.Valid (r : R) : Prop where
  pos : 0 < r.den
  coprime : Int.gcd r.num r.den = 1

/-- **C28, construction.**  A pair with a non-zero denominator gives a value in lowest terms that
denotes the quotient. -/
theorem C28_new (n d : Int) (hd : d ≠ 0) :
    ∃ r, mk n d = some r ∧ r.Valid ∧ r.val = (n : ℚ) / (d : ℚ) := by
  unfold mk
  rw [if_neg hd]
  dsimp only
  generalize hn' : (if d < 0 then -n else n) = n'
  generalize hd' : (if d < 0 then -d else d) = d'
  have hpos : 0 < d' := by rw [← hd']; split <;> omega
  have hval : (n' : ℚ) / (d' : ℚ) = (n : ℚ) / (d : ℚ) := by
    rw [← hn', ← hd']
    split
    · push_cast; rw [neg_div_neg_eq]
    · rfl
  have hg0 : Int.gcd n' d' ≠ 0 := by
    intro h; have := (Int.gcd_eq_zero_iff.1 h).2; omega
  split
  · rename_i h1
    exact ⟨_, rfl, ⟨hpos, by exact_mod_cast h1⟩, hval⟩
  · refine ⟨_, rfl, ⟨?_, ?_⟩, ?_⟩
    · have hdvd : (Int.gcd n' d' : Int) ∣ d' := Int.gcd_dvd_right ..
      obtain ⟨k, hk⟩ := hdvd
      show 0 < d'.tdiv _
      have hgp : (0 : Int) < Int.gcd n' d' := by omega
      have : d'.tdiv (Int.gcd n' d' : Int) = k := by
        conv_lhs => lhs; rw [hk]
        exact Int.mul_tdiv_cancel_left _ (by omega)
      rw [this]
      by_contra hk0
      have : (Int.gcd n' d' : Int) * k ≤ 0 := Int.mul_nonpos_of_nonneg_of_nonpos (by omega) (by omega)
      omega
    · show Int.gcd (n'.tdiv _) (d'.tdiv _) = 1
      have h1 : n'.tdiv (Int.gcd n' d' : Int) = n' / (Int.gcd n' d' : Int) :=
        Int.tdiv_eq_ediv_of_dvd (Int.gcd_dvd_left ..)
      have h2 : d'.tdiv (Int.gcd n' d' : Int) = d' / (Int.gcd n' d' : Int) :=
        Int.tdiv_eq_ediv_of_dvd (Int.gcd_dvd_right ..)
      rw [h1, h2]
      exact Int.gcd_div_gcd_div_gcd (Nat.pos_of_ne_zero hg0)
    · show ((n'.tdiv (Int.gcd n' d' : Int) : Int) : ℚ) / ((d'.tdiv (Int.gcd n' d' : Int) : Int) : ℚ) = _
      rw [← hval]
      obtain ⟨a, ha⟩ : (Int.gcd n' d' : Int) ∣ n' := Int.gcd_dvd_left ..
      obtain ⟨b, hb⟩ : (Int.gcd n' d' : Int) ∣ d' := Int.gcd_dvd_right ..
      generalize hg : (Int.gcd n' d' : Int) = g at ha hb
      have hgne : g ≠ 0 := by omega
      rw [ha, hb, Int.mul_tdiv_cancel_left _ hgne, Int.mul_tdiv_cancel_left _ hgne]
      push_cast
      rw [mul_div_mul_left]
      exact_mod_cast hgne

example : mk 6 (-4) = some ⟨-3, 2⟩ := by decide

/-- **C28, representations.**  Two Rationals denote the same number exactly if they are the same
pair: `==`, `eql?` and `hash`, which compare the pairs, agree with equality of numbers. -/
theorem C28_equality (a b : R) (ha : a.Valid) (hb : b.Valid) :
    (eq a b = true ↔ a.val = b.val) ∧ (a.val = b.val ↔ a = b) := by
  have key : a.val = b.val → a = b := by
    intro h
    unfold R.val at h
    have hda : (a.den : ℚ) ≠ 0 := by exact_mod_cast ha.pos.ne'
    have hdb : (b.den : ℚ) ≠ 0 := by exact_mod_cast hb.pos.ne'
    rw [div_eq_div_iff hda hdb] at h
    have h : a.num * b.den = b.num * a.den := by exact_mod_cast h
    have hca : IsCoprime a.num a.den := Int.isCoprime_iff_gcd_eq_one.2 ha.coprime
    have hcb : IsCoprime b.num b.den := Int.isCoprime_iff_gcd_eq_one.2 hb.coprime
    have h1 : a.den ∣ b.den := hca.symm.dvd_of_dvd_mul_left ⟨b.num, by rw [h]; ring⟩
    have h2 : b.den ∣ a.den := hcb.symm.dvd_of_dvd_mul_left ⟨a.num, by rw [← h]; ring⟩
    have hd : a.den = b.den := Int.dvd_antisymm ha.pos.le hb.pos.le h1 h2
    have hn : a.num = b.num := by
      rw [hd] at h
      exact Int.eq_of_mul_eq_mul_right hb.pos.ne' h
    cases a; cases b; simp_all
  refine ⟨⟨fun h => ?_, fun h => ?_⟩, key, fun h => by rw [h]⟩
  · unfold eq at h
    simp only [Bool.and_eq_true, beq_iff_eq] at h
    unfold R.val; rw [h.1, h.2]
  · rw [key h]; simp [eq]

/-- **C28, order.**  `<=>` is the order of the numbers. -/
theorem C28_cmp (a b : R) (ha : a.Valid) (hb : b.Valid) : cmp a b = compare a.val b.val := by
  have hda : (0 : ℚ) < a.den := by exact_mod_cast ha.pos
  have hdb : (0 : ℚ) < b.den := by exact_mod_cast hb.pos
  have hlt : a.num * b.den < b.num * a.den ↔ a.val < b.val := by
    unfold R.val
    rw [div_lt_div_iff₀ hda hdb]
    exact_mod_cast Iff.rfl
  have hgt : b.num * a.den < a.num * b.den ↔ b.val < a.val := by
    unfold R.val
    rw [div_lt_div_iff₀ hdb hda]
    exact_mod_cast Iff.rfl
  unfold cmp
  rcases lt_trichotomy (a.num * b.den) (b.num * a.den) with h | h | h
  · rw [compare_lt_iff_lt.2 h, compare_lt_iff_lt.2 (hlt.1 h)]
  · rw [compare_eq_iff_eq.2 h, eq_comm, compare_eq_iff_eq]
    exact le_antisymm (not_lt.1 fun h' => by have := hgt.2 h'; omega)
      (not_lt.1 fun h' => by have := hlt.2 h'; omega)
  · rw [compare_gt_iff_gt.2 h, compare_gt_iff_gt.2 (hgt.1 h)]

theorem val_zero_iff {a : R} (ha : a.Valid) : a.num = 0 ↔ a.val = 0 := by
  have hda : (a.den : ℚ) ≠ 0 := by exact_mod_cast ha.pos.ne'
  unfold R.val
  rw [div_eq_zero_iff]
  constructor
  · intro h; left; exact_mod_cast h
  · rintro (h | h)
    · exact_mod_cast h
    · exact absurd h hda

theorem neg_spec {a : R} (ha : a.Valid) : (neg a).Valid ∧ (neg a).val = -a.val := by
  refine ⟨⟨ha.pos, by show Int.gcd (-a.num) a.den = 1; rw [Int.neg_gcd]; exact ha.coprime⟩, ?_⟩
  unfold R.val neg; push_cast; rw [neg_div]

theorem abs_spec {a : R} (ha : a.Valid) : (abs a).Valid ∧ (abs a).val = |a.val| := by
  have hda : (0 : ℚ) < a.den := by exact_mod_cast ha.pos
  unfold abs
  split
  · rename_i h
    refine ⟨(neg_spec ha).1, ?_⟩
    have hv : a.val < 0 := div_neg_of_neg_of_pos (by exact_mod_cast h) hda
    rw [abs_of_neg hv]; exact (neg_spec ha).2
  · rename_i h
    refine ⟨ha, ?_⟩
    have hv : 0 ≤ a.val := div_nonneg (by exact_mod_cast not_lt.1 h) hda.le
    rw [abs_of_nonneg hv]

theorem add_spec {a b : R} (ha : a.Valid) (hb : b.Valid) :
    ∃ r, add a b = some r ∧ r.Valid ∧ r.val = a.val + b.val := by
  have hda : (a.den : ℚ) ≠ 0 := by exact_mod_cast ha.pos.ne'
  have hdb : (b.den : ℚ) ≠ 0 := by exact_mod_cast hb.pos.ne'
  obtain ⟨r, h1, h2, h3⟩ := C28_new (a.num * b.den + b.num * a.den) (a.den * b.den)
    (mul_ne_zero ha.pos.ne' hb.pos.ne')
  refine ⟨r, h1, h2, ?_⟩
  rw [h3]; unfold R.val; push_cast; field_simp

theorem sub_spec {a b : R} (ha : a.Valid) (hb : b.Valid) :
    ∃ r, sub a b = some r ∧ r.Valid ∧ r.val = a.val - b.val := by
  have hda : (a.den : ℚ) ≠ 0 := by exact_mod_cast ha.pos.ne'
  have hdb : (b.den : ℚ) ≠ 0 := by exact_mod_cast hb.pos.ne'
  obtain ⟨r, h1, h2, h3⟩ := C28_new (a.num * b.den - b.num * a.den) (a.den * b.den)
    (mul_ne_zero ha.pos.ne' hb.pos.ne')
  refine ⟨r, h1, h2, ?_⟩
  rw [h3]; unfold R.val; push_cast; field_simp

theorem mul_spec {a b : R} (ha : a.Valid) (hb : b.Valid) :
    ∃ r, mul a b = some r ∧ r.Valid ∧ r.val = a.val * b.val := by
  obtain ⟨r, h1, h2, h3⟩ := C28_new (a.num * b.num) (a.den * b.den)
    (mul_ne_zero ha.pos.ne' hb.pos.ne')
  refine ⟨r, h1, h2, ?_⟩
  rw [h3]; unfold R.val; push_cast; rw [div_mul_div_comm]

theorem div_spec {a b : R} (ha : a.Valid) (hb : b.Valid) (h0 : b.val ≠ 0) :
    ∃ r, div a b = .ok r ∧ r.Valid ∧ r.val = a.val / b.val := by
  have hbn : b.num ≠ 0 := fun h => h0 ((val_zero_iff hb).1 h)
  obtain ⟨r, h1, h2, h3⟩ := C28_new (a.num * b.den) (a.den * b.num)
    (mul_ne_zero ha.pos.ne' hbn)
  refine ⟨r, by unfold div; rw [if_neg hbn, h1]; rfl, h2, ?_⟩
  rw [h3]; unfold R.val; push_cast; rw [div_div_div_eq]

/-- Calculations with Rationals. -/
inductive Expr where
  | lit (n d : Int)
  | add (a b : Expr) | sub (a b : Expr) | mul (a b : Expr) | div (a b : Expr)
  | neg (a : Expr) | abs (a : Expr)

/-- The program's result. -/
def Expr.eval : Expr → Res
  | .lit n d => if d = 0 then .zeroDivision else .of (mk n d)
  | .add a b => match a.eval, b.eval with
    | .ok x, .ok y => .of (Rational.add x y)
    | .ok _, e => e
    | e, _ => e
  | .sub a b => match a.eval, b.eval with
    | .ok x, .ok y => .of (Rational.sub x y)
    | .ok _, e => e
    | e, _ => e
  | .mul a b => match a.eval, b.eval with
    | .ok x, .ok y => .of (Rational.mul x y)
    | .ok _, e => e
    | e, _ => e
  | .div a b => match a.eval, b.eval with
    | .ok x, .ok y => Rational.div x y
    | .ok _, e => e
    | e, _ => e
  | .neg a => match a.eval with | .ok x => .ok (Rational.neg x) | e => e
  | .abs a => match a.eval with | .ok x => .ok (Rational.abs x) | e => e

/-- The number, or `none` when somewhere a division by zero is met. -/
def Expr.value : Expr → Option ℚ
  | .lit n d => if d = 0 then none else some ((n : ℚ) / d)
  | .add a b => a.value.bind fun x => b.value.map fun y => x + y
  | .sub a b => a.value.bind fun x => b.value.map fun y => x - y
  | .mul a b => a.value.bind fun x => b.value.map fun y => x * y
  | .div a b => a.value.bind fun x => b.value.bind fun y => if y = 0 then none else some (x / y)
  | .neg a => a.value.map fun x => -x
  | .abs a => a.value.map fun x => |x|

/-- **C28.**  Every calculation gives exactly the number it denotes, as a pair in lowest terms with
a positive denominator, or raises `ZeroDivisionError` exactly if it divides by zero; it never
panics. -/
theorem C28_calculations_exact (e : Expr) :
    match e.eval with
    | .ok r => r.Valid ∧ e.value = some r.val
    | .zeroDivision => e.value = none
    | .panic => False := by
  induction e with
  | lit n d =>
    unfold Expr.eval Expr.value
    by_cases hd : d = 0
    · rw [if_pos hd, if_pos hd]
    · rw [if_neg hd, if_neg hd]
      obtain ⟨r, h1, h2, h3⟩ := C28_new n d hd
      rw [h1]
      exact ⟨h2, by rw [h3]⟩
  | add a b iha ihb =>
    unfold Expr.eval Expr.value
    rcases ha : a.eval with x | _ | _ <;> rw [ha] at iha <;> dsimp only at iha
    · rcases hb : b.eval with y | _ | _ <;> rw [hb] at ihb <;> dsimp only at ihb
      · obtain ⟨r, h1, h2, h3⟩ := add_spec iha.1 ihb.1
        dsimp only
        rw [h1]
        exact ⟨h2, by rw [iha.2, ihb.2, h3]; rfl⟩
      · rw [iha.2, ihb]; rfl
    · rw [iha]; rfl
  | sub a b iha ihb =>
    unfold Expr.eval Expr.value
    rcases ha : a.eval with x | _ | _ <;> rw [ha] at iha <;> dsimp only at iha
    · rcases hb : b.eval with y | _ | _ <;> rw [hb] at ihb <;> dsimp only at ihb
      · obtain ⟨r, h1, h2, h3⟩ := sub_spec iha.1 ihb.1
        dsimp only
        rw [h1]
        exact ⟨h2, by rw [iha.2, ihb.2, h3]; rfl⟩
      · rw [iha.2, ihb]; rfl
    · rw [iha]; rfl
  | mul a b iha ihb =>
    unfold Expr.eval Expr.value
    rcases ha : a.eval with x | _ | _ <;> rw [ha] at iha <;> dsimp only at iha
    · rcases hb : b.eval with y | _ | _ <;> rw [hb] at ihb <;> dsimp only at ihb
      · obtain ⟨r, h1, h2, h3⟩ := mul_spec iha.1 ihb.1
        dsimp only
        rw [h1]
        exact ⟨h2, by rw [iha.2, ihb.2, h3]; rfl⟩
      · rw [iha.2, ihb]; rfl
    · rw [iha]; rfl
  | div a b iha ihb =>
    unfold Expr.eval Expr.value
    rcases ha : a.eval with x | _ | _ <;> rw [ha] at iha <;> dsimp only at iha
    · rcases hb : b.eval with y | _ | _ <;> rw [hb] at ihb <;> dsimp only at ihb
      · dsimp only
        rw [iha.2, ihb.2]
        by_cases h0 : y.val = 0
        · have : Rational.div x y = .zeroDivision := by
            unfold Rational.div; rw [if_pos ((val_zero_iff ihb.1).2 h0)]
          rw [this]
          simp [h0]
        · obtain ⟨r, h1, h2, h3⟩ := div_spec iha.1 ihb.1 h0
          rw [h1]
          exact ⟨h2, by simp [h0, h3]⟩
      · rw [iha.2, ihb]; rfl
    · rw [iha]; rfl
  | neg a iha =>
    unfold Expr.eval Expr.value
    rcases ha : a.eval with x | _ | _ <;> rw [ha] at iha <;> dsimp only at iha
    · exact ⟨(neg_spec iha.1).1, by rw [iha.2, (neg_spec iha.1).2]; rfl⟩
    · rw [iha]; rfl
  | abs a iha =>
    unfold Expr.eval Expr.value
    rcases ha : a.eval with x | _ | _ <;> rw [ha] at iha <;> dsimp only at iha
    · exact ⟨(abs_spec iha.1).1, by rw [iha.2, (abs_spec iha.1).2]; rfl⟩
    · rw [iha]; rfl

example : (Expr.div (.sub (.lit 1 2) (.lit 3 (-4))) (.lit 5 6)).eval = .ok ⟨3, 2⟩ := by decide
example : (Expr.div (.lit 1 2) (.sub (.lit 1 3) (.lit 2 6))).eval = .zeroDivision := by decide

theorem asU32_of_lt {n : Int} (h0 : 0 ≤ n) (h : n < 2 ^ 32) : asU32 n = n.toNat := by
  unfold asU32; rw [Int.emod_eq_of_lt h0 h]

/-- **C28, powers.**  `**` with an Integer exponent below 2^32 in size is the exact power (and a
negative power of zero raises).  Missing: larger exponents (`C28_pow_exponent_wraps`). -/
theorem C28_pow_partial (a : R) (ha : a.Valid) (k : Int) (hk : |k| < 2 ^ 32) :
    if a.val = 0 ∧ k < 0 then powInt a k = .zeroDivision
    else ∃ r, powInt a k = .ok r ∧ r.Valid ∧ r.val = a.val ^ k := by
  have hda : (a.den : ℚ) ≠ 0 := by exact_mod_cast ha.pos.ne'
  have hk1 : k < 2 ^ 32 := lt_of_abs_lt hk
  have hk2 : -(2 ^ 32) < k := neg_lt_of_abs_lt hk
  have one : ∀ x : ℚ, x = 1 → ∃ r, PowRes.of (mk 1 1) = .ok r ∧ r.Valid ∧ r.val = x := by
    intro x hx
    obtain ⟨r, h1, h2, h3⟩ := C28_new 1 1 (by decide)
    exact ⟨r, by rw [h1]; rfl, h2, by rw [h3, hx]; norm_num⟩
  unfold powInt
  by_cases hk0 : k = 0
  · rw [if_neg (by omega), if_pos hk0]
    exact one _ (by rw [hk0, zpow_zero])
  rw [if_neg hk0]
  by_cases hn : a.num = 0
  · rw [if_pos hn]
    have hv := (val_zero_iff ha).1 hn
    by_cases hneg : k < 0
    · rw [if_pos ⟨hv, hneg⟩, if_pos hneg]
    · rw [if_neg (by tauto), if_neg hneg]
      obtain ⟨r, h1, h2, h3⟩ := C28_new 0 1 (by decide)
      exact ⟨r, by rw [h1]; rfl, h2, by rw [h3, hv, zero_zpow _ hk0]; norm_num⟩
  have hv : a.val ≠ 0 := fun h => hn ((val_zero_iff ha).2 h)
  rw [if_neg hn, if_neg (by tauto)]
  by_cases h1 : a.num = 1 ∧ a.den = 1
  · rw [if_pos h1]
    refine one _ ?_
    unfold R.val; rw [h1.1, h1.2]; norm_num
  rw [if_neg h1]
  by_cases hm1 : a.num = -1 ∧ a.den = 1
  · rw [if_pos hm1]
    obtain ⟨r, e1, e2, e3⟩ := C28_new (if k.tmod 2 = 0 then 1 else -1) 1 (by decide)
    refine ⟨r, by rw [e1]; rfl, e2, ?_⟩
    rw [e3]
    have hval : a.val = -1 := by unfold R.val; rw [hm1.1, hm1.2]; norm_num
    rw [hval]
    have htm : k.tmod 2 = 0 ↔ Even k := by
      rw [Int.even_iff, ← Int.dvd_iff_tmod_eq_zero, ← Int.dvd_iff_emod_eq_zero]
    by_cases he : Even k
    · rw [if_pos (htm.2 he), he.neg_one_zpow]; norm_num
    · rw [if_neg (fun h => he (htm.1 h)), (Int.not_even_iff_odd.1 he).neg_one_zpow]; norm_num
  rw [if_neg hm1, if_neg (by omega)]
  by_cases hpos : 0 ≤ k
  · rw [if_pos hpos, asU32_of_lt hpos hk1]
    obtain ⟨r, e1, e2, e3⟩ := C28_new (a.num ^ k.toNat) (a.den ^ k.toNat)
      (pow_ne_zero _ ha.pos.ne')
    refine ⟨r, by rw [e1]; rfl, e2, ?_⟩
    rw [e3]; unfold R.val; push_cast
    rw [← div_pow, ← zpow_natCast, Int.toNat_of_nonneg hpos]
  · rw [if_neg hpos, asU32_of_lt (by omega) (by omega)]
    obtain ⟨r, e1, e2, e3⟩ := C28_new (a.den ^ (-k).toNat) (a.num ^ (-k).toNat)
      (pow_ne_zero _ hn)
    refine ⟨r, by rw [e1]; rfl, e2, ?_⟩
    rw [e3]; unfold R.val; push_cast
    rw [← div_pow, ← zpow_natCast, Int.toNat_of_nonneg (by omega), zpow_neg, ← inv_zpow, inv_div]

example : powInt ⟨-2, 3⟩ (-3) = .ok ⟨-27, 8⟩ := by decide

/-- **C28 fails for huge exponents.**  The exponent is cut to 32 bits: `Rational(2) ** (2**32)` is
`(1/1)`. -/
theorem C28_pow_exponent_wraps :
    powInt ⟨2, 1⟩ (2 ^ 32) = .ok ⟨1, 1⟩ ∧ R.val ⟨1, 1⟩ ≠ R.val ⟨2, 1⟩ ^ (2 ^ 32 : Int) := by
  refine ⟨by decide, ?_⟩
  have h : (1 : ℚ) < 2 ^ (2 ^ 32 : Int) := one_lt_zpow₀ (by norm_num) (by norm_num)
  have h1 : R.val ⟨1, 1⟩ = 1 := by norm_num [R.val]
  have h2 : R.val ⟨2, 1⟩ = 2 := by norm_num [R.val]
  rw [h1, h2]
  exact h.ne

/-- **C28 fails for `!=` with a big Integer.**  `Rational(2**62) == 2**62` and
`Rational(2**62) != 2**62` are both true. -/
theorem C28_not_equal_to_its_own_bignum :
    eqInt ⟨2 ^ 62, 1⟩ (2 ^ 62) = true ∧ neInt ⟨2 ^ 62, 1⟩ (2 ^ 62) = true := by decide

/-- **C28, equality with an Integer.**  `==` compares the numbers, and so does `!=` for a Fixnum. -/
theorem C28_equality_with_integer_partial (a : R) (ha : a.Valid) (i : Int) :
    (eqInt a i = true ↔ a.val = i) ∧ (isFixnum i = true → (neInt a i = true ↔ a.val ≠ i)) := by
  have key : (a.den == 1 && a.num == i) = true ↔ a.val = i := by
    have hv : R.val ⟨i, 1⟩ = i := by unfold R.val; push_cast; rw [div_one]
    have := (C28_equality a ⟨i, 1⟩ ha ⟨Int.one_pos, by simp⟩).1
    rw [hv] at this
    rw [← this]; unfold eq
    rw [Bool.and_comm]
  refine ⟨key, fun hf => ?_⟩
  unfold neInt
  rw [if_pos hf]
  rw [Bool.not_eq_true', Bool.eq_false_iff, ne_eq, key]

end Verif.Rational
