import Verif.ComplexNum.Model
import Mathlib.NumberTheory.Zsqrtd.Basic
import Mathlib.Tactic.FieldSimp
import Mathlib.Tactic.Ring
import Mathlib.Tactic.Linarith
import Mathlib.Tactic.LinearCombination
import Mathlib.Tactic.NormNum

/-!
# C147: Complex arithmetic

The specification is Mathlib's `ℤ√(-1)`, the Gaussian integers, for Complex numbers with Integer
parts, and pairs of rational numbers for those with Integer and Rational parts.
-/

namespace Verif.ComplexNum

variable {F : Type} [FloatOps F]

/-- The Complex with Integer parts for a Gaussian integer. -/
def gi (z : ℤ√(-1)) : Cx F := ⟨.int z.re, .int z.im⟩

/-- The exact value of a component: none for a Float. -/
def val : N F → Option ℚ
  | .int n => some n
  | .rat q => some q
  | .flt _ => none

/-- A component as Ruby shows an exact result: an Integer, or a Rational that is not whole. -/
def Canonical : N F → Prop
  | .int _ => True
  | .rat q => q.den ≠ 1
  | .flt _ => False

/-! ## Integer parts -/

/-- `+`, `-`, `*`, `-@`, `conjugate`, `abs2` on Complex numbers with Integer parts are those of the
Gaussian integers, without rounding, and the parts stay Integers. -/
theorem C147_ring_partial (z w : ℤ√(-1)) :
    add (gi z) (gi w) = (gi (z + w) : Cx F) ∧ sub (gi z) (gi w) = (gi (z - w) : Cx F) ∧
    mul (gi z) (gi w) = (gi (z * w) : Cx F) ∧ neg (gi z) = (gi (-z) : Cx F) ∧
    conj (gi z) = (gi (star z) : Cx F) ∧ abs2 (gi z : Cx F) = .int z.norm := by
  refine ⟨rfl, ?_, ?_, rfl, rfl, ?_⟩
  · simp [sub, cSub, gi, rSub, RK.sub, RK.from, RK.toN]
  · simp only [mul, cMul, gi, rSub, rMul, rAdd, RK.sub, RK.mul, RK.add, RK.from, RK.toN,
      Zsqrtd.re_mul, Zsqrtd.im_mul]
    congr 2
    ring
  · simp only [abs2, gi, rMul, rAdd, RK.mul, RK.add, RK.from, RK.toN, Zsqrtd.norm]
    congr 1
    ring

example : mul (⟨.int 2, .int 3⟩ : Cx F) ⟨.int 4, .int (-1)⟩ = ⟨.int 11, .int 10⟩ := rfl

/-- With an Integer on either side it is the same as with the Complex of it. -/
theorem C147_integer (z : ℤ√(-1)) (n : ℤ) :
    addReal (gi z) (.int n) = (gi (z + n) : Cx F) ∧ subReal (gi z) (.int n) = (gi (z - n) : Cx F) ∧
    mulReal (gi z) (.int n) = (gi (z * n) : Cx F) ∧ realAdd (.int n) (gi z) = (gi (n + z) : Cx F) ∧
    realSub (.int n) (gi z) = (gi (n - z) : Cx F) ∧
    realMul (.int n) (gi z) = (gi (n * z) : Cx F) := by
  have e : (ofReal (.int n) : Cx F) = gi (n : ℤ√(-1)) := by simp [ofReal, gi]
  have h := C147_ring_partial (F := F) z n
  have h' := C147_ring_partial (F := F) n z
  refine ⟨?_, ?_, ?_, ?_, ?_, ?_⟩
  · simp only [addReal, e]; exact h.1
  · simp only [subReal, e]; exact h.2.1
  · simp only [mulReal, e]; exact h.2.2.1
  · simp only [realAdd, e]; exact h'.1
  · simp only [realSub, e]; exact h'.2.1
  · simp only [realMul, e]; exact h'.2.2.1

/-- The loop multiplies `result` by the power. -/
theorem powLoop_gi (n : ℕ) : ∀ z w : ℤ√(-1),
    powLoop (gi w) (gi z) n = (gi (w * z ^ n) : Cx F) := by
  induction n using Nat.strong_induction_on with
  | _ n ih =>
    intro z w
    rw [powLoop]
    split
    · next h => simp [h]
    · next h =>
      have hm : n / 2 < n := Nat.div_lt_self (Nat.pos_of_ne_zero h) (by decide)
      have e1 : (if n % 2 = 1 then cMul (gi w) (gi z) else gi w : Cx F) =
          gi (w * z ^ (n % 2)) := by
        split
        · next h1 => rw [h1, pow_one]; exact (C147_ring_partial w z).2.2.1
        · next h1 =>
          have : n % 2 = 0 := by omega
          rw [this, pow_zero, mul_one]
      have e2 : cMul (gi z) (gi z) = (gi (z * z) : Cx F) := (C147_ring_partial z z).2.2.1
      have hn : n % 2 + 2 * (n / 2) = n := by omega
      simp only [e1, e2]
      by_cases h0 : n / 2 = 0
      · rw [if_pos h0, ih _ hm]
        rw [h0] at hn ⊢
        simp only [mul_zero, add_zero] at hn
        rw [hn, pow_zero, mul_one]
      · rw [if_neg h0, ih _ hm]
        congr 1
        calc w * z ^ (n % 2) * (z * z) ^ (n / 2)
            = w * (z ^ (n % 2) * z ^ (2 * (n / 2))) := by rw [← pow_two, ← pow_mul, mul_assoc]
          _ = w * z ^ n := by rw [← pow_add, hn]

/-- `**` with a natural number is the power in the Gaussian integers, without rounding. -/
theorem C147_pow_partial (z : ℤ√(-1)) (n : ℕ) : pow (gi z) n = (gi (z ^ n) : Cx F) := by
  have one : (⟨.int 1, .int 0⟩ : Cx F) = gi 1 := by simp [gi]
  unfold pow
  split
  · next h =>
    have : n = 0 := by omega
    rw [this, pow_zero, one]
  · rw [if_neg (by omega), one, powLoop_gi, one_mul, Int.natAbs_natCast]

example : pow (⟨.int 1, .int 1⟩ : Cx F) 5 = ⟨.int (-4), .int (-4)⟩ := by
  have := C147_pow_partial (F := F) ⟨1, 1⟩ 5
  rw [show ((⟨1, 1⟩ : ℤ√(-1)) ^ 5) = ⟨-4, -4⟩ by decide +kernel] at this
  exact this

/-- The power of a sum of exponents is the product of the powers. -/
theorem C147_pow_add_partial (z : ℤ√(-1)) (m n : ℕ) :
    pow (gi z) ((m + n : ℕ) : ℤ) = mul (pow (gi z) m) (pow (gi z : Cx F) n) := by
  rw [C147_pow_partial, C147_pow_partial, C147_pow_partial, (C147_ring_partial _ _).2.2.1, pow_add]

/-- A negative power is always Floats, although the reciprocal of a Complex with Integer parts has
Rational parts and `1 / z ** n` gives them. -/
theorem C147_pow_fails (a : Cx F) (n : ℕ) (hn : 0 < n) :
    val (pow a (-(n : ℤ))).re = none ∧ val (pow a (-(n : ℤ))).im = none := by
  unfold pow
  rw [if_neg (by omega), if_pos (by omega)]
  exact ⟨rfl, rfl⟩

/-! ## Division -/

theorem val_nAdd {x y : N F} {p q : ℚ} (hx : val x = some p) (hy : val y = some q) :
    val (nAdd x y) = some (p + q) := by
  cases x <;> cases y <;> simp_all [val, nAdd] <;> rw [← hx, ← hy]

theorem val_nSub {x y : N F} {p q : ℚ} (hx : val x = some p) (hy : val y = some q) :
    val (nSub x y) = some (p - q) := by
  cases x <;> cases y <;> simp_all [val, nSub] <;> rw [← hx, ← hy]

theorem val_nMul {x y : N F} {p q : ℚ} (hx : val x = some p) (hy : val y = some q) :
    val (nMul x y) = some (p * q) := by
  cases x <;> cases y <;> simp_all [val, nMul] <;> rw [← hx, ← hy]

theorem nQuo_eq {x y : N F} {p q : ℚ} (hx : val x = some p) (hy : val y = some q) :
    nQuo x y = ratDiv p q := by
  cases x <;> cases y <;> simp_all [val, nQuo]

theorem nGt_abs {x y : N F} {p q : ℚ} (hx : val x = some p) (hy : val y = some q) :
    nGt (nAbs x) (nAbs y) = decide (|q| < |p|) := by
  cases x <;> cases y <;> simp_all [val, nAbs, nGt] <;> rw [← hx, ← hy] <;> norm_cast

theorem val_canon {q : ℚ} : val (canon (.rat q : N F)) = some q ∧ Canonical (canon (.rat q : N F)) := by
  unfold canon
  by_cases h : q.den = 1
  · simp only [h, ite_true, val, Canonical, and_true]
    rw [← Rat.den_eq_one_iff q |>.mp h]
    simp
  · simp only [h, ite_false, val, Canonical]
    simp [h]

/-- `/` and `quo` of Complex numbers with exact parts are exact: the quotient times the divisor is
the dividend, and the parts of the quotient are Integers where they are whole. -/
theorem C147_div (a b : Cx F) {p q r s : ℚ} (h1 : val a.re = some p) (h2 : val a.im = some q)
    (h3 : val b.re = some r) (h4 : val b.im = some s) (h0 : ¬(r = 0 ∧ s = 0)) :
    ∃ c x y, div a b = some c ∧ val c.re = some x ∧ val c.im = some y ∧
      Canonical c.re ∧ Canonical c.im ∧ x * r - y * s = p ∧ x * s + y * r = q := by
  have one : val (.int 1 : N F) = some 1 := by simp [val]
  unfold div
  rw [nGt_abs h3 h4]
  by_cases hg : |s| < |r|
  · have hr : r ≠ 0 := by
      rintro rfl
      simp only [abs_zero] at hg
      exact absurd (abs_nonneg s) (not_le.mpr hg)
    have hv : val (.rat (s / r) : N F) = some (s / r) := rfl
    have hn : r * (1 + s / r * (s / r)) ≠ 0 := by
      refine mul_ne_zero hr (ne_of_gt ?_)
      have := mul_self_nonneg (s / r)
      linarith
    rw [if_pos (by simpa using hg), nQuo_eq h4 h3, ratDiv, if_neg hr]
    simp only [Option.bind_eq_bind, Option.bind_some]
    rw [nQuo_eq (val_nAdd h1 (val_nMul h2 hv)) (val_nMul h3 (val_nAdd one (val_nMul hv hv))),
      nQuo_eq (val_nSub h2 (val_nMul h1 hv)) (val_nMul h3 (val_nAdd one (val_nMul hv hv))),
      ratDiv, ratDiv, if_neg hn, if_neg hn]
    refine ⟨_, _, _, rfl, val_canon.1, val_canon.1, val_canon.2, val_canon.2, ?_, ?_⟩
    · have hd : r ^ 2 + s ^ 2 ≠ 0 := by
        have := sq_pos_of_ne_zero hr
        have := sq_nonneg s
        linarith
      have e : r * (1 + s / r * (s / r)) = (r ^ 2 + s ^ 2) / r := by field_simp
      rw [e]
      field_simp
      ring
    · have hd : r ^ 2 + s ^ 2 ≠ 0 := by
        have := sq_pos_of_ne_zero hr
        have := sq_nonneg s
        linarith
      have e : r * (1 + s / r * (s / r)) = (r ^ 2 + s ^ 2) / r := by field_simp
      rw [e]
      field_simp
      ring
  · have hs : s ≠ 0 := by
      rintro rfl
      apply h0
      rw [abs_zero] at hg
      exact ⟨abs_eq_zero.mp (le_antisymm (not_lt.mp hg) (abs_nonneg r)), rfl⟩
    have hv : val (.rat (r / s) : N F) = some (r / s) := rfl
    have hn : s * (1 + r / s * (r / s)) ≠ 0 := by
      refine mul_ne_zero hs (ne_of_gt ?_)
      have := mul_self_nonneg (r / s)
      linarith
    have hd : s ^ 2 + r ^ 2 ≠ 0 := by
      have := sq_pos_of_ne_zero hs
      have := sq_nonneg r
      linarith
    have e : s * (1 + r / s * (r / s)) = (s ^ 2 + r ^ 2) / s := by field_simp
    rw [if_neg (by simpa using hg), nQuo_eq h3 h4, ratDiv, if_neg hs]
    simp only [Option.bind_eq_bind, Option.bind_some]
    rw [nQuo_eq (val_nAdd (val_nMul h1 hv) h2) (val_nMul h4 (val_nAdd one (val_nMul hv hv))),
      nQuo_eq (val_nSub (val_nMul h2 hv) h1) (val_nMul h4 (val_nAdd one (val_nMul hv hv))),
      ratDiv, ratDiv, if_neg hn, if_neg hn]
    refine ⟨_, _, _, rfl, val_canon.1, val_canon.1, val_canon.2, val_canon.2, ?_, ?_⟩
    · rw [e]
      field_simp
      ring
    · rw [e]
      field_simp
      ring

example : val (⟨.int 6, .rat (1/2)⟩ : Cx F).im = some (1/2) ∧ ¬((3:ℚ) = 0 ∧ (4:ℚ) = 0) := by
  constructor
  · rfl
  · norm_num

/-- Division by a Complex that is exactly zero raises ZeroDivisionError. -/
theorem C147_div_zero (a b : Cx F) (h3 : val b.re = some 0) (h4 : val b.im = some 0) :
    div a b = none := by
  unfold div
  rw [nGt_abs h3 h4, if_neg (by simp), nQuo_eq h3 h4, ratDiv, if_pos rfl]
  rfl

example : val (⟨.int 0, .rat 0⟩ : Cx F).re = some 0 := by simp [val]

theorem gi_of_canonical {c : Cx F} {x y : ℤ} (h1 : val c.re = some (x : ℚ))
    (h2 : val c.im = some (y : ℚ)) (h3 : Canonical c.re) (h4 : Canonical c.im) :
    c = gi ⟨x, y⟩ := by
  have aux : ∀ (n : N F) (k : ℤ), val n = some (k : ℚ) → Canonical n → n = .int k := by
    intro n k hv hc
    cases n with
    | int m => simp only [val, Option.some.injEq] at hv; rw [Int.cast_inj.mp hv]
    | rat q =>
      simp only [val, Option.some.injEq] at hv
      subst hv
      exact absurd rfl hc
    | flt f => cases hv
  obtain ⟨re, im⟩ := c
  rw [gi, aux re x h1 h3, aux im y h2 h4]

/-- Dividing a product by one of its factors gives the other, with Integer parts again. -/
theorem C147_div_mul (z w : ℤ√(-1)) (h0 : w ≠ 0) :
    div (mul (gi z) (gi w)) (gi w) = some (gi z : Cx F) := by
  rw [(C147_ring_partial z w).2.2.1]
  obtain ⟨c, x, y, hd, hx, hy, hcx, hcy, e1, e2⟩ :=
    C147_div (F := F) (gi (z * w)) (gi w) (p := ((z * w).re : ℤ)) (q := ((z * w).im : ℤ))
      (r := (w.re : ℤ)) (s := (w.im : ℤ)) rfl rfl rfl rfl (by
        rintro ⟨h1, h2⟩
        apply h0
        ext
        · exact_mod_cast h1
        · exact_mod_cast h2)
  have hn : (w.re : ℚ) ^ 2 + (w.im : ℚ) ^ 2 ≠ 0 := by
    intro h
    have h1 : (w.re : ℚ) = 0 := by nlinarith [sq_nonneg (w.re : ℚ), sq_nonneg (w.im : ℚ)]
    have h2 : (w.im : ℚ) = 0 := by nlinarith [sq_nonneg (w.re : ℚ), sq_nonneg (w.im : ℚ)]
    apply h0
    ext
    · exact_mod_cast h1
    · exact_mod_cast h2
  rw [Zsqrtd.re_mul] at e1
  rw [Zsqrtd.im_mul] at e2
  push_cast at e1 e2
  have hxz : x = (z.re : ℤ) := by
    apply mul_right_cancel₀ hn
    linear_combination (w.re : ℚ) * e1 + (w.im : ℚ) * e2
  have hyz : y = (z.im : ℤ) := by
    apply mul_right_cancel₀ hn
    linear_combination (w.re : ℚ) * e2 - (w.im : ℚ) * e1
  rw [hd, gi_of_canonical (hxz ▸ hx) (hyz ▸ hy) hcx hcy]

example : (⟨3, 4⟩ : ℤ√(-1)) ≠ 0 := by decide

/-- Division by an exact real number divides the parts; by zero it raises. -/
theorem C147_div_real (a : Cx F) (x : N F) {p q r : ℚ} (h1 : val a.re = some p)
    (h2 : val a.im = some q) (h3 : val x = some r) :
    (r = 0 → divReal a x = none) ∧
    (r ≠ 0 → ∃ c, divReal a x = some c ∧ val c.re = some (p / r) ∧ val c.im = some (q / r) ∧
      Canonical c.re ∧ Canonical c.im) := by
  unfold divReal
  rw [nQuo_eq h1 h3, nQuo_eq h2 h3]
  constructor
  · intro h
    rw [ratDiv, if_pos h]
    rfl
  · intro h
    rw [ratDiv, if_neg h, ratDiv, if_neg h]
    exact ⟨_, rfl, val_canon.1, val_canon.1, val_canon.2, val_canon.2⟩

/-! ## Rational parts -/

/-- With a Rational on the right, `+`, `-` and `*` are exact. -/
theorem C147_rational_right_partial (a : Cx F) (r : ℚ) {p q : ℚ} (h1 : val a.re = some p)
    (h2 : val a.im = some q) :
    val (addReal a (.rat r)).re = some (p + r) ∧ val (addReal a (.rat r)).im = some q ∧
    val (subReal a (.rat r)).re = some (p - r) ∧ val (subReal a (.rat r)).im = some q ∧
    val (mulReal a (.rat r)).re = some (p * r) ∧ val (mulReal a (.rat r)).im = some (q * r) :=
  ⟨val_nAdd h1 rfl, h2, val_nSub h1 rfl, h2, val_nMul h1 rfl, val_nMul h2 rfl⟩

/-- `-@` of exact parts is exact. -/
theorem C147_neg (a : Cx F) {p q : ℚ} (h1 : val a.re = some p) (h2 : val a.im = some q) :
    val (neg a).re = some (-p) ∧ val (neg a).im = some (-q) := by
  obtain ⟨re, im⟩ := a
  constructor
  · cases re <;> simp_all [neg, nNeg, val] <;> rw [← h1]
  · cases im <;> simp_all [neg, nNeg, val] <;> rw [← h2]

theorem rat_floats (q : ℚ) (y : N F) :
    val (rAdd (.rat q) y) = none ∧ val (rSub (.rat q) y) = none ∧ val (rMul (.rat q) y) = none := by
  cases y <;> exact ⟨rfl, rfl, rfl⟩

/-- A Complex with a Rational part does not compute exactly, although the quotient of two Complex
numbers with Integer parts is one: `+`, `-` with any Complex or with an Integer, `*`, `conjugate`,
`abs2`, and a Rational on the left, give a Float part. -/
theorem C147_rational_fails (q : ℚ) (m : N F) (b : Cx F) (n : ℤ) (a : Cx F) :
    val (add ⟨.rat q, m⟩ b).re = none ∧ val (sub ⟨.rat q, m⟩ b).re = none ∧
    val (addReal ⟨m, .rat q⟩ (.int n)).im = none ∧
    val (mul ⟨.rat q, m⟩ b).re = none ∧ val (conj ⟨m, .rat q⟩).im = none ∧
    val (abs2 ⟨.rat q, m⟩) = none ∧ val (realAdd (.rat q) a).re = none := by
  obtain ⟨bre, bim⟩ := b
  obtain ⟨are, aim⟩ := a
  refine ⟨(rat_floats q _).1, (rat_floats q _).2.1, rfl, ?_, rfl, ?_, ?_⟩
  · cases bre <;> cases m <;> cases bim <;> rfl
  · cases m <;> rfl
  · cases are <;> rfl

/-- So adding a Rational depends on the side. -/
theorem C147_rational_side_fails (q : ℚ) (z : ℤ√(-1)) :
    addReal (gi z) (.rat q) ≠ (realAdd (.rat q) (gi z) : Cx F) := by
  intro h
  have h1 := (C147_rational_right_partial (gi z : Cx F) q (p := z.re) (q := z.im) rfl rfl).1
  rw [h, (C147_rational_fails q (.int 0) (gi z) 0 (gi z)).2.2.2.2.2.2] at h1
  cases h1

/-- And a quotient times its divisor need not be the dividend: 1/2 is divided exactly and then
multiplied as a Float. -/
theorem C147_quotient_fails : ∃ a b c : Cx F, div a b = some c ∧
    val a.re = some 1 ∧ val a.im = some 0 ∧ val b.re = some 2 ∧ val b.im = some 0 ∧
    val (mul c b).re = none := by
  obtain ⟨c, x, y, hd, hx, hy, hcx, hcy, e1, e2⟩ :=
    C147_div (F := F) ⟨.int 1, .int 0⟩ ⟨.int 2, .int 0⟩ (p := 1) (q := 0) (r := 2) (s := 0)
      (by simp [val]) (by simp [val]) (by simp [val]) (by simp [val]) (by norm_num)
  refine ⟨_, _, c, hd, by simp [val], by simp [val], by simp [val], by simp [val], ?_⟩
  have hx2 : x = 1 / 2 := by linarith
  subst hx2
  obtain ⟨re, im⟩ := c
  cases re with
  | int n =>
    simp only [val, Option.some.injEq] at hx
    have : (2 : ℚ) * n = 1 := by rw [hx]; norm_num
    have : (2 : ℤ) * n = 1 := by exact_mod_cast this
    omega
  | rat q => exact (C147_rational_fails q im _ 0 ⟨.int 0, .int 0⟩).2.2.2.1
  | flt f => cases hx

/-! ## Comparison -/

/-- `==` on Integer parts is equality. -/
theorem C147_eq_partial (z w : ℤ√(-1)) (n : ℤ) :
    (eq (gi z : Cx F) (gi w) = true ↔ z = w) ∧
    (eqReal (gi z : Cx F) (.int n) = true ↔ z = n) := by
  constructor
  · simp [eq, gi, RK.from, RK.eq, Zsqrtd.ext_iff]
  · simp only [eqReal, gi, isZero, RK.from, nEq, Zsqrtd.ext_iff, Zsqrtd.re_intCast,
      Zsqrtd.im_intCast]
    by_cases h : z.im = 0 <;> simp [h]

/-- With Rational parts `==` compares Floats: two different Complex numbers are `==` whenever their
parts round to the same Float, while the Rationals themselves are not `==`. -/
theorem C147_eq_fails (p q : ℚ) (hne : p ≠ q) (hr : (FloatOps.ofRat p : F) = FloatOps.ofRat q)
    (he : FloatOps.eq (FloatOps.ofRat q : F) (FloatOps.ofRat q) = true) :
    eq (⟨.rat p, .int 0⟩ : Cx F) ⟨.rat q, .int 0⟩ = true ∧ nEq (.rat p : N F) (.rat q) = false := by
  constructor
  · simp [eq, RK.from, RK.eq, hr, he]
  · simpa [nEq] using hne

/-- Such Rationals exist for every rounding with a smallest positive Float; here it is 1/1000. -/
example : ∃ _ : FloatOps ℚ, ∃ p q : ℚ, p ≠ q ∧
    (FloatOps.ofRat p : ℚ) = FloatOps.ofRat q ∧
    FloatOps.eq (FloatOps.ofRat q : ℚ) (FloatOps.ofRat q) = true :=
  ⟨{ ofInt := fun n => n, ofRat := fun q => if |q| < 1 / 2000 then 0 else q, add := (· + ·),
     sub := (· - ·), mul := (· * ·), div := (· / ·), neg := (- ·), abs := (|·|),
     eq := fun a b => a == b, lt := fun a b => decide (a < b) },
    0, 1 / 3000, by norm_num, by norm_num [abs_of_pos], by simp⟩

/-- `<=>` with an Integer: nil when there is an imaginary part, otherwise the order of the real
part. -/
theorem C147_cmp_partial (z : ℤ√(-1)) (n : ℤ) :
    (z.im ≠ 0 → cmpReal (gi z : Cx F) (.int n) = none) ∧
    (z.im = 0 → cmpReal (gi z : Cx F) (.int n) = some (compare z.re n)) ∧
    (z.im = 0 → cmp (gi z : Cx F) (gi n) = some (compare z.re n)) ∧
    (z.im ≠ 0 → cmp (gi z : Cx F) (gi n) = none ∧ cmp (gi n : Cx F) (gi z) = none) := by
  have key : nCmp (.int z.re : N F) (.int n) = some (compare z.re n) := by
    have g : ∀ x y : ℤ, (nGt (.int x : N F) (.int y) = true ↔ y < x) := by simp [nGt]
    have e : ∀ x y : ℤ, (nEq (.int x : N F) (.int y) = true ↔ x = y) := by simp [nEq]
    unfold nCmp
    rcases lt_trichotomy z.re n with h | h | h
    · rw [if_neg (by rw [g]; omega), if_pos ((g _ _).mpr h), compare_lt_iff_lt.mpr h]
    · rw [if_neg (by rw [g]; omega), if_neg (by rw [g]; omega), if_pos ((e _ _).mpr h),
        compare_eq_iff_eq.mpr h]
    · rw [if_pos ((g _ _).mpr h), compare_gt_iff_gt.mpr h]
  refine ⟨?_, ?_, ?_, ?_⟩
  · intro h
    simp [cmpReal, gi, isZero, RK.from, h]
  · intro h
    simpa [cmpReal, gi, isZero, RK.from, h] using key
  · intro h
    simpa [cmp, gi, isZero, RK.from, h] using key
  · intro h
    simp [cmp, gi, isZero, RK.from, h]

/-- `<=>` with a Rational is always nil, even for the Complex of the same Rational, to which it is
`==`. -/
theorem C147_cmp_fails (a : Cx F) (q : ℚ) :
    cmpReal a (.rat q) = none ∧ eqReal (⟨.rat q, .int 0⟩ : Cx F) (.rat q) = true := by
  constructor
  · unfold cmpReal
    split <;> rfl
  · simp [eqReal, isZero, RK.from, nEq]

/-! ## numerator, denominator, conversions -/

theorem nDen_val {x : N F} {p : ℚ} (h : val x = some p) : nDen x = some p.den ∧ nNum x = some p.num := by
  cases x <;> simp_all [val, nDen, nNum] <;> rw [← h] <;> simp

/-- `denominator` is the smallest positive Integer whose product with the Complex has whole parts,
and `numerator` is that product. -/
theorem C147_denominator (a : Cx F) {p q : ℚ} (h1 : val a.re = some p) (h2 : val a.im = some q) :
    ∃ (d : ℕ) (x y : ℤ), denominator a = some d ∧ numerator a = some (gi ⟨x, y⟩) ∧ 0 < d ∧
      (x : ℚ) = p * d ∧ (y : ℚ) = q * d ∧
      ∀ e : ℕ, (∃ u v : ℤ, (u : ℚ) = p * e ∧ (v : ℚ) = q * e) → d ∣ e := by
  have hd : denominator a = some (Nat.lcm p.den q.den) := by
    simp [denominator, (nDen_val h1).1, (nDen_val h2).1]
  have scale : ∀ (t : ℚ) (d : ℕ), t.den ∣ d → ((t.num * ((d / t.den : ℕ) : ℤ) : ℤ) : ℚ) = t * d := by
    intro t d hdv
    obtain ⟨k, rfl⟩ := hdv
    rw [Nat.mul_div_cancel_left _ t.den_pos]
    push_cast
    rw [← mul_assoc, Rat.mul_den_eq_num]
  have whole : ∀ (t : ℚ) (e : ℕ) (u : ℤ), (u : ℚ) = t * e → t.den ∣ e := by
    intro t e u hu
    have h : (t.num : ℚ) * e = u * t.den := by
      rw [hu, ← Rat.mul_den_eq_num t]
      ring
    have h' : t.num * (e : ℤ) = u * t.den := by exact_mod_cast h
    have hc : IsCoprime (t.den : ℤ) t.num :=
      (Int.isCoprime_iff_gcd_eq_one.mpr (by
        rw [Int.gcd_eq_natAbs, Int.natAbs_natCast, Nat.gcd_comm]
        exact t.reduced))
    have : (t.den : ℤ) ∣ t.num * e := ⟨u, by rw [h']; ring⟩
    exact Int.natCast_dvd_natCast.mp (hc.dvd_of_dvd_mul_left this)
  refine ⟨_, _, _, hd, ?_, Nat.lcm_pos p.den_pos q.den_pos,
    scale p _ (Nat.dvd_lcm_left _ _), scale q _ (Nat.dvd_lcm_right _ _), ?_⟩
  · simp [numerator, hd, nDen_val h1, nDen_val h2, gi]
  · rintro e ⟨u, v, hu, hv⟩
    exact Nat.lcm_dvd (whole p e u hu) (whole q e v hv)

example : val (⟨.rat (1/2), .rat (1/3)⟩ : Cx F).re = some (1/2) := rfl

/-- `to_i` and `to_f` give the real part exactly when the imaginary part is the exact zero, and
`to_r` also when it is 0.0. -/
theorem C147_to_real (a : Cx F) (x : N F) :
    (toReal a = some x ↔ val a.im = some 0 ∧ a.re = x) ∧
    (toR a = some x ↔ (val a.im = some 0 ∨
      ∃ f, a.im = .flt f ∧ FloatOps.eq f (FloatOps.ofInt 0) = true) ∧ a.re = x) := by
  obtain ⟨re, im⟩ := a
  cases im with
  | int n => by_cases h : n = 0 <;> simp [toReal, toR, exactZero, val, h]
  | rat q => by_cases h : q = 0 <;> simp [toReal, toR, exactZero, val, h]
  | flt f => simp [toReal, toR, exactZero, val]

end Verif.ComplexNum
