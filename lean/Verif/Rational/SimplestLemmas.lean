import Verif.Rational.RoundProps

/-! # The search for the simplest fraction: lemmas -/

namespace Verif.Rational

/-- What the two ends of the search satisfy. -/
structure Inv (lo hi : R) (p0 q0 p1 q1 : Int) : Prop where
  det : p1 * q0 - p0 * q1 = 1
  p0n : 0 ≤ p0
  q0p : 1 ≤ q0
  p1p : 1 ≤ p1
  q1n : 0 ≤ q1
  left : p0 = 0 ∨ p0 * lo.den < lo.num * q0
  right : hi.num * q1 < p1 * hi.den

theorem divCeil_spec (a b : Int) (ha : 0 < a) (hb : 0 < b) :
    a ≤ divCeil a b * b ∧ divCeil a b * b < a + b ∧ 1 ≤ divCeil a b := by
  unfold divCeil
  rw [if_neg hb.ne']
  dsimp only
  rw [Int.tdiv_eq_ediv_of_nonneg ha.le, Int.tmod_eq_emod_of_nonneg ha.le]
  have h1 := Int.emod_add_mul_ediv a b
  have h2 := Int.emod_nonneg a hb.ne'
  have h3 := Int.emod_lt_of_pos a hb
  have h4 : 0 ≤ a / b := Int.ediv_nonneg ha.le hb.le
  generalize a / b = q at *
  generalize a % b = r at *
  have hc : r = 0 ∨ (r < 0 ∧ b < 0) ∨ (0 < r ∧ 0 < b) := by omega
  rw [if_pos hc]
  split
  · rename_i h0
    have : q * b = a := by linarith
    refine ⟨by omega, by omega, ?_⟩
    by_contra hq
    have : q = 0 := by omega
    subst this; omega
  · rename_i h0
    have e : (q + 1) * b = b * q + b := by ring
    rw [e]
    refine ⟨by omega, by omega, by omega⟩

theorem ceil_unique (k a b : Int) (hb : 0 < b) (h1 : a ≤ k * b) (h2 : k * b < a + b) :
    ⌈(a : ℚ) / b⌉ = k := by
  have hb' : (0 : ℚ) < b := by exact_mod_cast hb
  rw [Int.ceil_eq_iff]
  constructor
  · rw [lt_div_iff₀ hb']
    have : (k - 1) * b < a := by linarith
    exact_mod_cast this
  · rw [div_le_iff₀ hb']
    exact_mod_cast h1

theorem mk_of_det (p q x y : Int) (hq : 0 < q) (h : x * q - p * y = 1) : mk p q = some ⟨p, q⟩ := by
  have hg : Int.gcd p q = 1 := by
    rw [← Int.isCoprime_iff_gcd_eq_one]
    exact ⟨-y, x, by linarith⟩
  unfold mk
  rw [if_neg hq.ne']
  dsimp only
  rw [if_neg (show ¬ q < 0 by omega), if_neg (show ¬ q < 0 by omega), hg]
  rfl

theorem inv_med {lo hi : R} {p0 q0 p1 q1 : Int} (h : Inv lo hi p0 q0 p1 q1) :
    mk (p0 + p1) (q0 + q1) = some ⟨p0 + p1, q0 + q1⟩ ∧ R.Valid ⟨p0 + p1, q0 + q1⟩ := by
  have := h.q0p; have := h.q1n
  have hdet : p1 * (q0 + q1) - (p0 + p1) * q1 = 1 := by have := h.det; linarith
  refine ⟨mk_of_det _ _ p1 q1 (by omega) hdet, ⟨by show 0 < q0 + q1; omega, ?_⟩⟩
  show Int.gcd (p0 + p1) (q0 + q1) = 1
  rw [← Int.isCoprime_iff_gcd_eq_one]
  exact ⟨-q1, p1, by linarith⟩

theorem cmp_lt (a b : R) : cmp a b = .lt ↔ a.num * b.den < b.num * a.den := by
  unfold cmp; exact compare_lt_iff_lt
theorem cmp_gt (a b : R) : cmp a b = .gt ↔ b.num * a.den < a.num * b.den := by
  unfold cmp; exact compare_gt_iff_gt

section Steps
variable {lo hi : R} {p0 q0 p1 q1 : Int}

theorem inv_bot_left (h : Inv lo hi p0 q0 p1 q1) (hl : 0 < lo.den) (hh : 0 < hi.den)
    (hle : lo.num * hi.den ≤ hi.num * lo.den) : 0 < p1 * lo.den - lo.num * q1 := by
  have h1 : lo.num * hi.den * q1 ≤ hi.num * lo.den * q1 :=
    Int.mul_le_mul_of_nonneg_right hle h.q1n
  have h2 : hi.num * q1 * lo.den < p1 * hi.den * lo.den := Int.mul_lt_mul_of_pos_right h.right hl
  have h3 : 0 < (p1 * lo.den - lo.num * q1) * hi.den := by nlinarith
  exact Int.pos_of_mul_pos_left h3 hh

theorem inv_bot_right (h : Inv lo hi p0 q0 p1 q1) (hl : 0 < lo.den) (hh : 0 < hi.den)
    (hhp : 0 < hi.num)
    (hle : lo.num * hi.den ≤ hi.num * lo.den) : 0 < hi.num * q0 - p0 * hi.den := by
  rcases h.left with h0 | h0
  · have := Int.mul_pos hhp (show 0 < q0 by have := h.q0p; omega)
    rw [h0]; omega
  · have h1 : lo.num * hi.den * q0 ≤ hi.num * lo.den * q0 :=
      Int.mul_le_mul_of_nonneg_right hle (by have := h.q0p; omega)
    have h2 : p0 * lo.den * hi.den < lo.num * q0 * hi.den := Int.mul_lt_mul_of_pos_right h0 hh
    have h3 : 0 < (hi.num * q0 - p0 * hi.den) * lo.den := by nlinarith
    exact Int.pos_of_mul_pos_left h3 hl

/-- The left end moves right, staying below the interval. -/
theorem inv_step_left (h : Inv lo hi p0 q0 p1 q1) (k : Int) (hk : 1 ≤ k)
    (hlt : k * (p1 * lo.den - lo.num * q1) <
      (lo.num * (q0 + q1) - (p0 + p1) * lo.den) + (p1 * lo.den - lo.num * q1)) :
    Inv lo hi (p0 + k * p1) (q0 + k * q1) p1 q1 where
  det := by have := h.det; linarith
  p0n := by have := h.p0n; have := Int.mul_nonneg (show 0 ≤ k by omega) (show 0 ≤ p1 by have := h.p1p; omega); omega
  q0p := by have := h.q0p; have := Int.mul_nonneg (show 0 ≤ k by omega) h.q1n; omega
  p1p := h.p1p
  q1n := h.q1n
  left := by right; nlinarith
  right := h.right

theorem inv_step_right (h : Inv lo hi p0 q0 p1 q1) (k : Int) (hk : 1 ≤ k)
    (hlt : k * (hi.num * q0 - p0 * hi.den) <
      ((p0 + p1) * hi.den - hi.num * (q0 + q1)) + (hi.num * q0 - p0 * hi.den)) :
    Inv lo hi p0 q0 (p1 + k * p0) (q1 + k * q0) where
  det := by have := h.det; linarith
  p0n := h.p0n
  q0p := h.q0p
  p1p := by have := h.p1p; have := Int.mul_nonneg (show 0 ≤ k by omega) h.p0n; omega
  q1n := by have := h.q1n; have := Int.mul_nonneg (show 0 ≤ k by omega) (show 0 ≤ q0 by have := h.q0p; omega); omega
  left := h.left
  right := by nlinarith

/-- Every positive fraction in the interval is at least as large in both parts as the mediant. -/
theorem inv_minimal (h : Inv lo hi p0 q0 p1 q1) (hl : 0 < lo.den) (hh : 0 < hi.den)
    (a b : Int) (ha : 0 < a) (hb : 0 < b)
    (h1 : lo.num * b ≤ a * lo.den) (h2 : a * hi.den ≤ hi.num * b) :
    p0 + p1 ≤ a ∧ q0 + q1 ≤ b := by
  have u : 1 ≤ a * q0 - p0 * b := by
    rcases h.left with h0 | h0
    · rw [h0]; have := Int.mul_pos ha (show 0 < q0 by have := h.q0p; omega); omega
    · have e1 : p0 * lo.den * b < lo.num * q0 * b := Int.mul_lt_mul_of_pos_right h0 hb
      have e2 : lo.num * b * q0 ≤ a * lo.den * q0 :=
        Int.mul_le_mul_of_nonneg_right h1 (by have := h.q0p; omega)
      have e3 : 0 < (a * q0 - p0 * b) * lo.den := by nlinarith
      exact Int.pos_of_mul_pos_left e3 hl
  have v : 1 ≤ p1 * b - a * q1 := by
    have e1 : hi.num * q1 * b < p1 * hi.den * b := Int.mul_lt_mul_of_pos_right h.right hb
    have e2 : a * hi.den * q1 ≤ hi.num * b * q1 := Int.mul_le_mul_of_nonneg_right h2 h.q1n
    have e3 : 0 < (p1 * b - a * q1) * hi.den := by nlinarith
    exact Int.pos_of_mul_pos_left e3 hh
  have eb : b = q0 * (p1 * b - a * q1) + q1 * (a * q0 - p0 * b) := by
    have := h.det
    calc b = b * (p1 * q0 - p0 * q1) := by rw [this, mul_one]
      _ = _ := by ring
  have ea : a = p0 * (p1 * b - a * q1) + p1 * (a * q0 - p0 * b) := by
    have := h.det
    calc a = a * (p1 * q0 - p0 * q1) := by rw [this, mul_one]
      _ = _ := by ring
  have w1 : q0 * 1 ≤ q0 * (p1 * b - a * q1) := Int.mul_le_mul_of_nonneg_left v (by have := h.q0p; omega)
  have w2 : q1 * 1 ≤ q1 * (a * q0 - p0 * b) := Int.mul_le_mul_of_nonneg_left u h.q1n
  have w3 : p0 * 1 ≤ p0 * (p1 * b - a * q1) := Int.mul_le_mul_of_nonneg_left v h.p0n
  have w4 : p1 * 1 ≤ p1 * (a * q0 - p0 * b) := Int.mul_le_mul_of_nonneg_left u (by have := h.p1p; omega)
  constructor <;> omega

end Steps

/-- `r` is in the interval, and no positive fraction in it is smaller in either part. -/
structure Least (lo hi r : R) : Prop where
  valid : r.Valid
  pos : 0 < r.num
  lower : lo.num * r.den ≤ r.num * lo.den
  upper : r.num * hi.den ≤ hi.num * r.den
  least : ∀ a b : Int, 0 < a → 0 < b → lo.num * b ≤ a * lo.den → a * hi.den ≤ hi.num * b →
    r.num ≤ a ∧ r.den ≤ b

/-- The loop finds the least fraction in the interval, within as many turns as the parts of any
fraction in it add up to. -/
theorem loop_spec (lo hi : R) (hl : 0 < lo.den) (hh : 0 < hi.den) (hhp : 0 < hi.num)
    (hle : lo.num * hi.den ≤ hi.num * lo.den) (a b : Int) (ha : 0 < a) (hb : 0 < b)
    (h1 : lo.num * b ≤ a * lo.den) (h2 : a * hi.den ≤ hi.num * b) (fuel : Nat) :
    ∀ p0 q0 p1 q1, Inv lo hi p0 q0 p1 q1 → a + b < p0 + q0 + p1 + q1 + fuel →
      ∃ r, simplestLoop lo hi fuel p0 q0 p1 q1 = some r ∧ Least lo hi r := by
  induction fuel with
  | zero =>
    intro p0 q0 p1 q1 h hf
    obtain ⟨x, y⟩ := inv_minimal h hl hh a b ha hb h1 h2
    push_cast at hf
    omega
  | succ fuel ih =>
    intro p0 q0 p1 q1 h hf
    have := h.p0n; have := h.q0p; have := h.p1p; have := h.q1n
    obtain ⟨hm, hv⟩ := inv_med h
    unfold simplestLoop
    rw [hm]
    dsimp only
    split
    · rename_i hlt
      have hlt := (cmp_lt _ _).1 hlt
      dsimp only at hlt
      obtain ⟨k1, k2, k3⟩ := divCeil_spec (lo.num * (q0 + q1) - (p0 + p1) * lo.den)
        (p1 * lo.den - lo.num * q1) (by omega) (inv_bot_left h hl hh hle)
      generalize divCeil (lo.num * (q0 + q1) - (p0 + p1) * lo.den)
        (p1 * lo.den - lo.num * q1) = k at *
      refine ih _ _ _ _ (inv_step_left h k k3 k2) ?_
      have : k * 1 ≤ k * p1 := Int.mul_le_mul_of_nonneg_left h.p1p (by omega)
      have : 0 ≤ k * q1 := Int.mul_nonneg (by omega) h.q1n
      push_cast at hf
      omega
    · rename_i hnlt
      split
      · rename_i hgt
        have hgt := (cmp_gt _ _).1 hgt.2
        dsimp only at hgt
        obtain ⟨k1, k2, k3⟩ := divCeil_spec ((p0 + p1) * hi.den - hi.num * (q0 + q1))
          (hi.num * q0 - p0 * hi.den) (by omega) (inv_bot_right h hl hh hhp hle)
        generalize divCeil ((p0 + p1) * hi.den - hi.num * (q0 + q1))
          (hi.num * q0 - p0 * hi.den) = k at *
        refine ih _ _ _ _ (inv_step_right h k k3 k2) ?_
        have : k * 1 ≤ k * q0 := Int.mul_le_mul_of_nonneg_left h.q0p (by omega)
        have : 0 ≤ k * p0 := Int.mul_nonneg (by omega) h.p0n
        push_cast at hf
        omega
      · rename_i hngt
        refine ⟨_, rfl, hv, by show 0 < p0 + p1; omega, ?_, ?_, ?_⟩
        · rw [cmp_lt] at hnlt; exact not_lt.1 hnlt
        · rw [cmp_lt] at hnlt
          have hge := not_lt.1 hnlt
          show (p0 + p1) * hi.den ≤ hi.num * (q0 + q1)
          by_contra hc
          apply hngt
          rw [cmp_gt, cmp_gt]
          dsimp only at hge ⊢
          refine ⟨?_, by omega⟩
          refine lt_of_le_of_ne hge (fun he => ?_)
          have e1 : (p0 + p1) * lo.den * hi.den ≤ hi.num * lo.den * (q0 + q1) := by
            rw [← he]
            calc lo.num * (q0 + q1) * hi.den = lo.num * hi.den * (q0 + q1) := by ring
              _ ≤ _ := Int.mul_le_mul_of_nonneg_right hle (by omega)
          have e2 : 0 ≤ (hi.num * (q0 + q1) - (p0 + p1) * hi.den) * lo.den := by nlinarith
          have e3 : 0 ≤ hi.num * (q0 + q1) - (p0 + p1) * hi.den := by
            by_contra hneg
            have := Int.mul_neg_of_neg_of_pos (not_le.1 hneg) hl
            omega
          omega
        · intro a' b' ha' hb' h1' h2'
          exact inv_minimal h hl hh a' b' ha' hb' h1' h2'

/-- The Ruby loop takes the same steps. -/
theorem rbLoop_eq (lo hi : R) (hlv : lo.Valid) (hhv : hi.Valid) (hhp : 0 < hi.num)
    (hle : lo.num * hi.den ≤ hi.num * lo.den) (fuel : Nat) :
    ∀ p0 q0 p1 q1, Inv lo hi p0 q0 p1 q1 →
      rbLoop lo hi fuel p0 q0 p1 q1 = simplestLoop lo hi fuel p0 q0 p1 q1 := by
  have hl := hlv.pos
  have hh := hhv.pos
  have hlq : (lo.den : ℚ) ≠ 0 := by exact_mod_cast hl.ne'
  have hhq : (hi.den : ℚ) ≠ 0 := by exact_mod_cast hh.ne'
  have intV : ∀ i : Int, R.Valid ⟨i, 1⟩ := fun i => ⟨Int.one_pos, by simp⟩
  have intv : ∀ i : Int, R.val ⟨i, 1⟩ = i := fun i => by unfold R.val; push_cast; rw [div_one]
  induction fuel with
  | zero => intro p0 q0 p1 q1 _; rfl
  | succ fuel ih =>
    intro p0 q0 p1 q1 h
    obtain ⟨hm, hv⟩ := inv_med h
    unfold rbLoop simplestLoop
    rw [hm]
    dsimp only
    by_cases hlt : cmp ⟨p0 + p1, q0 + q1⟩ lo = .lt
    · rw [if_pos hlt, if_pos hlt]
      have hlt := (cmp_lt _ _).1 hlt
      dsimp only at hlt
      have hbot := inv_bot_left h hl hh hle
      obtain ⟨k1, k2, k3⟩ := divCeil_spec (lo.num * (q0 + q1) - (p0 + p1) * lo.den)
        (p1 * lo.den - lo.num * q1) (by omega) hbot
      have hce := ceil_unique _ _ _ hbot k1 k2
      have hbq : ((p1 * lo.den - lo.num * q1 : Int) : ℚ) ≠ 0 := by exact_mod_cast hbot.ne'
      generalize divCeil (lo.num * (q0 + q1) - (p0 + p1) * lo.den)
        (p1 * lo.den - lo.num * q1) = k at *
      obtain ⟨x1, e1, v1, w1⟩ := mul_spec hlv (intV (q0 + q1))
      obtain ⟨x2, e2, v2, w2⟩ := sub_spec v1 (intV (p0 + p1))
      obtain ⟨x3, e3, v3, w3⟩ := mul_spec hlv (intV q1)
      obtain ⟨x4, e4, v4, w4⟩ := sub_spec (intV p1) v3
      rw [intv] at w1 w2 w3 w4
      have y2 : x2.val = ((lo.num * (q0 + q1) - (p0 + p1) * lo.den : Int) : ℚ) / lo.den := by
        rw [w2, w1]; unfold R.val; push_cast; field_simp
      have y4 : x4.val = ((p1 * lo.den - lo.num * q1 : Int) : ℚ) / lo.den := by
        rw [w4, w3]; unfold R.val; push_cast; field_simp
      obtain ⟨z, e5, v5, w5⟩ := div_spec v2 v4 (by rw [y4]; exact div_ne_zero hbq hlq)
      have hz : z.val = ((lo.num * (q0 + q1) - (p0 + p1) * lo.den : Int) : ℚ) /
          ((p1 * lo.den - lo.num * q1 : Int) : ℚ) := by
        rw [w5, y2, y4, div_div_div_cancel_right₀ hlq]
      have hc : ceil z 0 = .int k := by
        show Rounded.int (-((-z.num).fdiv z.den)) = _
        rw [← ceil_div _ _ v5.pos, show (z.num : ℚ) / z.den = z.val from rfl, hz, hce]
      rw [e1, e3, Option.bind_some, Option.bind_some, e2, e4]
      dsimp only
      rw [e5]
      dsimp only
      rw [hc]
      exact ih _ _ _ _ (inv_step_left h k k3 k2)
    · rw [if_neg hlt, if_neg hlt]
      have hge : lo.num * (q0 + q1) ≤ (p0 + p1) * lo.den := by
        rw [cmp_lt] at hlt; exact not_lt.1 hlt
      have hiff : (cmp ⟨p0 + p1, q0 + q1⟩ lo = .gt ∧ cmp ⟨p0 + p1, q0 + q1⟩ hi = .gt) ↔
          cmp ⟨p0 + p1, q0 + q1⟩ hi = .gt := by
        refine ⟨fun h => h.2, fun hg => ⟨?_, hg⟩⟩
        rw [cmp_gt] at hg ⊢
        dsimp only at hg ⊢
        refine lt_of_le_of_ne hge (fun he => ?_)
        have e1 : (p0 + p1) * lo.den * hi.den ≤ hi.num * lo.den * (q0 + q1) := by
          rw [← he]
          calc lo.num * (q0 + q1) * hi.den = lo.num * hi.den * (q0 + q1) := by ring
            _ ≤ _ := Int.mul_le_mul_of_nonneg_right hle (by have := h.q0p; have := h.q1n; omega)
        have e2 : hi.num * (q0 + q1) * lo.den < (p0 + p1) * hi.den * lo.den :=
          Int.mul_lt_mul_of_pos_right hg hl
        nlinarith
      by_cases hgt : cmp ⟨p0 + p1, q0 + q1⟩ hi = .gt
      · rw [if_pos hgt, if_pos (hiff.2 hgt)]
        have hgt := (cmp_gt _ _).1 hgt
        dsimp only at hgt
        have hbot := inv_bot_right h hl hh hhp hle
        obtain ⟨k1, k2, k3⟩ := divCeil_spec ((p0 + p1) * hi.den - hi.num * (q0 + q1))
          (hi.num * q0 - p0 * hi.den) (by omega) hbot
        have hce := ceil_unique _ _ _ hbot k1 k2
        have hbq : ((hi.num * q0 - p0 * hi.den : Int) : ℚ) ≠ 0 := by exact_mod_cast hbot.ne'
        generalize divCeil ((p0 + p1) * hi.den - hi.num * (q0 + q1))
          (hi.num * q0 - p0 * hi.den) = k at *
        obtain ⟨x1, e1, v1, w1⟩ := mul_spec hhv (intV (q0 + q1))
        obtain ⟨x2, e2, v2, w2⟩ := sub_spec (intV (p0 + p1)) v1
        obtain ⟨x3, e3, v3, w3⟩ := mul_spec hhv (intV q0)
        obtain ⟨x4, e4, v4, w4⟩ := sub_spec v3 (intV p0)
        rw [intv] at w1 w2 w3 w4
        have y2 : x2.val = (((p0 + p1) * hi.den - hi.num * (q0 + q1) : Int) : ℚ) / hi.den := by
          rw [w2, w1]; unfold R.val; push_cast; field_simp
        have y4 : x4.val = ((hi.num * q0 - p0 * hi.den : Int) : ℚ) / hi.den := by
          rw [w4, w3]; unfold R.val; push_cast; field_simp
        obtain ⟨z, e5, v5, w5⟩ := div_spec v2 v4 (by rw [y4]; exact div_ne_zero hbq hhq)
        have hz : z.val = (((p0 + p1) * hi.den - hi.num * (q0 + q1) : Int) : ℚ) /
            ((hi.num * q0 - p0 * hi.den : Int) : ℚ) := by
          rw [w5, y2, y4, div_div_div_cancel_right₀ hhq]
        have hc : ceil z 0 = .int k := by
          show Rounded.int (-((-z.num).fdiv z.den)) = _
          rw [← ceil_div _ _ v5.pos, show (z.num : ℚ) / z.den = z.val from rfl, hz, hce]
        rw [e1, e3, Option.bind_some, Option.bind_some, e2, e4]
        dsimp only
        rw [e5]
        dsimp only
        rw [hc]
        exact ih _ _ _ _ (inv_step_right h k k3 k2)
      · rw [if_neg hgt, if_neg (fun h => hgt (hiff.1 h))]

end Verif.Rational
