import Verif.Rational.SimplestLemmas

/-!
# C30: rationalize returns the simplest fraction

A fraction is simplest in an interval if it lies in it and every fraction in the interval, in lowest
terms, is at least as large in denominator and in absolute numerator.
-/

namespace Verif.Rational

/-- `r` is the simplest fraction within `eps` of `x`. -/
structure IsSimplest (x eps : ℚ) (r : R) : Prop where
  valid : r.Valid
  close : |r.val - x| ≤ eps
  least : ∀ s : R, s.Valid → |s.val - x| ≤ eps → r.den ≤ s.den ∧ |r.num| ≤ |s.num|

theorem le_iff {a b : R} (ha : 0 < a.den) (hb : 0 < b.den) :
    a.num * b.den ≤ b.num * a.den ↔ a.val ≤ b.val := by
  have hda : (0 : ℚ) < a.den := by exact_mod_cast ha
  have hdb : (0 : ℚ) < b.den := by exact_mod_cast hb
  unfold R.val
  rw [div_le_div_iff₀ hda hdb]
  exact_mod_cast Iff.rfl

theorem num_pos_iff {a : R} (ha : 0 < a.den) : 0 < a.num ↔ 0 < a.val := by
  have hda : (0 : ℚ) < a.den := by exact_mod_cast ha
  unfold R.val
  rw [lt_div_iff₀ hda, zero_mul]
  exact_mod_cast Iff.rfl

theorem isSimplest_neg {x eps : ℚ} {r : R} (h : IsSimplest x eps r) :
    IsSimplest (-x) eps (neg r) where
  valid := (neg_spec h.valid).1
  close := by
    rw [(neg_spec h.valid).2, show -r.val - -x = -(r.val - x) by ring, abs_neg]; exact h.close
  least s hs hc := by
    have := h.least (neg s) (neg_spec hs).1 (by
      rw [(neg_spec hs).2, show -s.val - x = -(s.val - -x) by ring, abs_neg]; exact hc)
    refine ⟨this.1, ?_⟩
    show |(-r.num)| ≤ |s.num|
    have e : |(neg s).num| = |s.num| := abs_neg s.num
    rw [abs_neg, ← e]; exact this.2

theorem init_inv {lo hi : R} (hh : 0 < hi.den) : Inv lo hi 0 1 1 0 where
  det := by decide
  p0n := by decide
  q0p := by decide
  p1p := by decide
  q1n := by decide
  left := .inl rfl
  right := by omega

theorem zero_valid : R.Valid ⟨0, 1⟩ := ⟨by decide, by decide⟩
theorem zero_val : R.val ⟨0, 1⟩ = 0 := by norm_num [R.val]

/-- The search between two bounds. -/
theorem search (lo hi v : R) (hl : lo.Valid) (hh : hi.Valid) (hv : v.Valid) (hvp : 0 < v.val)
    (h1 : lo.val ≤ v.val) (h2 : v.val ≤ hi.val) (fuel : Nat)
    (hf : v.num.natAbs + v.den.natAbs ≤ fuel) :
    ∃ r, simplestLoop lo hi fuel 0 1 1 0 = some r ∧ r.Valid ∧ 0 < r.val ∧
      lo.val ≤ r.val ∧ r.val ≤ hi.val ∧
      ∀ s : R, s.Valid → 0 < s.val → lo.val ≤ s.val → s.val ≤ hi.val →
        r.num ≤ s.num ∧ r.den ≤ s.den := by
  have hvn := (num_pos_iff hv.pos).2 hvp
  have hvd := hv.pos
  obtain ⟨r, e, hr⟩ := loop_spec lo hi hl.pos hh.pos
    ((num_pos_iff hh.pos).2 (lt_of_lt_of_le hvp h2))
    ((le_iff hl.pos hh.pos).2 (le_trans h1 h2)) v.num v.den hvn hv.pos
    ((le_iff hl.pos hv.pos).2 h1) ((le_iff hv.pos hh.pos).2 h2) fuel 0 1 1 0 (init_inv hh.pos)
    (by omega)
  refine ⟨r, e, hr.valid, (num_pos_iff hr.valid.pos).1 hr.pos,
    (le_iff hl.pos hr.valid.pos).1 hr.lower, (le_iff hr.valid.pos hh.pos).1 hr.upper, ?_⟩
  intro s hs hsp hs1 hs2
  exact hr.least s.num s.den ((num_pos_iff hs.pos).2 hsp) hs.pos ((le_iff hl.pos hs.pos).2 hs1)
    ((le_iff hs.pos hh.pos).2 hs2)

theorem mk_neg {a : R} (ha : a.Valid) : mk (-a.num) a.den = some (neg a) := by
  unfold mk
  have hd := ha.pos
  have hn : ¬ a.den < 0 := by omega
  rw [if_neg hd.ne', if_neg hn, if_neg hn]
  dsimp only
  rw [Int.neg_gcd, if_pos (by exact_mod_cast ha.coprime)]
  rfl

theorem simplestPos_spec (value eps : R) (hv : value.Valid) (he : eps.Valid)
    (hlt : |eps.val| < value.val) (fuel : Nat)
    (hf : value.num.natAbs + value.den.natAbs ≤ fuel) :
    ∃ r, simplestPos fuel value eps = some r ∧ rbRationalizePos fuel value eps = some r ∧
      IsSimplest value.val |eps.val| r := by
  have hvp : 0 < value.val := lt_of_le_of_lt (abs_nonneg _) hlt
  have ha := abs_spec he
  obtain ⟨lo, e1, v1, w1⟩ := sub_spec hv ha.1
  obtain ⟨hi, e2, v2, w2⟩ := add_spec hv ha.1
  rw [ha.2] at w1 w2
  have hab := abs_nonneg eps.val
  obtain ⟨r, e3, hr1, hr2, hr3, hr4, hr5⟩ := search lo hi value v1 v2 hv hvp (by linarith)
    (by linarith) fuel hf
  have hz : mk 0 1 = some ⟨0, 1⟩ := by decide
  have c1 : cmp hi ⟨0, 1⟩ ≠ .lt := by
    rw [C28_cmp _ _ v2 zero_valid, zero_val]
    intro h; have := compare_lt_iff_lt.1 h; linarith
  have c2 : cmp lo ⟨0, 1⟩ = .gt := by
    rw [C28_cmp _ _ v1 zero_valid, zero_val]
    exact compare_gt_iff_gt.2 (by linarith)
  refine ⟨r, ?_, ?_, hr1, ?_, ?_⟩
  · unfold simplestPos
    rw [e1, e2, hz]
    dsimp only
    rw [if_neg c1, c2, if_neg (by decide), e3]
  · unfold rbRationalizePos
    rw [e1, e2, hz]
    dsimp only
    rw [c2, if_neg (by simp), rbLoop_eq lo hi v1 v2 ((num_pos_iff v2.pos).2 (by linarith))
      ((le_iff v1.pos v2.pos).2 (by linarith)) fuel 0 1 1 0 (init_inv v2.pos), e3]
  · rw [abs_le]; constructor <;> linarith
  · intro s hs hc
    rw [abs_le] at hc
    have hsp : 0 < s.val := by linarith
    obtain ⟨q1, q2⟩ := hr5 s hs hsp (by linarith) (by linarith)
    have n1 := (num_pos_iff hs.pos).2 hsp
    have n2 := (num_pos_iff hr1.pos).2 hr2
    exact ⟨q2, by rw [abs_of_pos n1, abs_of_pos n2]; exact q1⟩

/-- **C30, `Float#rationalize(eps)`**, on the exact value of a non-zero Float: when `eps` is smaller
than the value, the search terminates and returns the simplest fraction in the interval.  Missing:
larger `eps`, where the answer is not the simplest one (`C30_interval_with_zero`). -/
theorem C30_float_rationalize_partial (value eps : R) (hv : value.Valid) (he : eps.Valid)
    (hlt : |eps.val| < |value.val|) (fuel : Nat)
    (hf : value.num.natAbs + value.den.natAbs ≤ fuel) :
    ∃ r, findSimplest fuel value eps = some r ∧ IsSimplest value.val |eps.val| r := by
  unfold findSimplest
  split
  · rename_i hneg
    rw [mk_neg hv]
    dsimp only
    have hvn : value.val < 0 := by
      by_contra h; have := (val_nonneg_iff hv).2 (not_lt.1 h); omega
    have ha := abs_spec he
    obtain ⟨r, h1, _, h2⟩ := simplestPos_spec (neg value) (abs eps) (neg_spec hv).1 ha.1
      (by rw [(neg_spec hv).2, ha.2, abs_abs, ← abs_of_neg hvn]; exact hlt) fuel
      (by show (-value.num).natAbs + value.den.natAbs ≤ fuel; rwa [Int.natAbs_neg])
    rw [h1]
    refine ⟨neg r, rfl, ?_⟩
    have := isSimplest_neg h2
    rwa [(neg_spec hv).2, neg_neg, ha.2, abs_abs] at this
  · rename_i hnn
    have hvn : 0 ≤ value.val := (val_nonneg_iff hv).1 (by omega)
    obtain ⟨r, h1, _, h2⟩ := simplestPos_spec value eps hv he
      (by rw [← abs_of_nonneg hvn]; exact hlt) fuel hf
    exact ⟨r, h1, h2⟩

example : findSimplest 6 ⟨3, 10⟩ ⟨1, 50⟩ = some ⟨2, 7⟩ := by decide +kernel
example : findSimplest 9 ⟨-314159, 100000⟩ ⟨1, 100⟩ = some ⟨-22, 7⟩ := by decide +kernel

/-- **C30, `Rational#rationalize(eps)`**: for every receiver and every Rational or Integer `eps` the
search terminates and returns the simplest fraction in the interval. -/
theorem C30_rational_rationalize (value eps : R) (hv : value.Valid) (he : eps.Valid) (fuel : Nat)
    (hf : value.num.natAbs + value.den.natAbs ≤ fuel) :
    ∃ r, rbRationalize fuel value eps = some r ∧ IsSimplest value.val |eps.val| r := by
  have main : ∀ v : R, v.Valid → ∀ e : R, e.Valid → 0 ≤ v.val →
      v.num.natAbs + v.den.natAbs ≤ fuel →
      ∃ r, rbRationalizePos fuel v e = some r ∧ IsSimplest v.val |e.val| r := by
    intro v hv e he hnn hf
    by_cases hlt : |e.val| < v.val
    · obtain ⟨r, _, h1, h2⟩ := simplestPos_spec v e hv he hlt fuel hf
      exact ⟨r, h1, h2⟩
    · have ha := abs_spec he
      obtain ⟨lo, e1, v1, w1⟩ := sub_spec hv ha.1
      obtain ⟨hi, e2, v2, w2⟩ := add_spec hv ha.1
      rw [ha.2] at w1 w2
      have hz : mk 0 1 = some ⟨0, 1⟩ := by decide
      have c2 : cmp lo ⟨0, 1⟩ ≠ .gt := by
        rw [C28_cmp _ _ v1 zero_valid, zero_val]
        intro h; have := compare_gt_iff_gt.1 h; linarith
      refine ⟨⟨0, 1⟩, ?_, zero_valid, ?_, ?_⟩
      · unfold rbRationalizePos
        rw [e1, e2, hz]
        dsimp only
        rw [if_pos c2]
      · rw [zero_val, zero_sub, abs_neg, abs_of_nonneg hnn]; exact not_lt.1 hlt
      · intro s hs _
        exact ⟨hs.pos, by rw [show |(R.mk 0 1).num| = 0 from abs_zero]; exact abs_nonneg _⟩
  unfold rbRationalize
  split
  · rename_i hneg
    have hvn : value.val < 0 := by
      by_contra h; have := (val_nonneg_iff hv).2 (not_lt.1 h); omega
    have ha := abs_spec he
    obtain ⟨r, h1, h2⟩ := main (neg value) (neg_spec hv).1 (abs eps) ha.1
      (by rw [(neg_spec hv).2]; linarith)
      (by show (-value.num).natAbs + value.den.natAbs ≤ fuel; rwa [Int.natAbs_neg])
    rw [h1]
    refine ⟨neg r, rfl, ?_⟩
    have := isSimplest_neg h2
    rwa [(neg_spec hv).2, neg_neg, ha.2, abs_abs] at this
  · exact main value hv eps he ((val_nonneg_iff hv).1 (by omega)) hf

example : rbRationalize 6 ⟨3, 10⟩ ⟨1, 50⟩ = some ⟨2, 7⟩ := by decide +kernel
example : rbRationalize 6 ⟨-3, 10⟩ ⟨1, 2⟩ = some ⟨0, 1⟩ := by decide +kernel

/-- **C30, uniqueness.**  There is only one simplest fraction when zero is not in the interval, so
the two methods agree there. -/
theorem C30_simplest_unique (x eps : ℚ) (hx : eps < |x|) (r s : R) (hr : IsSimplest x eps r)
    (hs : IsSimplest x eps s) : r = s := by
  obtain ⟨a1, a2⟩ := hr.least s hs.valid hs.close
  obtain ⟨b1, b2⟩ := hs.least r hr.valid hr.close
  have hd : r.den = s.den := le_antisymm a1 b1
  have hn : |r.num| = |s.num| := le_antisymm a2 b2
  have hc1 := abs_le.1 hr.close
  have hc2 := abs_le.1 hs.close
  have hsign : r.num = s.num := by
    rcases le_total 0 x with h | h
    · rw [abs_of_nonneg h] at hx
      have p1 := (num_pos_iff hr.valid.pos).2 (show 0 < r.val by linarith)
      have p2 := (num_pos_iff hs.valid.pos).2 (show 0 < s.val by linarith)
      rwa [abs_of_pos p1, abs_of_pos p2] at hn
    · rw [abs_of_nonpos h] at hx
      have p1 : ¬ 0 ≤ r.num := by
        rw [val_nonneg_iff hr.valid]; intro h'; linarith
      have p2 : ¬ 0 ≤ s.num := by
        rw [val_nonneg_iff hs.valid]; intro h'; linarith
      rw [abs_of_neg (not_le.1 p1), abs_of_neg (not_le.1 p2)] at hn
      omega
  cases r; cases s; simp_all

/-- The search on a positive value with an `eps` at least as large. -/
theorem simplestPos_zero (value eps : R) (hv : value.Valid) (he : eps.Valid) (hvp : 0 < value.val)
    (hge : value.val ≤ |eps.val|) (fuel : Nat)
    (hf : value.num.natAbs + value.den.natAbs ≤ fuel) :
    ∃ r, simplestPos fuel value eps = some r ∧ r.Valid ∧ 0 < r.val ∧
      |r.val - value.val| ≤ |eps.val| := by
  have ha := abs_spec he
  obtain ⟨lo, e1, v1, w1⟩ := sub_spec hv ha.1
  obtain ⟨hi, e2, v2, w2⟩ := add_spec hv ha.1
  rw [ha.2] at w1 w2
  have hz : mk 0 1 = some ⟨0, 1⟩ := by decide
  have c1 : cmp hi ⟨0, 1⟩ ≠ .lt := by
    rw [C28_cmp _ _ v2 zero_valid, zero_val]
    intro h; have := compare_lt_iff_lt.1 h; linarith
  have hlo : ∃ lo', (if cmp lo ⟨0, 1⟩ = .lt then ⟨0, 1⟩ else lo) = lo' ∧ lo'.Valid ∧ lo'.val = 0 := by
    refine ⟨_, rfl, ?_⟩
    split
    · exact ⟨zero_valid, zero_val⟩
    · rename_i h
      refine ⟨v1, le_antisymm (by linarith) (not_lt.1 fun h' => h ?_)⟩
      rw [C28_cmp _ _ v1 zero_valid, zero_val]
      exact compare_lt_iff_lt.2 h'
  obtain ⟨lo', hl1, hl2, hl3⟩ := hlo
  obtain ⟨r, e3, hr1, hr2, hr3, hr4, -⟩ := search lo' hi value hl2 v2 hv hvp
    (by linarith) (by linarith) fuel hf
  refine ⟨r, ?_, hr1, hr2, ?_⟩
  · unfold simplestPos
    rw [e1, e2, hz]
    dsimp only
    rw [if_neg c1, hl1, e3]
  · rw [abs_le]; constructor <;> linarith

/-- **C30 fails for `Float#rationalize(eps)` whenever zero is in the interval.**  The answer should
be `(0/1)`; the search clamps the interval at zero but never looks at zero itself, and returns a
non-zero fraction: `0.5.rationalize(Rational(1, 2))` is `(1/1)`. -/
theorem C30_interval_with_zero (value eps : R) (hv : value.Valid) (he : eps.Valid)
    (h0 : value.val ≠ 0) (hge : |value.val| ≤ |eps.val|) (fuel : Nat)
    (hf : value.num.natAbs + value.den.natAbs ≤ fuel) :
    ∃ r, findSimplest fuel value eps = some r ∧ r.val ≠ 0 ∧ ¬ IsSimplest value.val |eps.val| r := by
  have no : ∀ r : R, r.Valid → r.val ≠ 0 → ¬ IsSimplest value.val |eps.val| r := by
    intro r hr hr0 hs
    have := (hs.least ⟨0, 1⟩ zero_valid (by
      rw [zero_val, zero_sub, abs_neg]; exact hge)).2
    rw [show |(R.mk 0 1).num| = 0 from abs_zero] at this
    have h : r.num = 0 := abs_eq_zero.1 (le_antisymm this (abs_nonneg _))
    exact hr0 ((val_zero_iff hr).1 h)
  unfold findSimplest
  split
  · rename_i hneg
    rw [mk_neg hv]
    dsimp only
    have hvn : value.val < 0 := by
      by_contra h; have := (val_nonneg_iff hv).2 (not_lt.1 h); omega
    have ha := abs_spec he
    obtain ⟨r, h1, h2, h3, h4⟩ := simplestPos_zero (neg value) (abs eps) (neg_spec hv).1 ha.1
      (by rw [(neg_spec hv).2]; linarith)
      (by rw [(neg_spec hv).2, ha.2, abs_abs, ← abs_of_neg hvn]; exact hge) fuel
      (by show (-value.num).natAbs + value.den.natAbs ≤ fuel; rwa [Int.natAbs_neg])
    rw [h1]
    have hne : (neg r).val ≠ 0 := by rw [(neg_spec h2).2]; exact neg_ne_zero.2 h3.ne'
    exact ⟨neg r, rfl, hne, no _ (neg_spec h2).1 hne⟩
  · rename_i hnn
    have hvn : 0 ≤ value.val := (val_nonneg_iff hv).1 (by omega)
    obtain ⟨r, h1, h2, h3, h4⟩ := simplestPos_zero value eps hv he
      (lt_of_le_of_ne hvn (Ne.symm h0)) (by rw [← abs_of_nonneg hvn]; exact hge) fuel hf
    exact ⟨r, h1, h3.ne', no r h2 h3.ne'⟩

example : findSimplest 3 ⟨1, 2⟩ ⟨1, 2⟩ = some ⟨1, 1⟩ := by decide +kernel
example : R.Valid ⟨1, 2⟩ ∧ R.val ⟨1, 2⟩ ≠ 0 ∧ |R.val ⟨1, 2⟩| ≤ |R.val ⟨1, 2⟩| :=
  ⟨⟨by decide, by decide⟩, by norm_num [R.val], le_refl _⟩

end Verif.Rational
