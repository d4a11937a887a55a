import Verif.IntMeth.Model
import Verif.IntArith.Lemmas
import Mathlib.Data.Int.ModEq
import Mathlib.Tactic.Ring
import Mathlib.Tactic.FieldSimp
import Mathlib.Algebra.Order.Floor.Ring
import Mathlib.Algebra.Order.Archimedean.Basic
import Mathlib.RingTheory.Coprime.Lemmas
import Mathlib.Tactic.Linarith
import Mathlib.Tactic.Positivity
import Mathlib.Tactic.SplitIfs
import Mathlib.Tactic.ByContra

/-!
C110 (`pow` with a modulus), C111 (`floor`, `ceil`, `truncate`, `round` with a number of
digits), C112 (`div`, `ceildiv`, `remainder`, `gcd`, `lcm`).
-/

namespace Verif.IntMeth
open Verif.IntArith (wrap64 asU32 fits64 fits64_iff wrap64_of_fits)

/-! ### C110 -/

theorem i64Arg_ok {n : Int} (h : -(2 ^ 63) ≤ n ∧ n < 2 ^ 63) : i64Arg n = .ok n := by
  simp [i64Arg, (fits64_iff n).2 h]

theorem i64Arg_err {n : Int} (h : ¬ (-(2 ^ 63) ≤ n ∧ n < 2 ^ 63)) : i64Arg n = .error .range := by
  have : fits64 n = false := by
    rw [Bool.eq_false_iff]; intro h'; exact h ((fits64_iff n).1 h')
  simp [i64Arg, this]

theorem tmod_modEq (a m : Int) : a.tmod m ≡ a [ZMOD m] := by
  have h := Int.tmod_add_mul_tdiv a m
  unfold Int.ModEq
  conv_rhs => rw [← h]
  simp

theorem tmod_natAbs_lt (a : Int) {m : Int} (h : m ≠ 0) : (a.tmod m).natAbs < m.natAbs := by
  rw [Int.natAbs_tmod]; exact Nat.mod_lt _ (by omega)

theorem powLoop_modEq (m : Int) : ∀ (e : Nat) (base result : Int),
    powLoop m base result e ≡ result * base ^ e [ZMOD m] := by
  intro e
  induction e using Nat.strongRecOn with
  | ind e ih =>
    intro base result
    rw [powLoop]
    by_cases h : e = 0
    · simp [h]
    · rw [dif_neg h]
      refine (ih (e / 2) (by omega) _ _).trans ?_
      have hb : (base * base).tmod m ^ (e / 2) ≡ (base * base) ^ (e / 2) [ZMOD m] :=
        (tmod_modEq _ _).pow _
      by_cases h1 : e % 2 = 1
      · rw [if_pos h1]
        refine ((tmod_modEq (result * base) m).mul hb).trans ?_
        have : e = 2 * (e / 2) + 1 := by omega
        conv_rhs => rw [this]
        have : (result * base) * (base * base) ^ (e / 2) = result * base ^ (2 * (e / 2) + 1) := by
          rw [pow_succ, pow_mul]; ring
        rw [this]
      · rw [if_neg h1]
        refine ((Int.ModEq.refl result).mul hb).trans ?_
        have : e = 2 * (e / 2) := by omega
        conv_rhs => rw [this]
        have : result * (base * base) ^ (e / 2) = result * base ^ (2 * (e / 2)) := by
          rw [pow_mul]; ring
        rw [this]

/-- The result is a remainder as soon as the start is, or one step was made. -/
theorem powLoop_small (m : Int) (hm : m ≠ 0) : ∀ (e : Nat) (base result : Int),
    (result.natAbs < m.natAbs ∨ 0 < e) → (powLoop m base result e).natAbs < m.natAbs := by
  intro e
  induction e using Nat.strongRecOn with
  | ind e ih =>
    intro base result hs
    rw [powLoop]
    by_cases h : e = 0
    · rw [dif_pos h]; omega
    · rw [dif_neg h]
      apply ih (e / 2) (by omega)
      by_cases h1 : e % 2 = 1
      · rw [if_pos h1]; exact .inl (tmod_natAbs_lt _ hm)
      · right; omega

theorem fmod_unique {x m r : Int} (hm : m ≠ 0) (hc : r ≡ x [ZMOD m])
    (hr : (0 < m → 0 ≤ r ∧ r < m) ∧ (m < 0 → m < r ∧ r ≤ 0)) : r = x.fmod m := by
  have hx : x.fmod m ≡ x [ZMOD m] := by
    have h := Int.fmod_add_mul_fdiv x m
    unfold Int.ModEq
    conv_rhs => rw [← h]
    simp
  have hd : m ∣ r - x.fmod m := (hx.trans hc.symm).dvd
  rcases lt_or_gt_of_ne hm with h | h
  · obtain ⟨h1, h2⟩ := hr.2 h
    have h3 : x.fmod m ≤ 0 := by
      have := Int.fmod_nonneg_of_pos (-x) (b := -m) (by omega)
      rw [Int.neg_fmod_neg] at this; omega
    have h4 : m < x.fmod m := by
      have := Int.fmod_lt_of_pos (-x) (b := -m) (by omega)
      rw [Int.neg_fmod_neg] at this; omega
    have := Int.eq_zero_of_abs_lt_dvd (neg_dvd.2 hd) (by rw [abs_lt]; constructor <;> omega)
    omega
  · obtain ⟨h1, h2⟩ := hr.1 h
    have h3 := Int.fmod_nonneg_of_pos x h
    have h4 := Int.fmod_lt_of_pos x h
    have := Int.eq_zero_of_abs_lt_dvd hd (by rw [abs_lt]; constructor <;> omega)
    omega

/-- `a.pow(e, m)` is `(a ** e) % m`, with the sign of `m`, when exponent and modulus
are machine integers, the modulus is not the least machine integer and it is not the
case `pow(0, 1)`. -/
theorem C110_pow_mod_partial (a m : Int) (e : Nat) (he : (e : Int) < 2 ^ 63)
    (hm : -(2 ^ 63) < m ∧ m < 2 ^ 63) (h0 : m ≠ 0) (h1 : m = 1 → e ≠ 0) :
    powMod a e m = .ok ((a ^ e).fmod m) := by
  unfold powMod
  rw [i64Arg_ok (n := (e : Int)) ⟨by omega, he⟩, i64Arg_ok (n := m) ⟨by omega, hm.2⟩]
  simp only [bind, Except.bind]
  rw [if_neg (by omega), if_neg h0]
  have hab : wrap64 (if m < 0 then -m else m) = |m| := by
    rw [wrap64_of_fits]
    · split
      · rw [abs_of_neg (by assumption)]
      · rw [abs_of_nonneg (by omega)]
    · rw [fits64_iff]; split <;> omega
  rw [hab]
  have hpos : 0 < |m| := abs_pos.2 h0
  have hcong : powLoop |m| (a.tmod |m|) 1 e ≡ a ^ e [ZMOD |m|] := by
    refine (powLoop_modEq _ _ _ _).trans ?_
    rw [one_mul]
    exact (tmod_modEq _ _).pow _
  congr 1
  simp only [Int.toNat_natCast]
  generalize hr : powLoop |m| (a.tmod |m|) 1 e = r at *
  have hsm : r.natAbs < |m|.natAbs ∨ (r = 1 ∧ m = -1) := by
    by_cases hm1 : m = -1 ∧ e = 0
    · right
      refine ⟨?_, hm1.1⟩
      rw [← hr, powLoop, dif_pos hm1.2]
    · left
      rw [← hr]
      apply powLoop_small _ (by omega)
      by_cases he0 : e = 0
      · left
        rcases abs_cases m with h | h <;> omega
      · right; omega
  have key : (if m < 0 ∧ (if r < 0 then r + |m| else r) > 0 then
      (if r < 0 then r + |m| else r) - |m| else (if r < 0 then r + |m| else r)) ≡ a ^ e [ZMOD m] := by
    have hself : |m| ≡ 0 [ZMOD |m|] := by simp [Int.ModEq]
    have : ∀ x : Int, x ≡ a ^ e [ZMOD |m|] → x ≡ a ^ e [ZMOD m] := by
      intro x hx
      have := hx.dvd
      rw [abs_dvd] at this
      exact Int.modEq_iff_dvd.2 this
    apply this
    split_ifs
    · have := (hcong.add hself).sub hself; simpa using this
    · have := hcong.sub hself; simpa using this
    · have := hcong.add hself; simpa using this
    · exact hcong
  apply fmod_unique h0 key
  constructor <;> intro hh <;> rcases abs_cases m with ⟨e1, e2⟩ | ⟨e1, e2⟩ <;>
    split_ifs <;> omega

example : powMod (-7) 13 5 = .ok 3 ∧ ((-7 : Int) ^ 13).fmod 5 = 3 := by
  constructor
  · exact C110_pow_mod_partial (-7) 5 13 (by decide) (by decide) (by decide) (by decide)
  · decide

/-- A zero modulus is refused, a negative exponent too. -/
theorem C110_errors (a m : Int) (e : Int) (he : -(2 ^ 63) ≤ e ∧ e < 2 ^ 63) :
    (0 ≤ e → powMod a e 0 = .error .zeroDiv) ∧ (e < 0 → powMod a e m = .error .range) := by
  constructor <;> intro h <;> unfold powMod <;> rw [i64Arg_ok he] <;> simp only [bind, Except.bind]
  · rw [if_neg (by omega), i64Arg_ok (by omega)]; rfl
  · rw [if_pos h]

/-- `a.pow(0, 1)` gives 1; the remainder of 1 by 1 is 0. -/
theorem C110_mod_one_fails (a : Int) :
    powMod a 0 1 = .ok 1 ∧ (a ^ 0).fmod 1 = 0 := by
  constructor
  · unfold powMod
    rw [i64Arg_ok (by omega), i64Arg_ok (by omega)]
    simp only [bind, Except.bind]
    rw [if_neg (by omega), if_neg (by omega), powLoop]
    rfl
  · simp

/-- With the least machine integer as the modulus the result is out of range. -/
theorem C110_least_mod_fails :
    powMod 3 1 (-(2 ^ 63)) = .ok (3 + 2 ^ 63) ∧ ((3 : Int) ^ 1).fmod (-(2 ^ 63)) = 3 - 2 ^ 63 := by
  constructor
  · decide +kernel
  · decide +kernel

/-- Every modulus or exponent beyond the machine integers is refused. -/
theorem C110_big_args_fails (a e m : Int) (h : ¬ (-(2 ^ 63) ≤ e ∧ e < 2 ^ 63) ∨
    (0 ≤ e ∧ ¬ (-(2 ^ 63) ≤ m ∧ m < 2 ^ 63))) : powMod a e m = .error .range := by
  unfold powMod
  by_cases he : -(2 ^ 63) ≤ e ∧ e < 2 ^ 63
  · rw [i64Arg_ok he]
    simp only [bind, Except.bind]
    rcases h with h | h
    · exact absurd he h
    · rw [if_neg (by omega), i64Arg_err h.2]
  · rw [i64Arg_err he]; rfl

/-! ### C111 -/

theorem unit10_eq {k : Nat} (hk : k < 2 ^ 32) : unit10 (-(k : Int)) = 10 ^ k := by
  unfold unit10 asU32
  rw [neg_neg, wrap64_of_fits ((fits64_iff _).2 (by omega))]
  congr 1
  omega

theorem pos10 (k : Nat) : (0 : Int) < 10 ^ k := by positivity

/-- `n.floor(-k)` is the largest multiple of `10^k` not above `n`. -/
theorem C111_floor_partial (n : Int) (k : Nat) (hk : k < 2 ^ 32) :
    ∃ r, floorD n (-(k : Int)) = .ok r ∧ (10 : Int) ^ k ∣ r ∧ r ≤ n ∧
      ∀ s, (10 : Int) ^ k ∣ s → s ≤ n → s ≤ r := by
  unfold floorD
  rw [i64Arg_ok (by omega)]
  simp only [bind, Except.bind]
  by_cases h : k = 0
  · subst h
    refine ⟨n, by simp, by simp, le_rfl, fun s _ h => h⟩
  · rw [if_neg (by omega), unit10_eq hk]
    have hp := pos10 k
    have h1 := Int.fmod_add_mul_fdiv n (10 ^ k)
    have h2 := Int.fmod_nonneg_of_pos n hp
    have h3 := Int.fmod_lt_of_pos n hp
    refine ⟨_, rfl, Dvd.intro_left _ rfl, by nlinarith, ?_⟩
    rintro s ⟨t, rfl⟩ hs
    have : t ≤ n.fdiv (10 ^ k) := by
      by_contra hc
      have : n.fdiv (10 ^ k) + 1 ≤ t := by omega
      nlinarith
    nlinarith

/-- `n.ceil(-k)` is the smallest multiple of `10^k` not below `n`. -/
theorem C111_ceil_partial (n : Int) (k : Nat) (hk : k < 2 ^ 32) :
    ∃ r, ceilD n (-(k : Int)) = .ok r ∧ (10 : Int) ^ k ∣ r ∧ n ≤ r ∧
      ∀ s, (10 : Int) ^ k ∣ s → n ≤ s → r ≤ s := by
  unfold ceilD
  rw [i64Arg_ok (by omega)]
  simp only [bind, Except.bind]
  by_cases h : k = 0
  · subst h
    refine ⟨n, by simp, by simp, le_rfl, fun s _ h => h⟩
  · rw [if_neg (by omega), unit10_eq hk]
    have hp := pos10 k
    have h1 := Int.fmod_add_mul_fdiv n (10 ^ k)
    have h2 := Int.fmod_nonneg_of_pos n hp
    have h3 := Int.fmod_lt_of_pos n hp
    refine ⟨_, rfl, Dvd.intro_left _ rfl, ?_, ?_⟩
    · unfold divCeil; split <;> nlinarith
    · rintro s ⟨t, rfl⟩ hs
      have : divCeil n (10 ^ k) ≤ t := by
        unfold divCeil
        split
        · by_contra hc
          have : t + 1 ≤ n.fdiv (10 ^ k) := by omega
          nlinarith
        · by_contra hc
          have : t ≤ n.fdiv (10 ^ k) := by omega
          have : 0 < n.fmod (10 ^ k) := by omega
          nlinarith
      nlinarith

/-- `n.truncate(-k)` is `floor` of a non-negative number and `ceil` of a negative one. -/
theorem C111_truncate_partial (n : Int) (k : Nat) (hk : k < 2 ^ 32) :
    truncD n (-(k : Int)) = if 0 ≤ n then floorD n (-(k : Int)) else ceilD n (-(k : Int)) := by
  unfold truncD floorD ceilD
  rw [i64Arg_ok (by omega)]
  simp only [bind, Except.bind]
  by_cases h : k = 0
  · subst h; simp
  · have hneg : ¬ (-(k : Int) ≥ 0) := by omega
    simp only [hneg, if_false]
    rw [unit10_eq hk]
    have hp := pos10 k
    split
    · rw [Int.tdiv_eq_ediv_of_nonneg (by assumption), Int.fdiv_eq_ediv_of_nonneg _ hp.le]
    · congr 2
      have h1 := Int.fmod_add_mul_fdiv n (10 ^ k)
      have h2 := Int.fmod_nonneg_of_pos n hp
      have h3 := Int.fmod_lt_of_pos n hp
      have h4 : n.tdiv (10 ^ k) = -((-n) / 10 ^ k) := by
        rw [← neg_neg n, Int.neg_tdiv, Int.tdiv_eq_ediv_of_nonneg (by omega)]; simp
      rw [h4]
      unfold divCeil
      split
      · have : (-n) / 10 ^ k = -(n.fdiv (10 ^ k)) := by
          rw [Int.ediv_eq_iff_of_pos hp]; constructor <;> nlinarith
        omega
      · have : (-n) / 10 ^ k = -(n.fdiv (10 ^ k)) - 1 := by
          have : 0 < n.fmod (10 ^ k) := by omega
          rw [Int.ediv_eq_iff_of_pos hp]; constructor <;> nlinarith
        omega

/-- Is `q * d` an admissible rounding of `n` to a multiple of `d` under the mode: nearest,
and in a tie away from zero, towards zero, or the even multiple? -/
def IsRounding (half : Half) (n d q : Int) : Prop :=
  2 * |n - q * d| ≤ d ∧
    (2 * |n - q * d| = d → match half with
      | .up => |n| ≤ |q * d|
      | .down => |q * d| ≤ |n|
      | .even => q % 2 = 0)

theorem roundQuot_spec (half : Half) {a d h : Int} (ha : 0 ≤ a) (hd : d = 2 * h) (hp : 0 < h) :
    IsRounding half a d (roundQuot half (a.tdiv d) (a.tmod d) (d.tdiv 2)) := by
  have e0 : d.tdiv 2 = h := by subst hd; simp
  have e1 : a.tdiv d = a / d := Int.tdiv_eq_ediv_of_nonneg ha
  have e2 : a.tmod d = a % d := Int.tmod_eq_emod_of_nonneg ha
  rw [e0, e1, e2]
  have h1 := Int.emod_add_mul_ediv a d
  have h2 := Int.emod_nonneg a (b := d) (by omega)
  have h3 := Int.emod_lt_of_pos a (b := d) (by omega)
  have h4 : 0 ≤ a / d := Int.ediv_nonneg ha (by omega)
  generalize a / d = q at *
  generalize a % d = r at *
  have lo : |a - q * d| = r := by
    have : a - q * d = r := by linarith [mul_comm d q]
    rw [this, abs_of_nonneg h2]
  have hi : |a - (q + 1) * d| = d - r := by
    have : a - (q + 1) * d = -(d - r) := by linarith [mul_comm d q]
    rw [this, abs_neg, abs_of_nonneg (by omega)]
  have q1 : 0 ≤ q * d := mul_nonneg h4 (by omega)
  have q2 : |q * d| ≤ |a| := by
    rw [abs_of_nonneg q1, abs_of_nonneg ha]; linarith [mul_comm d q]
  have q3 : |a| ≤ |(q + 1) * d| := by
    rw [abs_of_nonneg ha, abs_of_nonneg (by nlinarith)]; linarith [mul_comm d q]
  unfold roundQuot IsRounding
  by_cases c1 : r > h
  · rw [if_pos c1, hi]
    exact ⟨by omega, fun h' => absurd h' (by omega)⟩
  · rw [if_neg c1]
    by_cases c2 : r < h
    · rw [if_pos c2, lo]
      exact ⟨by omega, fun h' => absurd h' (by omega)⟩
    · rw [if_neg c2]
      cases half with
      | up => exact ⟨by simp only [hi]; omega, fun _ => q3⟩
      | down => exact ⟨by simp only [lo]; omega, fun _ => q2⟩
      | even =>
        have e3 : q.tmod 2 = q % 2 := Int.tmod_eq_emod_of_nonneg h4
        simp only [e3]
        split
        · exact ⟨by rw [lo]; omega, fun _ => by assumption⟩
        · exact ⟨by rw [hi]; omega, fun _ => by omega⟩

/-- `n.round(-k, half: mode)` is a multiple of `10^k` nearest to `n`, ties by the mode. -/
theorem C111_round_partial (n : Int) (k : Nat) (half : Half) (h0 : 0 < k) (hk : k ≤ 2 ^ 30) :
    ∃ q, roundD n (-(k : Int)) half = .ok (q * 10 ^ k) ∧ IsRounding half n (10 ^ k) q := by
  unfold roundD
  rw [i64Arg_ok (by omega)]
  simp only [bind, Except.bind]
  rw [if_neg (by omega), if_neg (by omega), unit10_eq (by omega)]
  have hd : (10 : Int) ^ k = 2 * (5 * 10 ^ (k - 1)) := by
    have : k = (k - 1) + 1 := by omega
    conv_lhs => rw [this, pow_succ]
    ring
  have hp : (0 : Int) < 5 * 10 ^ (k - 1) := by positivity
  by_cases hn : n < 0
  · simp only [hn, if_true]
    have := roundQuot_spec half (a := -n) (by omega) hd hp
    generalize roundQuot half ((-n).tdiv (10 ^ k)) ((-n).tmod (10 ^ k)) (Int.tdiv (10 ^ k) 2) = q at *
    refine ⟨-q, by rw [neg_mul], ?_⟩
    unfold IsRounding at *
    have e : |n - -q * 10 ^ k| = |(-n) - q * 10 ^ k| := by
      rw [← abs_neg]; congr 1; ring
    rw [e]
    refine ⟨this.1, fun h => ?_⟩
    have := this.2 h
    cases half <;> simp_all
  · simp only [hn, if_false]
    exact ⟨_, rfl, roundQuot_spec half (by omega) hd hp⟩

example : roundD (-25) (-1) .even = .ok (-20) ∧ roundD (-25) (-1) .up = .ok (-30) ∧
    floorD (-25) (-1) = .ok (-30) ∧ ceilD (-25) (-1) = .ok (-20) ∧ truncD 25 (-1) = .ok 20 := by
  decide +kernel

/-- A number of digits that is not negative changes nothing. -/
theorem C111_nonneg (n nd : Int) (half : Half) (h : 0 ≤ nd ∧ nd ≤ 0x3FFFFFFF) :
    floorD n nd = .ok n ∧ ceilD n nd = .ok n ∧ truncD n nd = .ok n ∧ roundD n nd half = .ok n := by
  unfold floorD ceilD truncD roundD
  rw [i64Arg_ok (by omega)]
  simp only [bind, Except.bind]
  rw [if_pos h.1, if_pos h.1, if_pos h.1, if_neg (by omega), if_pos h.1]
  simp

/-- The digits are cut to 32 bits: with `-2^32` digits `floor`, `ceil` and `truncate` give
the number itself, which is not a multiple of `10^(2^32)`. -/
theorem C111_digits_cut_fails (n : Int) :
    floorD n (-(2 ^ 32)) = .ok n ∧ ceilD n (-(2 ^ 32)) = .ok n ∧ truncD n (-(2 ^ 32)) = .ok n := by
  have hu : unit10 (-(2 ^ 32)) = 1 := by decide +kernel
  unfold floorD ceilD truncD
  rw [i64Arg_ok (by omega)]
  simp only [bind, Except.bind]
  rw [if_neg (by omega), if_neg (by omega), if_neg (by omega), hu]
  simp [divCeil]

/-- `round` refuses a number of digits that the other three accept. -/
theorem C111_round_range_fails (n nd : Int) (half : Half) (h : 2 ^ 30 ≤ nd ∧ nd < 2 ^ 31) :
    roundD n nd half = .error .range ∧ floorD n nd = .ok n := by
  unfold roundD floorD
  rw [i64Arg_ok (by omega)]
  simp only [bind, Except.bind]
  rw [if_pos (by omega), if_pos (by omega)]
  simp

/-! ### C112 -/

/-- `div` is the floor of the quotient, `ceildiv` its ceiling. -/
theorem C112_div_ceildiv (a b : Int) (h : b ≠ 0) :
    divM a b = .ok ⌊(a : ℚ) / b⌋ ∧ ceildiv a b = .ok ⌈(a : ℚ) / b⌉ := by
  have key : ∀ x : Int, x.fdiv b = ⌊(x : ℚ) / b⌋ := by
    intro x
    symm
    have h1 := Int.fmod_add_mul_fdiv x b
    have hq : (x : ℚ) / b = x.fdiv b + (x.fmod b : ℚ) / b := by
      have hb : (b : ℚ) ≠ 0 := by exact_mod_cast h
      field_simp
      have : (x : ℚ) = ((x.fmod b + b * x.fdiv b : Int) : ℚ) := by rw [h1]
      rw [this]; push_cast; ring
    rw [Int.floor_eq_iff, hq]
    rcases lt_or_gt_of_ne h with hb | hb
    · have h3 : x.fmod b ≤ 0 := by
        have := Int.fmod_nonneg_of_pos (-x) (b := -b) (by omega)
        rw [Int.neg_fmod_neg] at this; omega
      have h4 : b < x.fmod b := by
        have := Int.fmod_lt_of_pos (-x) (b := -b) (by omega)
        rw [Int.neg_fmod_neg] at this; omega
      have hb' : (b : ℚ) < 0 := by exact_mod_cast hb
      have h3' : (x.fmod b : ℚ) ≤ 0 := by exact_mod_cast h3
      have h4' : (b : ℚ) < x.fmod b := by exact_mod_cast h4
      have i1 := div_nonneg_of_nonpos h3' hb'.le
      have i2 : (x.fmod b : ℚ) / b < 1 := by rw [div_lt_one_of_neg hb']; exact h4'
      constructor <;> linarith
    · have h3 := Int.fmod_nonneg_of_pos x hb
      have h4 := Int.fmod_lt_of_pos x hb
      have hb' : (0 : ℚ) < b := by exact_mod_cast hb
      have h3' : (0 : ℚ) ≤ x.fmod b := by exact_mod_cast h3
      have h4' : (x.fmod b : ℚ) < b := by exact_mod_cast h4
      have i1 := div_nonneg h3' hb'.le
      have i2 : (x.fmod b : ℚ) / b < 1 := by rw [div_lt_one hb']; exact h4'
      constructor <;> linarith
  constructor
  · simp [divM, h, key]
  · simp only [ceildiv, divM, h, if_false, bind, Except.bind]
    rw [key, ← Int.ceil_neg]
    congr 2
    push_cast
    rw [neg_div, neg_neg]

/-- `remainder` has the sign of the receiver: `a = b * q + r` with `|r| < |b|`, and `r` is
zero or has the sign of `a`. -/
theorem C112_remainder (a b : Int) (h : b ≠ 0) :
    ∃ r q, remainder a b = .ok r ∧ a = b * q + r ∧ |r| < |b| ∧ (0 ≤ a → 0 ≤ r) ∧ (a ≤ 0 → r ≤ 0) := by
  have h1 := Int.fmod_add_mul_fdiv a b
  unfold remainder
  rw [if_neg h]
  simp only
  have bnd : (0 < b → 0 ≤ a.fmod b ∧ a.fmod b < b) ∧ (b < 0 → b < a.fmod b ∧ a.fmod b ≤ 0) := by
    constructor
    · intro hb; exact ⟨Int.fmod_nonneg_of_pos a hb, Int.fmod_lt_of_pos a hb⟩
    · intro hb
      constructor
      · have := Int.fmod_lt_of_pos (-a) (b := -b) (by omega)
        rw [Int.neg_fmod_neg] at this; omega
      · have := Int.fmod_nonneg_of_pos (-a) (b := -b) (by omega)
        rw [Int.neg_fmod_neg] at this; omega
  have hzero : a = 0 → a.fmod b = 0 := by rintro rfl; simp
  generalize a.fmod b = r at *
  generalize a.fdiv b = q at *
  by_cases hc : r ≠ 0 ∧ (decide (a < 0) != decide (b < 0)) = true
  · rw [if_pos hc]
    refine ⟨r - b, q + 1, rfl, by linarith [mul_add b q 1, mul_one b], ?_, ?_, ?_⟩
    all_goals
      obtain ⟨c1, c2⟩ := hc
      have c3 : ¬ (a < 0 ↔ b < 0) := by simpa using c2
      rcases lt_or_gt_of_ne h with hb | hb
      · have := bnd.2 hb
        have : ¬ a < 0 := by tauto
        first
          | (rw [abs_lt, abs_of_neg hb]; constructor <;> omega)
          | (intro; have := hzero; omega)
      · have := bnd.1 hb
        have : a < 0 := by
          by_contra hh; exact c3 (by omega)
        first
          | (rw [abs_lt, abs_of_pos hb]; constructor <;> omega)
          | (intro; omega)
  · rw [if_neg hc]
    refine ⟨r, q, rfl, by linarith, ?_, ?_, ?_⟩
    all_goals
      by_cases c1 : r = 0
      · subst c1; simp [h]
      · have c3 : (a < 0 ↔ b < 0) := by
          by_contra hh; exact hc ⟨c1, by simpa using hh⟩
        rcases lt_or_gt_of_ne h with hb | hb
        · have := bnd.2 hb
          have : a < 0 := c3.2 hb
          first
            | (rw [abs_lt, abs_of_neg hb]; constructor <;> omega)
            | (intro; omega)
        · have := bnd.1 hb
          have : ¬ a < 0 := by rw [c3]; omega
          first
            | (rw [abs_lt, abs_of_pos hb]; constructor <;> omega)
            | (intro; have := hzero; omega)

theorem gcdLoop_eq : ∀ b a, gcdLoop a b = Nat.gcd a b := by
  intro b
  induction b using Nat.strongRecOn with
  | ind b ih =>
    intro a
    rw [gcdLoop]
    by_cases h : b = 0
    · simp [h]
    · rw [dif_neg h, ih _ (Nat.mod_lt _ (by omega)), Nat.gcd_comm a b, Nat.gcd_rec b a, Nat.gcd_comm]

theorem absM_toNat (a : Int) : (absM a).toNat = a.natAbs := by
  unfold absM; split <;> omega

/-- `gcd` is the greatest common divisor: it divides both, every common divisor divides
it, and it is not negative. -/
theorem C112_gcd (a b : Int) :
    0 ≤ gcd a b ∧ gcd a b ∣ a ∧ gcd a b ∣ b ∧ ∀ d, d ∣ a → d ∣ b → d ∣ gcd a b := by
  have : gcd a b = (Int.gcd a b : Int) := by
    unfold gcd; rw [gcdLoop_eq, absM_toNat, absM_toNat]; rfl
  rw [this]
  exact ⟨by omega, Int.gcd_dvd_left .., Int.gcd_dvd_right .., fun d h1 h2 => Int.dvd_coe_gcd h1 h2⟩

/-- `lcm` is the least common multiple: both divide it, it divides every common
multiple, and it is not negative. -/
theorem C112_lcm (a b : Int) :
    0 ≤ lcm a b ∧ a ∣ lcm a b ∧ b ∣ lcm a b ∧ ∀ m, a ∣ m → b ∣ m → lcm a b ∣ m := by
  unfold lcm
  by_cases h : a = 0 ∨ b = 0
  · rw [if_pos h]
    refine ⟨le_rfl, by simp, by simp, fun m h1 h2 => ?_⟩
    rcases h with h | h
    · subst h; exact h1
    · subst h; exact h2
  · rw [if_neg h]
    obtain ⟨g0, ⟨x, hx⟩, ⟨y, hy⟩, g3⟩ := C112_gcd a b
    generalize hg : gcd a b = g at *
    have gne : g ≠ 0 := by rintro rfl; simp at hx; exact h (.inl hx)
    have e : a.fdiv g = x := by
      rw [hx, Int.mul_comm, Int.mul_fdiv_cancel _ gne]
    rw [e]
    have habs : ∀ z : Int, absM z = |z| := by
      intro z; unfold absM; split
      · rw [abs_of_neg (by assumption)]
      · rw [abs_of_nonneg (by omega)]
    rw [habs]
    refine ⟨abs_nonneg _, ?_, ?_, ?_⟩
    · rw [dvd_abs]; exact ⟨y, by rw [hx, hy]; ring⟩
    · rw [dvd_abs]; exact Dvd.intro_left _ rfl
    · intro m h1 h2
      rw [abs_dvd]
      obtain ⟨u, hu⟩ := h1
      obtain ⟨v, hv⟩ := h2
      -- x and y are coprime
      have hco : IsCoprime x y := by
        rw [Int.isCoprime_iff_gcd_eq_one]
        have : (g * (Int.gcd x y : Int)) ∣ g := by
          apply g3
          · rw [hx]; exact mul_dvd_mul_left g (Int.gcd_dvd_left ..)
          · rw [hy]; exact mul_dvd_mul_left g (Int.gcd_dvd_right ..)
        obtain ⟨w, hw⟩ := this
        have hw' : g * 1 = g * ((Int.gcd x y : Int) * w) := by rw [mul_one, ← mul_assoc]; exact hw
        have := mul_left_cancel₀ gne hw'
        have : (Int.gcd x y : Int) ∣ 1 := ⟨w, this⟩
        exact_mod_cast Int.eq_one_of_dvd_one (by omega) this
      have : x ∣ v := by
        apply hco.dvd_of_dvd_mul_left
        refine ⟨u, ?_⟩
        apply mul_left_cancel₀ gne
        have : g * y * v = g * x * u := by rw [← hx, ← hy, ← hu, ← hv]
        linarith
      obtain ⟨t, ht⟩ := this
      exact ⟨t, by rw [hv, ht]; ring⟩

example : gcd (-12) 18 = 6 ∧ lcm (-12) 18 = 36 ∧ remainder (-7) 3 = .ok (-1) ∧
    ceildiv (-7) 3 = .ok (-2) := by decide +kernel

end Verif.IntMeth
