import Verif.TimeCls.Model
import Mathlib.Tactic.SplitIfs
import Mathlib.Tactic.ByContra
import Mathlib.Tactic.Ring
import Mathlib.Tactic.Linarith

/-! # C143: Time as an instant -/

namespace Verif.TimeCls

/-! ## Order, equality, hash -/

/-- **C143.** Times are ordered by their instants, whatever their offsets: `<=>`, `<`, `<=`, `==` are
those of the instants; `eql?` is `==`, and Times that are `eql?` have the same hash and the same
`to_r`; and conversely. -/
theorem C143_order (a b : T) :
    (lt a b = true ↔ a.ns < b.ns) ∧ (le a b = true ↔ a.ns ≤ b.ns) ∧ (eq a b = true ↔ a.ns = b.ns) ∧
    (cmp a b = .lt ↔ a.ns < b.ns) ∧ (cmp a b = .gt ↔ b.ns < a.ns) ∧ (cmp a b = .eq ↔ a.ns = b.ns) ∧
    (eq a b = true ↔ hashFeed a = hashFeed b) := by
  have h : eq a b = true ↔ a.ns = b.ns := by
    simp only [eq, cmp]; split_ifs <;> simp <;> omega
  refine ⟨?_, ?_, h, ?_, ?_, ?_, ?_⟩
  · simp only [lt, cmp]; split_ifs <;> simp <;> omega
  · simp only [le, cmp]; split_ifs <;> simp <;> omega
  · simp only [cmp]; split_ifs <;> simp <;> omega
  · simp only [cmp]; split_ifs <;> simp <;> omega
  · simp only [cmp]; split_ifs <;> simp <;> omega
  · rw [h]
    simp only [hashFeed, toI, nsec, giga, Prod.mk.injEq]
    omega

/-- **C143.** `getutc` and `getlocal` keep the instant: the result is `eql?`, and only the wall clock
moves, by the offset. -/
theorem C143_zone (t : T) (off : Int) :
    eq t (getutc t) = true ∧ eq t (getlocal t off) = true ∧ wall (getutc t) = t.ns ∧
    wall (getlocal t off) = t.ns + off * giga := by
  refine ⟨((C143_order _ _).2.2.1).2 rfl, ((C143_order _ _).2.2.1).2 rfl, by simp [wall, getutc],
    by simp [wall, getlocal]⟩

example : lt ⟨5, some 3600⟩ ⟨6, none⟩ = true ∧ eq ⟨5, some 3600⟩ ⟨5, none⟩ = true := by decide

/-- **C143 fails.** `Time != other` raises ArgumentError for an object that does not compare with
Times, for instance `nil`, although `Time == other` says false. -/
theorem C143_ne_fails (t : T) :
    eqOther t (.other none) = false ∧ neOther t (.other none) = .err .argument := ⟨rfl, rfl⟩

/-- **C143 fails.** And of an object whose `<=>` says 0 a Time is neither `==` nor `!=`. -/
theorem C143_ne_zero_fails (t : T) :
    eqOther t (.other (some 0)) = false ∧ neOther t (.other (some 0)) = .ok false := ⟨rfl, rfl⟩

/-- **C143.** Between Times `!=` is the opposite of `==`. -/
theorem C143_ne_partial (a b : T) : neOther a (.time b) = .ok (!eq a b) := by
  simp only [neOther, cmpOther, Cmp.onNum, eq, cmp]
  split_ifs <;> rfl

/-! ## Seconds -/

/-- **C143.** `to_i` is the floor of the seconds, `nsec` the rest, between 0 and a second, also before
1970; `to_r` is exact. -/
theorem C143_fields (t : T) :
    toI t * giga ≤ t.ns ∧ t.ns < (toI t + 1) * giga ∧ 0 ≤ nsec t ∧ nsec t < giga ∧
    toI t * giga + nsec t = t.ns ∧ toR t = t.ns := by
  simp only [toI, nsec, toR, giga]
  omega

theorem fits_of (i : Int) (h : -(2 ^ 63) ≤ i ∧ i < 2 ^ 63) : fits64 i = true := by
  simp only [fits64, Bool.and_eq_true, decide_eq_true_eq]; exact h

/-- the number of nanoseconds `Time.at` and `Time#+` make of a number: the floor -/
theorem floor_spec (num : Int) (den : Nat) (hd : 0 < den) (k : Int) :
    num * giga / den = k ↔ k * den ≤ num * giga ∧ num * giga < (k + 1) * den := by
  have hd' : (0 : Int) < den := by exact_mod_cast hd
  constructor
  · rintro rfl
    exact ⟨Int.ediv_mul_le _ (by omega), Int.lt_ediv_add_one_mul_self _ hd'⟩
  · rintro ⟨h1, h2⟩
    have a : k ≤ num * giga / den := (Int.le_ediv_iff_mul_le hd').2 h1
    have b : num * giga / den < k + 1 := (Int.ediv_lt_iff_lt_mul hd').2 h2
    omega

theorem split_spec (num : Int) (den : Nat) (hd : 0 < den) :
    num / den * giga + (num % den) * giga / den = num * giga / den := by
  have hd' : (0 : Int) < den := by exact_mod_cast hd
  have e : num * giga = (num % den) * giga + (num / den * giga) * den := by
    conv_lhs => rw [← Int.emod_add_mul_ediv num den]
    ring
  rw [e, Int.add_mul_ediv_right _ _ (by omega)]
  ring

/-- **C143.** `Time.at(num/den)` is the instant `num/den` seconds after the epoch, to the nanosecond
below, whenever that is within range; so `Time.at(t.to_r)` is `t`. Outside it raises ArgumentError. -/
theorem C143_at (num : Int) (den : Nat) (hd : 0 < den) (zone : Option Int) (r : T) :
    (at_ num den 0 1 1000 zone = .ok r ↔
      inRange r.ns = true ∧ r.zone = zone ∧ r.ns * den ≤ num * giga ∧ num * giga < (r.ns + 1) * den) ∧
    (∀ t : T, inRange t.ns = true → at_ (toR t) 1000000000 0 1 1000 t.zone = .ok t) ∧
    (at_ num den 0 1 1000 zone = .error .argument ↔ inRange (num * giga / den) = false) := by
  have hd' : (0 : Int) < den := by exact_mod_cast hd
  have big : ∀ (n : Int) (d : Nat), 0 < d → fits64 (n / d) = false → inRange (n * giga / d) = false := by
    intro n d h0 hf
    by_contra hr
    have hr : inRange (n * giga / d) = true := by simpa using hr
    simp only [inRange, Bool.and_eq_true, minSec, maxSec] at hr
    obtain ⟨hr1, hr2⟩ := hr
    replace hr1 := of_decide_eq_true hr1
    replace hr2 := of_decide_eq_true hr2
    have := split_spec n d h0
    have h1 : 0 ≤ (n % d) * giga / d :=
      Int.ediv_nonneg (mul_nonneg (Int.emod_nonneg _ (by omega)) (by decide)) (by omega)
    have h2 : (n % d) * giga / d < giga := by
      apply Int.ediv_lt_of_lt_mul (by omega)
      have : n % d < d := Int.emod_lt_of_pos _ (by omega)
      have : (n % d) * giga < d * giga := mul_lt_mul_of_pos_right this (by decide)
      linarith [mul_comm (d : Int) giga]
    have : fits64 (n / d) = true := by
      apply fits_of
      simp only [giga] at *
      omega
    rw [this] at hf; exact absurd hf (by simp)
  have main : ∀ (n : Int) (d : Nat), 0 < d → ∀ z,
      at_ n d 0 1 1000 z = if inRange (n * giga / d) then .ok ⟨n * giga / d, z⟩ else .error .argument := by
    intro n d h0 z
    unfold at_ secNsec
    cases hf : fits64 (n / d) with
    | true =>
      simp only [if_true]
      have : n / (d : Int) * giga + (n % d) * giga / d + 0 * ((1000 : Nat) : Int) / ((1 : Nat) : Int) = n * giga / d := by
        rw [split_spec n d h0]; simp
      rw [this]
    | false => simp [big n d h0 hf]
  refine ⟨?_, ?_, ?_⟩
  · rw [main num den hd]
    constructor
    · intro h
      split_ifs at h with hr
      simp only [Except.ok.injEq] at h
      subst h
      have := (floor_spec num den hd _).1 rfl
      exact ⟨hr, rfl, this⟩
    · rintro ⟨hr, hz, h1, h2⟩
      have e := (floor_spec num den hd r.ns).2 ⟨h1, h2⟩
      rw [e, hr, ← hz]
      rfl
  · intro t hr
    rw [main _ _ (by decide)]
    have e : toR t * giga / ((1000000000 : Nat) : Int) = t.ns := by
      rw [(C143_fields t).2.2.2.2.2]
      simp only [giga]
      omega
    rw [e, hr]
    rfl
  · rw [main num den hd]
    cases inRange (num * giga / den) <;> simp

example : at_ (-1) 3 0 1 1000 none = .ok ⟨-333333334, none⟩ := by decide

/-- **C143.** `Time.at(s, k, unit)` for Integers is `s` seconds and `k` units (milliseconds,
microseconds or nanoseconds: `mult` is the nanoseconds in one) after the epoch; `k` may be negative or
more than a second's worth. -/
theorem C143_at_units (s k : Int) (mult : Nat) (zone : Option Int) (hs : fits64 s = true)
    (hr : inRange (s * giga + k * mult) = true) :
    at_ s 1 k 1 mult zone = .ok ⟨s * giga + k * mult, zone⟩ := by
  have h1 : s / ((1 : Nat) : Int) = s := by simp
  have h2 : s % ((1 : Nat) : Int) * giga / ((1 : Nat) : Int) = 0 := by simp [Int.emod_one]
  simp only [at_, secNsec, h1, h2, hs, if_true]
  simp [hr]

example : at_ 1 1 (-1) 1 1000000 none = .ok ⟨999000000, none⟩ := by decide

/-- **C143.** With an object that is no Time, `<=>` is the opposite of what the object's own `<=>`
says, and nil if that is nil. -/
theorem C143_cmp_other (t : T) (c : Int) :
    cmpOther t (.other (some c)) = .num (-c.sign) ∧ cmpOther t (.other none) = .nil ∧
    ∀ u, cmpOther t (.time u) = .num (t.ns - u.ns).sign := by
  refine ⟨?_, rfl, fun u => ?_⟩
  · simp only [cmpOther]
    split_ifs with h1 h2
    · rw [Int.sign_eq_one_of_pos h1]
    · rw [Int.sign_eq_neg_one_of_neg h2]; rfl
    · have : c = 0 := by omega
      subst this; rfl
  · simp only [cmpOther, cmp]
    split_ifs with h1 h2
    · rw [Int.sign_eq_neg_one_of_neg (by omega)]
    · rw [Int.sign_eq_one_of_pos (by omega)]
    · have : t.ns - u.ns = 0 := by omega
      rw [this]; rfl

/-! ## Moving -/

theorem shift_ok (t : T) (n : Int) (h : inRange (t.ns + n) = true) :
    shift t n = .ok { t with ns := t.ns + n } := by simp [shift, h]

/-- **C143.** Adding a number of seconds that is a whole number of nanoseconds moves the instant by
it and keeps the offset, as long as the number of nanoseconds is within 64 bits and the result within
range; taking it away again, or the difference, gives back what was. Missing: longer distances
(`C143_far_fails`, `C143_diff_fails`, `C143_add_range_fails`), finer numbers (`C143_fine_fails`). -/
theorem C143_add_partial (t : T) (n : Int) (hn : -(2 ^ 63) ≤ n ∧ n < 2 ^ 63)
    (h0 : inRange t.ns = true) (hr : inRange (t.ns + n) = true) :
    ∃ u, add t n 1000000000 = .ok u ∧ u.ns = t.ns + n ∧ u.zone = t.zone ∧
      sub u n 1000000000 = .ok t ∧ diff u t = .ok n := by
  have e : n * giga / ((1000000000 : Nat) : Int) = n := by simp only [giga]; omega
  have tn : totalNanos n 1000000000 = .ok n := by
    simp only [totalNanos, e, fits_of n hn, if_true]
  refine ⟨{ t with ns := t.ns + n }, ?_, rfl, rfl, ?_, ?_⟩
  · simp only [add, tn]; exact shift_ok t n hr
  · simp only [sub, tn]
    have : (t.ns + n) + -n = t.ns := by omega
    rw [shift_ok _ _ (by simpa [this] using h0)]
    simp [this]
  · have : t.ns + n - t.ns = n := by omega
    simp only [diff, this, fits_of n hn, if_true]

/-- **C143.** Whatever exact number is added, taking the same number away gives the Time back. -/
theorem C143_add_sub (t u : T) (num : Int) (den : Nat) (h0 : inRange t.ns = true)
    (h : add t num den = .ok u) : sub u num den = .ok t := by
  unfold add at h
  unfold sub
  cases e : totalNanos num den with
  | error _ => rw [e] at h; simp at h
  | ok n =>
    rw [e] at h
    simp only [shift] at h
    split_ifs at h with hr
    simp only [Except.ok.injEq] at h
    subst h
    have : (t.ns + n) + -n = t.ns := by omega
    simp only
    rw [shift_ok _ _ (by simpa [this] using h0)]
    simp [this]

example : ∃ u, add ⟨0, some 3600⟩ 3 2 = .ok u ∧ u = ⟨1500000000, some 3600⟩ := ⟨_, rfl, rfl⟩

/-- **C143.** Later stays later: moving two Times by the same number keeps their order and their
difference. -/
theorem C143_translate (a b a' b' : T) (num : Int) (den : Nat)
    (ha : add a num den = .ok a') (hb : add b num den = .ok b') :
    cmp a' b' = cmp a b ∧ diff a' b' = diff a b := by
  unfold add at ha hb
  cases e : totalNanos num den with
  | error _ => rw [e] at ha; simp at ha
  | ok n =>
    rw [e] at ha hb
    simp only [shift] at ha hb
    split_ifs at ha with h1
    split_ifs at hb with h2
    simp only [Except.ok.injEq] at ha hb
    subst ha hb
    have e1 : a.ns + n - (b.ns + n) = a.ns - b.ns := by omega
    constructor
    · simp only [cmp]
      split_ifs <;> first | rfl | omega
    · simp only [diff, e1]

/-- 2000-01-01 and 2300-01-01, UTC. -/
def y2000 : T := ⟨946684800 * giga, none⟩
def y2300 : T := ⟨10413792000 * giga, none⟩

/-- **C143 fails.** The difference of two Times more than 292 years apart kills the process. -/
theorem C143_diff_fails : diff y2300 y2000 = .error .panic := by decide

/-- **C143 fails.** A Time cannot be moved by more than 292 years at once, although the result is
well within range (and two steps reach it). -/
theorem C143_far_fails :
    add y2000 (10413792000 - 946684800) 1 = .error .argument ∧ inRange y2300.ns = true ∧
    ((add y2000 5000000000 1).toOption.bind fun t => (add t 4467107200 1).toOption) = some y2300 := by
  decide

/-- **C143 fails.** Moving a Time beyond the year 262142 kills the process, where `Time.at` raises. -/
theorem C143_add_range_fails :
    at_ 8210000000000 1 0 1 1000 none = .ok ⟨8210000000000 * giga, none⟩ ∧
    add ⟨8210000000000 * giga, none⟩ 9000000000 1 = .error .panic ∧
    at_ 8219000000000 1 0 1 1000 none = .error .argument := by
  decide

/-- **C143 fails.** Numbers finer than a nanosecond are cut off at each step: `t - (-r)` is not
`t + r`, and three thirds of a second are not a second. -/
theorem C143_fine_fails :
    add ⟨0, none⟩ 1 3 = .ok ⟨333333333, none⟩ ∧ sub ⟨0, none⟩ (-1) 3 = .ok ⟨333333334, none⟩ ∧
    (((add ⟨0, none⟩ 1 3).toOption.bind fun t => (add t 1 3).toOption).bind fun t =>
      (add t 1 3).toOption) = some ⟨999999999, none⟩ := by decide

/-! ## Rounding -/

theorem rescale_spec (ns p : Nat) (hp : p ≤ 9) :
    10 ^ (9 - p) ∣ rescale ns p (-1) ∧ rescale ns p (-1) ≤ ns ∧ ns < rescale ns p (-1) + 10 ^ (9 - p) ∧
    10 ^ (9 - p) ∣ rescale ns p 1 ∧ ns ≤ rescale ns p 1 ∧ rescale ns p 1 < ns + 10 ^ (9 - p) ∧
    10 ^ (9 - p) ∣ rescale ns p 0 ∧ 2 * rescale ns p 0 ≤ 2 * ns + 10 ^ (9 - p) ∧
      2 * ns < 2 * rescale ns p 0 + 10 ^ (9 - p) := by
  by_cases h : p ≥ 9
  · have : p = 9 := by omega
    subst this
    simp [rescale]
  · simp only [rescale, h, if_false]
    generalize hd : 10 ^ (9 - p) = d
    have d0 : 0 < d := hd ▸ Nat.pow_pos (by decide)
    have e := Nat.div_add_mod ns d
    have hr := Nat.mod_lt ns d0
    generalize hq : ns / d = q at *
    generalize hm : ns % d = r at *
    have c1 : q * d = d * q := Nat.mul_comm _ _
    have c2 : (q + 1) * d = d * q + d := by rw [Nat.add_mul, Nat.one_mul, Nat.mul_comm]
    generalize hx : d * q = x at *
    refine ⟨Dvd.intro_left _ rfl, ?_, ?_, Dvd.intro_left _ rfl, ?_, ?_, Dvd.intro_left _ rfl, ?_, ?_⟩
    · simp only [if_true]; omega
    · simp only [if_true]; omega
    · simp only [show ¬((1 : Int) = -1) by decide, if_false, if_true]; split_ifs <;> omega
    · simp only [show ¬((1 : Int) = -1) by decide, if_false, if_true]; split_ifs <;> omega
    · simp only [show ¬((0 : Int) = -1) by decide, show ¬((0 : Int) = 1) by decide, if_false]
      split_ifs <;> omega
    · simp only [show ¬((0 : Int) = -1) by decide, show ¬((0 : Int) = 1) by decide, if_false]
      split_ifs <;> omega

theorem roundTo_ns (t : T) (p : Int) (hp : 0 ≤ p ∧ p ≤ 9) (mode : Int) (u : T)
    (hle : (rescale (nsec t).toNat p.toNat mode : Int) ≤ giga) (h : roundTo t p mode = .ok u) :
    u.ns = toI t * giga + rescale (nsec t).toNat p.toNat mode ∧ u.zone = t.zone := by
  unfold roundTo at h
  rw [if_pos hp] at h
  simp only at h
  split_ifs at h with hg
  · unfold shift at h
    split_ifs at h with hr
    simp only [Except.ok.injEq] at h
    subst h
    have : (rescale (nsec t).toNat p.toNat mode : Int) = giga := by omega
    exact ⟨by simp only; rw [this], rfl⟩
  · simp only [Except.ok.injEq] at h
    subst h
    exact ⟨rfl, rfl⟩

/-- **C143.** `floor(p)` is the latest Time with `p` digits that is not later, `ceil(p)` the earliest
that is not earlier, `round(p)` the nearest, the later of two; also before 1970, and over the end of a
second. -/
theorem C143_round (t : T) (p : Nat) (hp : p ≤ 9) (u : T) :
    (roundTo t p (-1) = .ok u → (10 ^ (9 - p) : Int) ∣ u.ns ∧ u.ns ≤ t.ns ∧ t.ns < u.ns + 10 ^ (9 - p) ∧
      u.zone = t.zone) ∧
    (roundTo t p 1 = .ok u → (10 ^ (9 - p) : Int) ∣ u.ns ∧ t.ns ≤ u.ns ∧ u.ns < t.ns + 10 ^ (9 - p) ∧
      u.zone = t.zone) ∧
    (roundTo t p 0 = .ok u → (10 ^ (9 - p) : Int) ∣ u.ns ∧ 2 * u.ns ≤ 2 * t.ns + 10 ^ (9 - p) ∧
      2 * t.ns < 2 * u.ns + 10 ^ (9 - p) ∧ u.zone = t.zone) := by
  obtain ⟨f1, f2, f3, c1, c2, c3, r1, r2, r3⟩ := rescale_spec (nsec t).toNat p hp
  obtain ⟨_, _, n0, n1, ne, _⟩ := C143_fields t
  have hn : ((nsec t).toNat : Int) = nsec t := Int.toNat_of_nonneg n0
  have hpi : (0 : Int) ≤ p ∧ (p : Int) ≤ 9 := ⟨by omega, by omega⟩
  have tp : ((p : Int)).toNat = p := by omega
  have dg : (10 ^ (9 - p) : Nat) ∣ 1000000000 := by
    have : (1000000000 : Nat) = 10 ^ 9 := by norm_num
    rw [this]; exact Nat.pow_dvd_pow 10 (by omega)
  obtain ⟨k, hk⟩ := dg
  have dgi : ((10 ^ (9 - p) : Nat) : Int) ∣ toI t * giga :=
    ⟨k * toI t, by
      have : giga = ((10 ^ (9 - p) : Nat) : Int) * k := by
        have : (giga : Int) = ((1000000000 : Nat) : Int) := rfl
        rw [this, hk]; push_cast; ring
      rw [this]; ring⟩
  have pc : ((10 ^ (9 - p) : Nat) : Int) = 10 ^ (9 - p) := by push_cast; rfl
  -- a multiple of the step below `giga + step` is at most `giga`
  have cap : ∀ x : Nat, 10 ^ (9 - p) ∣ x → (x : Int) < giga + 10 ^ (9 - p) → (x : Int) ≤ giga := by
    rintro x ⟨y, rfl⟩ hx
    have d0 : 0 < 10 ^ (9 - p) := Nat.pow_pos (by decide)
    have hg : (giga : Int) = ((10 ^ (9 - p) * k : Nat) : Int) := by rw [← hk]; rfl
    rw [hg, ← pc] at hx
    have hx' : 10 ^ (9 - p) * y < 10 ^ (9 - p) * k + 10 ^ (9 - p) := by exact_mod_cast hx
    have : 10 ^ (9 - p) * y < 10 ^ (9 - p) * (k + 1) := by rw [Nat.mul_add, Nat.mul_one]; exact hx'
    have : y < k + 1 := Nat.lt_of_mul_lt_mul_left this
    rw [hg]
    exact_mod_cast Nat.mul_le_mul_left _ (by omega)
  have f2' : ((rescale (nsec t).toNat p (-1) : Nat) : Int) ≤ nsec t := by rw [← hn]; exact_mod_cast f2
  have f3' : nsec t < (rescale (nsec t).toNat p (-1) : Nat) + 10 ^ (9 - p) := by
    rw [← hn]; exact_mod_cast f3
  have c2' : nsec t ≤ (rescale (nsec t).toNat p 1 : Nat) := by rw [← hn]; exact_mod_cast c2
  have c3' : ((rescale (nsec t).toNat p 1 : Nat) : Int) < nsec t + 10 ^ (9 - p) := by
    rw [← hn]; exact_mod_cast c3
  have r2' : 2 * ((rescale (nsec t).toNat p 0 : Nat) : Int) ≤ 2 * nsec t + 10 ^ (9 - p) := by
    rw [← hn]; exact_mod_cast r2
  have r3' : 2 * nsec t < 2 * ((rescale (nsec t).toNat p 0 : Nat) : Int) + 10 ^ (9 - p) := by
    rw [← hn]; exact_mod_cast r3
  have dp : (0 : Int) < 10 ^ (9 - p) := by positivity
  have dv : ∀ x : Nat, 10 ^ (9 - p) ∣ x → (10 ^ (9 - p) : Int) ∣ toI t * giga + x := by
    intro x hx
    rw [← pc]
    exact Int.dvd_add dgi (by exact_mod_cast hx)
  generalize hP : (10 ^ (9 - p) : Int) = P at *
  refine ⟨fun h => ?_, fun h => ?_, fun h => ?_⟩
  · obtain ⟨e, z⟩ := roundTo_ns t p hpi (-1) u (by rw [tp]; omega) h
    rw [tp] at e
    exact ⟨e ▸ dv _ f1, by omega, by omega, z⟩
  · obtain ⟨e, z⟩ := roundTo_ns t p hpi 1 u (by rw [tp]; exact cap _ c1 (by omega)) h
    rw [tp] at e
    exact ⟨e ▸ dv _ c1, by omega, by omega, z⟩
  · obtain ⟨e, z⟩ := roundTo_ns t p hpi 0 u (by rw [tp]; exact cap _ r1 (by omega)) h
    rw [tp] at e
    exact ⟨e ▸ dv _ r1, by omega, by omega, z⟩

example : roundTo ⟨-1, none⟩ 0 (-1) = .ok ⟨-1000000000, none⟩ ∧ roundTo ⟨-1, none⟩ 0 1 = .ok ⟨0, none⟩ ∧
    roundTo ⟨1500000000, none⟩ 0 0 = .ok ⟨2000000000, none⟩ ∧
    roundTo ⟨123456789, none⟩ 3 0 = .ok ⟨123000000, none⟩ := by decide

/-- **C143.** `floor`, `round` and `ceil` raise only for a precision outside 0..9, and `ceil` and
`round` die only in the last second chrono has. -/
theorem C143_round_total (t : T) (p : Int) (mode : Int) :
    (roundTo t p mode = .error .argument ↔ ¬(0 ≤ p ∧ p ≤ 9)) ∧
    (roundTo t p mode = .error .panic → inRange (toI t * giga + giga) = false) := by
  unfold roundTo
  by_cases hp : 0 ≤ p ∧ p ≤ 9
  · rw [if_pos hp]
    simp only [shift]
    constructor
    · constructor
      · intro h; split_ifs at h <;> simp at h
      · intro h; exact absurd hp h
    · intro h
      split_ifs at h with h1 h2
      simpa using h2
  · rw [if_neg hp]; simp [hp]

/-- **C143 fails.** A precision of more than nine digits is refused, where it should change
nothing. -/
theorem C143_precision_fails (t : T) : roundTo t 10 (-1) = .error .argument := by
  simp [roundTo]

end Verif.TimeCls
