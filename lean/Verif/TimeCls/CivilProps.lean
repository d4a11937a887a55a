import Verif.TimeCls.Model
import Mathlib.Tactic.SplitIfs
import Mathlib.Tactic.IntervalCases
import Mathlib.Tactic.Linarith

/-! # C144: Time and the calendar, offsets in strings, Marshal -/

namespace Verif.TimeCls

/-! ## The calendar -/

theorem leap_iff (y : Int) : leap y = true ↔ (y % 4 = 0 ∧ y % 100 ≠ 0) ∨ y % 400 = 0 := by
  simp [leap]

/-- a year has 365 days, and a leap year 366 -/
theorem year_len (y : Int) :
    daysBeforeYear (y + 1) = daysBeforeYear y + 365 + (if leap y then 1 else 0) := by
  have h := leap_iff y
  unfold daysBeforeYear
  cases hl : leap y with
  | true =>
    have := h.1 hl
    simp only [if_true]
    omega
  | false =>
    have : ¬((y % 4 = 0 ∧ y % 100 ≠ 0) ∨ y % 400 = 0) := by rw [← h, hl]; simp
    simp only [Bool.false_eq_true, if_false]
    omega

/-- the months fill the year -/
theorem months_fill (y : Int) :
    daysBeforeMonth y 12 + daysInMonth y 12 = 365 + (if leap y then 1 else 0) := by
  simp only [daysBeforeMonth, daysInMonth]
  cases leap y <;> simp

theorem month_pos (y : Int) (m : Nat) (h : 1 ≤ m ∧ m ≤ 12) : 28 ≤ daysInMonth y m ∧ daysInMonth y m ≤ 31 := by
  obtain ⟨h1, h2⟩ := h
  interval_cases m <;> simp [daysInMonth] <;> split_ifs <;> simp

/-- the first of the next month is the day after the last of this one -/
theorem next_month (y : Int) (m : Nat) (h : 1 ≤ m ∧ m ≤ 12) :
    dayNo (if m = 12 then y + 1 else y) (if m = 12 then 1 else m + 1) 1 =
      dayNo y m 1 + daysInMonth y m := by
  by_cases hm : m = 12
  · subst hm
    simp only [if_true, dayNo]
    have := year_len y
    have := months_fill y
    have e : daysBeforeMonth (y + 1) 1 = 0 := rfl
    rw [e]; omega
  · simp only [hm, if_false, dayNo]
    obtain ⟨k, rfl⟩ : ∃ k, m = k + 1 := ⟨m - 1, by omega⟩
    have e : daysBeforeMonth y (k + 1 + 1) = daysBeforeMonth y (k + 1) + daysInMonth y (k + 1) := rfl
    rw [e]; omega

theorem before_mono (y : Int) (m n : Nat) (h1 : 1 ≤ m) (h : m < n) :
    daysBeforeMonth y m + daysInMonth y m ≤ daysBeforeMonth y n := by
  induction n with
  | zero => omega
  | succ n ih =>
    obtain ⟨k, rfl⟩ : ∃ k, n = k + 1 := ⟨n - 1, by omega⟩
    have e : daysBeforeMonth y (k + 1 + 1) = daysBeforeMonth y (k + 1) + daysInMonth y (k + 1) := rfl
    rw [e]
    by_cases hk : m = k + 1
    · subst hk; omega
    · have := ih (by omega); omega

theorem year_mono (y : Int) (k : Nat) : daysBeforeYear y + 365 * k ≤ daysBeforeYear (y + k) := by
  unfold daysBeforeYear; omega

theorem dateOk_iff (y : Int) (m d : Nat) :
    dateOk y m d = true ↔ (-262143 ≤ y ∧ y ≤ 262142) ∧ (1 ≤ m ∧ m ≤ 12) ∧ 1 ≤ d ∧ d ≤ daysInMonth y m := by
  simp only [dateOk, Bool.and_eq_true, decide_eq_true_eq]
  constructor
  · rintro ⟨⟨⟨⟨⟨a, b⟩, c⟩, d⟩, e⟩, f⟩; exact ⟨⟨a, b⟩, ⟨c, d⟩, e, f⟩
  · rintro ⟨⟨a, b⟩, ⟨c, d⟩, e, f⟩; exact ⟨⟨⟨⟨⟨a, b⟩, c⟩, d⟩, e⟩, f⟩

/-- `(y, m, d)` comes before `(y', m', d')` in the calendar. -/
def Before (y : Int) (m d : Nat) (y' : Int) (m' d' : Nat) : Prop :=
  y < y' ∨ (y = y' ∧ (m < m' ∨ (m = m' ∧ d < d')))

theorem dayNo_lt (y y' : Int) (m m' d d' : Nat) (h : dateOk y m d = true) (h' : dateOk y' m' d' = true)
    (hb : Before y m d y' m' d') : dayNo y m d < dayNo y' m' d' := by
  obtain ⟨_, hm, hd⟩ := (dateOk_iff _ _ _).1 h
  obtain ⟨_, hm', hd'⟩ := (dateOk_iff _ _ _).1 h'
  unfold dayNo
  have nn : ∀ y n, 0 ≤ daysBeforeMonth y n := by
    intro y n
    induction n with
    | zero => exact Int.le_refl 0
    | succ n ih =>
      cases n with
      | zero => exact Int.le_refl 0
      | succ k =>
        have e : daysBeforeMonth y (k + 1 + 1) = daysBeforeMonth y (k + 1) + daysInMonth y (k + 1) := rfl
        rw [e]; omega
  rcases hb with hy | ⟨rfl, hmm | ⟨rfl, hdd⟩⟩
  · -- the day is within its year, and the other year begins after it
    obtain ⟨k, hk⟩ : ∃ k : Nat, y' = (y + 1) + k := ⟨(y' - (y + 1)).toNat, by omega⟩
    have a := year_mono (y + 1) k
    rw [← hk] at a
    have b := year_len y
    have c := months_fill y
    have e : daysBeforeMonth y m + daysInMonth y m ≤ daysBeforeMonth y 12 + daysInMonth y 12 := by
      by_cases h12 : m = 12
      · subst h12; omega
      · have := before_mono y m 12 hm.1 (by omega); omega
    have := nn y' m'
    omega
  · have := before_mono y m m' hm.1 hmm
    omega
  · omega

/-- **C144.** Dates come in the order of the calendar: of two dates the earlier has the lower number
of days, and no two dates have the same. -/
theorem C144_calendar (y y' : Int) (m m' d d' : Nat) (h : dateOk y m d = true) (h' : dateOk y' m' d' = true) :
    (dayNo y m d < dayNo y' m' d' ↔ Before y m d y' m' d') ∧
    (dayNo y m d = dayNo y' m' d' ↔ y = y' ∧ m = m' ∧ d = d') := by
  have tri : Before y m d y' m' d' ∨ (y = y' ∧ m = m' ∧ d = d') ∨ Before y' m' d' y m d := by
    unfold Before; omega
  rcases tri with hb | ⟨rfl, rfl, rfl⟩ | hb
  · have := dayNo_lt _ _ _ _ _ _ h h' hb
    refine ⟨⟨fun _ => hb, fun _ => this⟩, ⟨fun e => by omega, ?_⟩⟩
    rintro ⟨rfl, rfl, rfl⟩; omega
  · refine ⟨⟨fun e => by omega, fun hb => ?_⟩, by simp⟩
    unfold Before at hb; omega
  · have := dayNo_lt _ _ _ _ _ _ h' h hb
    refine ⟨⟨fun e => by omega, fun e => ?_⟩, ⟨fun e => by omega, ?_⟩⟩
    · unfold Before at hb e; omega
    · rintro ⟨rfl, rfl, rfl⟩; omega

/-- **C144.** The day after a date is the next day of the month, or the first of the next month, or
the first of January; the first of January 1970 is 719528 days after that of the year 0. -/
theorem C144_next (y : Int) (m d : Nat) (h : dateOk y m d = true) :
    dayNo y m d + 1 =
      (if d < daysInMonth y m then dayNo y m (d + 1)
       else if m < 12 then dayNo y (m + 1) 1
       else dayNo (y + 1) 1 1) ∧ dayNo 1970 1 1 = 719528 := by
  obtain ⟨_, hm, hd⟩ := (dateOk_iff _ _ _).1 h
  refine ⟨?_, by decide⟩
  have nm := next_month y m hm
  have e : dayNo y m d + 1 = dayNo y m 1 + d := by simp only [dayNo]; omega
  split_ifs with h1 h2
  · simp only [dayNo]; omega
  · have : m ≠ 12 := by omega
    simp only [this, if_false] at nm
    have : d = daysInMonth y m := by omega
    rw [nm, e, this]
  · have : m = 12 := by omega
    simp only [this, if_true] at nm
    have : d = daysInMonth y m := by omega
    subst m
    rw [nm, e, this]

theorem buildDate_spec (y : Int) (m d : Nat) (hm : 1 ≤ m ∧ m ≤ 12) (hd : 1 ≤ d ∧ d ≤ 31)
    (hy : -262143 ≤ y ∧ y ≤ 262142) :
    buildDate y m d = .ok (dayNo y m 1 + (d - 1)) := by
  have mp := month_pos y m hm
  unfold buildDate
  by_cases hok : dateOk y m d = true
  · rw [if_pos hok]
    congr 1
    simp only [dayNo]; omega
  · rw [if_neg hok]
    have hlt : ¬ d ≤ daysInMonth y m := by
      intro h; exact hok ((dateOk_iff _ _ _).2 ⟨hy, hm, hd.1, h⟩)
    have m12 : m ≠ 12 := by
      rintro rfl
      exact hlt (by have : daysInMonth y 12 = 31 := rfl
                    omega)
    have nm := next_month y m hm
    simp only [m12, if_false] at nm
    simp only [hlt, m12, if_false]
    have mp' := month_pos y (m + 1) (by omega)
    rw [if_pos ((dateOk_iff _ _ _).2 ⟨hy, by omega, by omega, by omega⟩)]
    congr 1
    have : dayNo y (m + 1) (d - daysInMonth y m) = dayNo y (m + 1) 1 + (d - daysInMonth y m - 1 : Nat) := by
      simp only [dayNo]; omega
    rw [this, nm]; omega

/-- **C144.** `Time.new(y, m, d, h, mi, s)` (and `Time.utc`, `Time.local` up to the zone) is the first
of the month, plus `d - 1` days, `h` hours, `mi` minutes and `s` seconds: a day the month lacks counts
on into the next one, and second 60 is the next minute; a month, day, hour, minute or second out of
range raises ArgumentError. (`ns` is the fraction of the second.) -/
theorem C144_build (y : Int) (m d h mi s ns : Nat) (hy : -262143 ≤ y ∧ y ≤ 262142) :
    (1 ≤ m ∧ m ≤ 12 ∧ 1 ≤ d ∧ d ≤ 31 ∧ h ≤ 23 ∧ mi ≤ 59 ∧ s ≤ 60 ∧ ns < 1000000000 →
      build y m d h mi s ns =
        .ok ((((dayNo y m 1 + (d - 1)) * 24 + h) * 60 + mi) * 60 * 1000000000 + s * 1000000000 + ns)) ∧
    (¬(1 ≤ m ∧ m ≤ 12 ∧ 1 ≤ d ∧ d ≤ 31 ∧ h ≤ 23 ∧ mi ≤ 59 ∧ s ≤ 60 ∧ ns < 1000000000) →
      build y m d h mi s ns = .error .argument) := by
  constructor
  · rintro ⟨h1, h2, h3, h4, h5, h6, h7, h8⟩
    unfold build
    rw [if_neg (by omega), if_neg (by omega), if_neg (by omega), buildDate_spec y m d ⟨h1, h2⟩ ⟨h3, h4⟩ hy]
    by_cases hs : s = 60
    · subst hs
      simp only [if_true]
      congr 1
      simp only [dayNs, clock, giga]
      push_cast
      omega
    · simp only [hs, if_false, Bool.false_eq_true]
      congr 1
      simp only [dayNs, clock, giga]
      omega
  · intro hn
    unfold build
    by_cases a : 1 ≤ m ∧ m ≤ 12
    · by_cases b : 1 ≤ d ∧ d ≤ 31
      · rw [if_neg (by omega), if_neg (by omega), if_pos (by omega)]
      · rw [if_neg (by omega), if_pos (by omega)]
    · rw [if_pos (by omega)]

example : build 1970 2 30 0 0 0 0 = build 1970 3 2 0 0 0 0 ∧
    build 1999 12 31 23 59 60 0 = build 2000 1 1 0 0 0 0 := ⟨rfl, rfl⟩

/-- **C144 fails.** Hour 24, the midnight at the end of the day, is refused. -/
theorem C144_hour24_fails : build 2000 1 1 24 0 0 0 = .error .argument := rfl

/-! ## Offsets in strings -/

theorem digit_pad (n : Nat) (h : n < 10) : digit (Char.ofNat (48 + n)) = n ∧
    (Char.ofNat (48 + n)).isDigit = true ∧ Char.ofNat (48 + n) ≠ ':' := by
  interval_cases n <;> decide

theorem two_pad (n : Nat) (h : n < 100) :
    two (Char.ofNat (48 + n / 10)) (Char.ofNat (48 + n % 10)) = n := by
  have a := (digit_pad (n / 10) (by omega)).1
  have b := (digit_pad (n % 10) (by omega)).1
  simp only [two, a, b]; omega

theorem filter_pad (n : Nat) (h : n < 100) : (pad2 n).filter (· ≠ ':') = pad2 n := by
  have a := (digit_pad (n / 10) (by omega)).2.2
  have b := (digit_pad (n % 10) (by omega)).2.2
  simp [pad2, a, b]

theorem parse_two (h m : Nat) (hh : h < 24) (hm : m < 60) (sep : List Char)
    (hs : sep.filter (· ≠ ':') = []) :
    parseHms (pad2 h ++ (sep ++ pad2 m)) = .ok (h * 3600 + m * 60) := by
  have e : (pad2 h ++ (sep ++ pad2 m)).filter (· ≠ ':') = pad2 h ++ pad2 m := by
    rw [List.filter_append, List.filter_append, filter_pad h (by omega), filter_pad m (by omega), hs]
    rfl
  unfold parseHms
  simp only [e]
  have d1 := (digit_pad (h / 10) (by omega)).2.1
  have d2 := (digit_pad (h % 10) (by omega)).2.1
  have d3 := (digit_pad (m / 10) (by omega)).2.1
  have d4 := (digit_pad (m % 10) (by omega)).2.1
  simp only [pad2, List.cons_append, List.nil_append, List.all_cons, List.all_nil, d1, d2, d3, d4,
    Bool.and_self, Bool.and_true, not_true, if_false]
  rw [two_pad h (by omega), two_pad m (by omega)]
  unfold parseHms.fin
  rw [if_neg (by omega), if_neg (by omega)]
  simp

theorem parse_three (h m s : Nat) (hh : h < 24) (hm : m < 60) (hs : s < 60) :
    parseHms (pad2 h ++ ':' :: pad2 m ++ ':' :: pad2 s) = .ok (h * 3600 + m * 60 + s) := by
  have e : (pad2 h ++ ':' :: pad2 m ++ ':' :: pad2 s).filter (· ≠ ':') = pad2 h ++ pad2 m ++ pad2 s := by
    rw [List.filter_append, List.filter_append, List.filter_cons, List.filter_cons, filter_pad h (by omega),
      filter_pad m (by omega), filter_pad s (by omega)]
    simp
  unfold parseHms
  simp only [e]
  have d1 := (digit_pad (h / 10) (by omega)).2.1
  have d2 := (digit_pad (h % 10) (by omega)).2.1
  have d3 := (digit_pad (m / 10) (by omega)).2.1
  have d4 := (digit_pad (m % 10) (by omega)).2.1
  have d5 := (digit_pad (s / 10) (by omega)).2.1
  have d6 := (digit_pad (s % 10) (by omega)).2.1
  simp only [pad2, List.cons_append, List.nil_append, List.all_cons, List.all_nil, d1, d2, d3, d4, d5, d6,
    Bool.and_self, Bool.and_true, not_true, if_false]
  rw [two_pad h (by omega), two_pad m (by omega), two_pad s (by omega)]
  unfold parseHms.fin
  rw [if_neg (by omega), if_neg (by omega)]

/-- what follows the sign in `formatOffset` -/
def body (a colons : Nat) : List Char :=
  if colons = 0 then pad2 (a / 3600) ++ pad2 (a / 60 % 60)
  else if colons = 1 then pad2 (a / 3600) ++ ':' :: pad2 (a / 60 % 60)
  else pad2 (a / 3600) ++ ':' :: pad2 (a / 60 % 60) ++ ':' :: pad2 (a % 60)

theorem parse_body (a colons : Nat) (h : a < 86400) :
    parseHms (body a colons) = .ok (if colons < 2 then ((a / 60 * 60 : Nat) : Int) else a) := by
  unfold body
  by_cases c0 : colons = 0
  · subst c0
    have := parse_two (a / 3600) (a / 60 % 60) (by omega) (by omega) [] rfl
    simp only [List.nil_append] at this
    simp only [if_true]
    rw [this]
    simp only [show (0 : Nat) < 2 by decide, if_true]
    congr 1; omega
  · by_cases c1 : colons = 1
    · subst c1
      have := parse_two (a / 3600) (a / 60 % 60) (by omega) (by omega) [':'] rfl
      simp only [List.cons_append, List.nil_append] at this
      simp only [c0, if_false, if_true]
      rw [this]
      simp only [show (1 : Nat) < 2 by decide, if_true]
      congr 1; omega
    · simp only [c0, c1, if_false]
      rw [parse_three _ _ _ (by omega) (by omega) (by omega)]
      simp only [show ¬ colons < 2 by omega, if_false]
      congr 1; omega

/-- **C144.** An offset printed with `%z`, `%:z` or `%::z` and read back (`Time.new(..., in:)`,
`getlocal(string)`) is the same offset, for every offset of less than a day: to the second with `%::z`,
to the minute, toward zero, with the others. -/
theorem C144_offset (off : Int) (colons : Nat) (h : off.natAbs < 86400) :
    parseOffset (formatOffset off colons) = .ok (if colons < 2 then off.tdiv 60 * 60 else off) := by
  have e : formatOffset off colons = (if off < 0 then '-' else '+') :: body off.natAbs colons := rfl
  have ne : ∀ x, body off.natAbs colons ≠ [] ∧ body off.natAbs colons ≠ [x] := by
    intro x; unfold body; split_ifs <;> simp [pad2]
  have pb := parse_body off.natAbs colons h
  rw [e]
  generalize hb : body off.natAbs colons = b at *
  cases b with
  | nil => exact absurd rfl (ne 'x').1
  | cons x b =>
    cases b with
    | nil => exact absurd rfl (ne x).2
    | cons y b =>
      by_cases hn : off < 0
      · simp only [hn, if_true]
        have : parseOffset ('-' :: x :: y :: b) =
            .ok (-(if colons < 2 then ((off.natAbs / 60 * 60 : Nat) : Int) else off.natAbs)) := by
          simp only [parseOffset, pb]
        rw [this]
        congr 1
        have t : off.tdiv 60 = -((off.natAbs / 60 : Nat) : Int) := by
          have : off = -(off.natAbs : Int) := by omega
          conv_lhs => rw [this]
          rw [Int.neg_tdiv]
          rfl
        rw [t]
        split_ifs <;> omega
      · simp only [hn, if_false]
        have : parseOffset ('+' :: x :: y :: b) = parseHms (x :: y :: b) := by
          simp [parseOffset]
        rw [this, pb]
        congr 1
        have t : off.tdiv 60 = ((off.natAbs / 60 : Nat) : Int) := by
          have : off = (off.natAbs : Int) := by omega
          conv_lhs => rw [this]
          rfl
        rw [t]
        split_ifs <;> omega

example : formatOffset (-12600) 1 = "-03:30".toList ∧ parseOffset "-03:30".toList = .ok (-12600) := ⟨rfl, rfl⟩

/-- **C144.** An offset that is read is less than a day. -/
theorem C144_offset_range (s : List Char) (off : Int) (h : parseOffset s = .ok off) :
    off.natAbs < 86400 := by
  have hms : ∀ r v, parseHms r = .ok v → 0 ≤ v ∧ v < 86400 := by
    intro r v hv
    unfold parseHms at hv
    have fin : ∀ a b c v, parseHms.fin a b c = .ok v → 0 ≤ v ∧ v < 86400 := by
      intro a b c v hv
      unfold parseHms.fin at hv
      split_ifs at hv
      simp only [Except.ok.injEq] at hv
      omega
    simp only at hv
    split at hv
    · simp at hv
    · split at hv
      · exact fin _ _ _ _ hv
      · exact fin _ _ _ _ hv
      · exact fin _ _ _ _ hv
      · simp at hv
  unfold parseOffset at h
  split at h
  · simp only [Except.ok.injEq] at h; omega
  · rename_i c
    unfold military at h
    have b : ∀ x : Char, x.toNat = x.val.toNat := fun _ => rfl
    split_ifs at h with h1 h2 h3 h4
    · have : c.toNat ≤ 73 := h1.2
      have : 65 ≤ c.toNat := h1.1
      simp only [Except.ok.injEq] at h; omega
    · have : c.toNat ≤ 77 := h2.2
      have : 75 ≤ c.toNat := h2.1
      simp only [Except.ok.injEq] at h; omega
    · have : c.toNat ≤ 89 := h3.2
      simp only [Except.ok.injEq] at h; omega
    · simp only [Except.ok.injEq] at h; omega
  · have := hms _ _ h; omega
  · split at h
    · rename_i v hv
      have := hms _ _ hv
      simp only [Except.ok.injEq] at h; omega
    · simp at h
  · simp at h

/-- the letters that name offsets, each an hour further east, or west -/
def eastern : List Char := ['A', 'B', 'C', 'D', 'E', 'F', 'G', 'H', 'I', 'K', 'L', 'M']
def western : List Char := ['N', 'O', 'P', 'Q', 'R', 'S', 'T', 'U', 'V', 'W', 'X', 'Y']

/-- **C144.** A single letter is a whole number of hours: `A` to `M` without `J` are 1 to 12 hours
east, `N` to `Y` 1 to 12 hours west, `Z` is UTC; other letters are refused. -/
theorem C144_letters :
    (∀ i, i < 12 → parseOffset [eastern.getD i ' '] = .ok ((i + 1) * 3600)) ∧
    (∀ i, i < 12 → parseOffset [western.getD i ' '] = .ok (-((i + 1) * 3600))) ∧
    parseOffset ['Z'] = .ok 0 ∧
    (∀ c, c ∉ eastern → c ∉ western → c ≠ 'Z' → parseOffset [c] = .error .argument) := by
  refine ⟨?_, ?_, rfl, ?_⟩
  · intro i hi
    interval_cases i <;> rfl
  · intro i hi
    have e : parseOffset [western.getD i ' '] = military (western.getD i ' ') := by
      interval_cases i <;> rfl
    rw [e]
    interval_cases i <;> simp [western, military, show ∀ a b : Char, a ≤ b ↔ a.toNat ≤ b.toNat from fun _ _ => Iff.rfl]
  · intro c he hw hz
    have e : parseOffset [c] = military c := by
      unfold parseOffset
      split <;> first | rfl | simp_all
    rw [e]
    unfold military
    have all : ∀ n : Fin 128, Char.ofNat n ∉ eastern → Char.ofNat n ∉ western → Char.ofNat n ≠ 'Z' →
        ¬((65 ≤ n.1 ∧ n.1 ≤ 73) ∨ (75 ≤ n.1 ∧ n.1 ≤ 77) ∨ (78 ≤ n.1 ∧ n.1 ≤ 89)) := by
      decide +kernel
    have ofN : Char.ofNat c.toNat = c := Char.ofNat_toNat c
    have key : ¬((65 ≤ c.toNat ∧ c.toNat ≤ 73) ∨ (75 ≤ c.toNat ∧ c.toNat ≤ 77) ∨ (78 ≤ c.toNat ∧ c.toNat ≤ 89)) := by
      by_cases hc : c.toNat < 128
      · have := all ⟨c.toNat, hc⟩
        simp only [ofN] at this
        exact this he hw hz
      · omega
    have i1 : ¬('A' ≤ c ∧ c ≤ 'I') := fun h => key (Or.inl ⟨h.1, h.2⟩)
    have i2 : ¬('K' ≤ c ∧ c ≤ 'M') := fun h => key (Or.inr (Or.inl ⟨h.1, h.2⟩))
    have i3 : ¬('N' ≤ c ∧ c ≤ 'Y') := fun h => key (Or.inr (Or.inr ⟨h.1, h.2⟩))
    rw [if_neg i1, if_neg i2, if_neg i3, if_neg hz]

/-- **C144 fails.** Colons count nowhere: `+1:2:3:4` is read as `+12:34`. -/
theorem C144_colons_fails : parseOffset "+1:2:3:4".toList = .ok (12 * 3600 + 34 * 60) := rfl

/-! ## Marshal -/

theorem month31 (y : Int) (m : Nat) : daysInMonth y m ≤ 31 := by
  unfold daysInMonth; split_ifs <;> omega

theorem unpack_dump (f : Fields) (zone : Option Int) (h : f.ok = true)
    (hy : 1900 ≤ f.year ∧ f.year ≤ 67435) :
    unpack (dump f zone) = { f with nsec := f.nsec / 1000 * 1000 } ∧
    ((dump f zone).high / 2 ^ 30 % 2 = 1 ↔ zone = none) := by
  simp only [Fields.ok, Bool.and_eq_true, decide_eq_true_eq] at h
  obtain ⟨⟨⟨⟨hd, h1⟩, h2⟩, h3⟩, h4⟩ := h
  obtain ⟨_, hm, hd⟩ := (dateOk_iff _ _ _).1 hd
  have := month31 f.year f.month
  have ey : ∃ k : Nat, k < 65536 ∧ f.year = 1900 + k ∧ ((f.year - 1900) % 2 ^ 16).toNat = k :=
    ⟨(f.year - 1900).toNat, by omega, by omega, by omega⟩
  obtain ⟨k, hk, ky, ke⟩ := ey
  obtain ⟨y, mo, d, hh, mi, s, n⟩ := f
  simp only at *
  refine ⟨?_, ?_⟩
  · simp only [unpack, dump, ke, Fields.mk.injEq]
    refine ⟨?_, ?_, ?_, ?_, ?_, ?_, ?_⟩ <;> (try split_ifs) <;> omega
  · simp only [dump, ke]
    cases zone with
    | none =>
      simp only [if_true, iff_true]; omega
    | some z => simp only [reduceCtorEq, if_false, iff_false]; omega

/-- **C144.** A Time that Marshal stores and loads is the same wall clock to the nanosecond and the
same offset, for the years 1900 to 67435: always in UTC; otherwise if the wall clock occurs in the time
zone of the process that loads it. Missing: earlier years (`C144_year_fails`) and the wall clocks a
zone leaps over (`C144_gap_fails`). -/
theorem C144_marshal_partial (exists_ : Fields → Bool) (f : Fields) (zone : Option Int) (h : f.ok = true)
    (hy : 1900 ≤ f.year ∧ f.year ≤ 67435)
    (he : zone ≠ none → exists_ { f with nsec := f.nsec / 1000 * 1000 } = true) :
    load exists_ (dump f zone) = .ok (f, zone) := by
  obtain ⟨eu, eb⟩ := unpack_dump f zone h hy
  have ok : Fields.ok { f with nsec := f.nsec / 1000 * 1000 } = true := by
    simp only [Fields.ok, Bool.and_eq_true, decide_eq_true_eq] at h ⊢
    obtain ⟨h, h4⟩ := h
    exact ⟨h, by omega⟩
  have back : ({ ({ f with nsec := f.nsec / 1000 * 1000 } : Fields) with
      nsec := f.nsec / 1000 * 1000 + (dump f zone).nano } : Fields) = f := by
    have : f.nsec / 1000 * 1000 + (dump f zone).nano = f.nsec := by simp only [dump]; omega
    rw [this]
  unfold load
  simp only [eu, ok, if_true]
  cases zone with
  | none =>
    rw [if_pos (eb.2 rfl), back]
  | some z =>
    rw [if_neg (fun c => by have := eb.1 c; simp at this), if_pos (he (by simp)), back]
    rfl

/-- 2024-02-29 12:34:56.123456789 -/
def leapDay : Fields := ⟨2024, 2, 29, 12, 34, 56, 123456789⟩

example : load (fun _ => true) (dump leapDay (some 19800)) = .ok (leapDay, some 19800) :=
  C144_marshal_partial _ _ _ (by decide) (by decide) (fun _ => rfl)

/-- **C144 fails.** A Time before 1900 comes back in the 675th century: 1899 as 67435. -/
theorem C144_year_fails :
    Fields.ok ⟨1899, 12, 31, 0, 0, 0, 0⟩ = true ∧
    load (fun _ => true) (dump ⟨1899, 12, 31, 0, 0, 0, 0⟩ none) = .ok (⟨67435, 12, 31, 0, 0, 0, 0⟩, none) := by
  constructor
  · decide
  · rfl

/-- **C144 fails.** A Time with a fixed offset cannot be loaded if its wall clock is one that the time
zone of the loading process leaps over, although the offset has nothing to do with that zone. -/
theorem C144_gap_fails (exists_ : Fields → Bool) (f : Fields) (z : Int) (h : f.ok = true)
    (hy : 1900 ≤ f.year ∧ f.year ≤ 67435)
    (he : exists_ { f with nsec := f.nsec / 1000 * 1000 } = false) :
    load exists_ (dump f (some z)) = .error .argument := by
  obtain ⟨eu, eb⟩ := unpack_dump f (some z) h hy
  unfold load
  simp only [eu, he, Bool.false_eq_true, if_false]
  split_ifs with h1 h2
  · have := eb.1 h2; simp at this
  · rfl
  · rfl

end Verif.TimeCls
