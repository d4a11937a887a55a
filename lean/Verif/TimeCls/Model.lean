import Verif.Cmp.Model

/-!
# Time

Model of `monoruby/src/builtins/time.rs`: instants, arithmetic, rounding, the calendar fields that
`Time.utc` and its kin accept, utc offsets in strings, and the bytes Marshal stores.

Modelled by its documented meaning: the crate chrono (the proleptic Gregorian calendar, its range of
dates, and that its operators panic outside it).  Not modelled: the zone database, timezone objects,
`strftime` apart from offsets, the parsing of whole times, the conversion of differences to Float.
-/

namespace Verif.TimeCls

/-- What can go wrong. `panic` is the process dying. -/
inductive Err where
  | argument
  | type
  | panic
deriving DecidableEq, Repr

/-- Nanoseconds in a second. -/
def giga : Int := 1000000000

/-- `TimeInner` (time.rs:2773-2777): the instant, in nanoseconds from the epoch, and the offset in
seconds from UTC; `none` for the variant `Utc`. -/
structure T where
  ns : Int
  zone : Option Int
deriving DecidableEq, Repr

/-- The seconds chrono's dates reach from and to: the years -262143 to 262142. -/
def minSec : Int := -8334601228800
def maxSec : Int := 8210266876799

/-- Whether chrono has the instant. -/
def inRange (ns : Int) : Bool := decide (minSec * giga ≤ ns) && decide (ns < (maxSec + 1) * giga)

/-- `to_i64`. -/
def fits64 (i : Int) : Bool := decide (-(2 ^ 63) ≤ i) && decide (i < 2 ^ 63)

/-! ## Instants -/

/-- `to_i` (time.rs:2668-2674): chrono's `timestamp` is the floor. -/
def toI (t : T) : Int := t.ns / giga

/-- `nsec` (time.rs:2647-2652). -/
def nsec (t : T) : Int := t.ns % giga

/-- `to_r` (time.rs:2701-2711): numerator over `giga`. -/
def toR (t : T) : Int := toI t * giga + nsec t

/-- `bigint_ratio_to_sec_nsec` (time.rs:2002-2011); the denominator is positive. -/
def secNsec (num : Int) (den : Nat) : Except Err (Int × Int) :=
  if fits64 (num / den) then .ok (num / den, (num % den) * giga / den) else .error .argument

/-- `Time.at` of `num/den` seconds and `sub/subDen` units of `mult` nanoseconds, in the zone given
(time.rs:1549-1630); the numbers are exact (Integer or Rational). -/
def at_ (num : Int) (den : Nat) (sub : Int) (subDen mult : Nat) (zone : Option Int) : Except Err T :=
  match secNsec num den with
  | .error e => .error e
  | .ok (s, n) =>
    let total := s * giga + n + sub * mult / subDen
    if inRange total then .ok ⟨total, zone⟩ else .error .argument

/-- `num_exact_total_nanos` (time.rs:2017-2023). -/
def totalNanos (num : Int) (den : Nat) : Except Err Int :=
  if fits64 (num * giga / den) then .ok (num * giga / den) else .error .argument

/-- chrono's `DateTime + Duration`: "panics if the result is out of range". -/
def shift (t : T) (n : Int) : Except Err T :=
  if inRange (t.ns + n) then .ok { t with ns := t.ns + n } else .error .panic

/-- `Time#+` (time.rs:2761-2771). -/
def add (t : T) (num : Int) (den : Nat) : Except Err T :=
  match totalNanos num den with
  | .error e => .error e
  | .ok n => shift t n

/-- `Time#-` with a number (time.rs:2744-2750). -/
def sub (t : T) (num : Int) (den : Nat) : Except Err T :=
  match totalNanos num den with
  | .error e => .error e
  | .ok n => shift t (-n)

/-- `Time#-` with a Time (time.rs:2738-2743): the nanoseconds, which are then divided by `giga` as
Float; `num_nanoseconds().unwrap()` dies when they are more than 64 bits. -/
def diff (a b : T) : Except Err Int :=
  if fits64 (a.ns - b.ns) then .ok (a.ns - b.ns) else .error .panic

/-- `Ord for TimeInner` (time.rs:2785-2800). -/
def cmp (a b : T) : Ordering := if a.ns < b.ns then .lt else if b.ns < a.ns then .gt else .eq

/-- `<` (time.rs:2865-2870), `==` and `eql?` (2901-2917), of two Times. -/
def lt (a b : T) : Bool := cmp a b == .lt
def le (a b : T) : Bool := cmp a b != .gt
def eq (a b : T) : Bool := cmp a b == .eq

/-- `hash` (time.rs:2921-2931): what is fed to the hasher. -/
def hashFeed (t : T) : Int × Int := (toI t, nsec t)

/-- The objects a Time is compared with: a Time, or another with what its own `<=>` says of the Time:
`nil` or a number. -/
inductive Other where
  | time (t : T)
  | other (c : Option Int)

/-- `Time#<=>` (time.rs:2824-2862): the other is asked, and its answer turned round. -/
def cmpOther (a : T) : Other → Cmp.R
  | .time b => .num (match cmp a b with | .lt => -1 | .eq => 0 | .gt => 1)
  | .other none => .nil
  | .other (some c) => .num (if c > 0 then -1 else if c < 0 then 1 else 0)

/-- `Time#==` (time.rs:2901-2905). -/
def eqOther (a : T) : Other → Bool
  | .time b => eq a b
  | .other _ => false

/-- `!=`: Time includes Comparable (builtins/time.rb:7) and has none of its own, so Comparable's is
called (`Verif.Cmp.neOf`, and `Verif.Cmp.onNum` for its body). -/
def neOther (a : T) (o : Other) : Cmp.Out Bool := Cmp.onNum (cmpOther a o) (fun i => i != 0)

/-- `getutc`, `utc` (time.rs:370-376, 2974-2979). -/
def getutc (t : T) : T := { t with zone := none }

/-- `getlocal(offset)`, `localtime(offset)` (time.rs:389-424, 2994-2999). -/
def getlocal (t : T) (off : Int) : T := { t with zone := some off }

/-- The wall clock: nanoseconds of the local time. -/
def wall (t : T) : Int := t.ns + t.zone.getD 0 * giga

/-! ## Rounding -/

/-- `rescale_nsec` (time.rs:715-741); the precision is at most 9. -/
def rescale (ns : Nat) (p : Nat) (mode : Int) : Nat :=
  if p ≥ 9 then ns
  else
    let div := 10 ^ (9 - p)
    let q := ns / div
    let r := ns % div
    (if mode = -1 then q
     else if mode = 1 then (if r = 0 then q else q + 1)
     else (if r * 2 ≥ div then q + 1 else q)) * div

/-- `precision_arg` and `apply_subsec` (time.rs:703-768): `floor` (-1), `round` (0) and `ceil` (1). -/
def roundTo (t : T) (p : Int) (mode : Int) : Except Err T :=
  if 0 ≤ p ∧ p ≤ 9 then
    let n := rescale (nsec t).toNat p.toNat mode
    let base := toI t * giga
    if giga ≤ n then shift { t with ns := base } giga else .ok { t with ns := base + n }
  else .error .argument

/-! ## The calendar -/

/-- Leap years (time.rs:1834). -/
def leap (y : Int) : Bool := (y % 4 == 0 && y % 100 != 0) || y % 400 == 0

/-- `days_in_month` (time.rs:1829-1840). -/
def daysInMonth (y : Int) (m : Nat) : Nat :=
  if m = 1 ∨ m = 3 ∨ m = 5 ∨ m = 7 ∨ m = 8 ∨ m = 10 ∨ m = 12 then 31
  else if m = 4 ∨ m = 6 ∨ m = 9 ∨ m = 11 then 30
  else if m = 2 then (if leap y then 29 else 28)
  else 0

/-- Days from the first of the year 0 to the first of the year `y`. -/
def daysBeforeYear (y : Int) : Int := 365 * y + (y + 3) / 4 - (y + 99) / 100 + (y + 399) / 400

/-- Days of the year before the month. -/
def daysBeforeMonth (y : Int) : Nat → Int
  | 0 => 0
  | 1 => 0
  | m + 1 => daysBeforeMonth y m + daysInMonth y m

/-- Days from the first of the year 0 to a date: chrono's calendar. -/
def dayNo (y : Int) (m d : Nat) : Int := daysBeforeYear y + daysBeforeMonth y m + d - 1

/-- `NaiveDate::from_ymd_opt`: a date of the calendar within chrono's years. -/
def dateOk (y : Int) (m d : Nat) : Bool :=
  decide (-262143 ≤ y) && decide (y ≤ 262142) && decide (1 ≤ m) && decide (m ≤ 12) && decide (1 ≤ d) &&
    decide (d ≤ daysInMonth y m)

/-- Nanoseconds of a time of the day. -/
def clock (h mi s ns : Nat) : Int := (((h : Int) * 60 + mi) * 60 + s) * giga + ns

/-- Nanoseconds in a day. -/
def dayNs : Int := 86400 * giga

/-- The date of `build_naive_datetime` (time.rs:1797-1818): what the month lacks is counted on. -/
def buildDate (y : Int) (m d : Nat) : Except Err Int :=
  if dateOk y m d then .ok (dayNo y m d)
  else
    let dim := daysInMonth y m
    if d ≤ dim then .error .argument
    else
      let (y', m') := if m = 12 then (y + 1, 1) else (y, m + 1)
      if dateOk y' m' (d - dim) then .ok (dayNo y' m' (d - dim)) else .error .argument

/-- `build_naive_datetime` (time.rs:1776-1827): nanoseconds from the first of the year 0. The minute
carried over stays within range (not checked here). -/
def build (y : Int) (m d h mi s ns : Nat) : Except Err Int :=
  if ¬(1 ≤ m ∧ m ≤ 12) then .error .argument
  else if ¬(1 ≤ d ∧ d ≤ 31) then .error .argument
  else if h > 23 ∨ mi > 59 ∨ s > 60 ∨ ns ≥ 1000000000 then .error .argument
  else
    let (s', carry) := if s = 60 then (0, true) else (s, false)
    match buildDate y m d with
    | .error e => .error e
    | .ok day =>
      let dt := day * dayNs + clock h mi s' ns
      .ok (if carry then dt + 60 * giga else dt)

/-! ## Offsets in strings -/

/-- a decimal digit's value -/
def digit (c : Char) : Nat := c.toNat - 48

/-- `digits[a..b].parse()` for two digits (time.rs:1297) -/
def two (a b : Char) : Nat := digit a * 10 + digit b

/-- `parse_utc_offset_string` from the sign on (time.rs:1284-1316): colons are left out wherever they
are. -/
def parseHms (rest : List Char) : Except Err Int :=
  let ds := rest.filter (· ≠ ':')
  if ¬ ds.all Char.isDigit then .error .argument
  else
    match ds with
    | [a, b] => fin (two a b) 0 0
    | [a, b, c, d] => fin (two a b) (two c d) 0
    | [a, b, c, d, e, f] => fin (two a b) (two c d) (two e f)
    | _ => .error .argument
where
  /-- the checks of the fields, time.rs:1304-1314 -/
  fin (h m s : Nat) : Except Err Int :=
    if h > 23 then .error .argument
    else if m > 59 ∨ s > 59 then .error .argument
    else .ok (h * 3600 + m * 60 + s)

/-- the military letters, time.rs:1272-1281 -/
def military (c : Char) : Except Err Int :=
  if 'A' ≤ c ∧ c ≤ 'I' then .ok ((c.toNat - 65 + 1) * 3600)
  else if 'K' ≤ c ∧ c ≤ 'M' then .ok ((c.toNat - 75 + 10) * 3600)
  else if 'N' ≤ c ∧ c ≤ 'Y' then .ok (-(((c.toNat - 78 + 1) : Nat) : Int) * 3600)
  else if c = 'Z' then .ok 0
  else .error .argument

/-- `parse_utc_offset_string` (time.rs:1254-1316) -/
def parseOffset (s : List Char) : Except Err Int :=
  match s with
  | ['U', 'T', 'C'] => .ok 0
  | [c] => military c
  | '+' :: rest => parseHms rest
  | '-' :: rest => match parseHms rest with
    | .ok v => .ok (-v)
    | .error e => .error e
  | _ => .error .argument

/-- `{:02}` of a number below 100 -/
def pad2 (n : Nat) : List Char := [Char.ofNat (48 + n / 10), Char.ofNat (48 + n % 10)]

/-- `format_offset` without flags and width (time.rs:2434-2472): `%z` (0 colons), `%:z`, `%::z` -/
def formatOffset (off : Int) (colons : Nat) : List Char :=
  let a := off.natAbs
  (if off < 0 then '-' else '+') ::
    (if colons = 0 then pad2 (a / 3600) ++ pad2 (a / 60 % 60)
     else if colons = 1 then pad2 (a / 3600) ++ ':' :: pad2 (a / 60 % 60)
     else pad2 (a / 3600) ++ ':' :: pad2 (a / 60 % 60) ++ ':' :: pad2 (a % 60))

/-! ## Marshal -/

/-- The fields of a wall clock. -/
structure Fields where
  year : Int
  month : Nat
  day : Nat
  hour : Nat
  min : Nat
  sec : Nat
  nsec : Nat
deriving DecidableEq, Repr

/-- fields of the calendar and the clock -/
def Fields.ok (f : Fields) : Bool :=
  dateOk f.year f.month f.day && decide (f.hour < 24) && decide (f.min < 60) && decide (f.sec < 60) &&
    decide (f.nsec < 1000000000)

/-- What Marshal stores of a Time: the two words of `_dump`, `:nano_num` and `:offset`. -/
structure Dumped where
  high : Nat
  low : Nat
  nano : Nat
  offset : Option Int
deriving DecidableEq, Repr

/-- `Time#_dump` (time.rs:491-516) and the variables stored beside it (marshal.rs:1668-1724); the
fields of a word do not overlap, so `|` is `+`. -/
def dump (f : Fields) (zone : Option Int) : Dumped where
  high := 2 ^ 31 + (if zone = none then 2 ^ 30 else 0) + ((f.year - 1900) % 2 ^ 16).toNat * 2 ^ 14 +
    (f.month - 1) * 2 ^ 10 + f.day * 2 ^ 5 + f.hour
  low := f.min * 2 ^ 26 + f.sec * 2 ^ 20 + f.nsec / 1000
  nano := f.nsec % 1000
  offset := zone

/-- the fields `Time._load` takes out of the words (time.rs:544-555) -/
def unpack (d : Dumped) : Fields where
  year := (d.high / 2 ^ 14 % 2 ^ 16 : Nat) + 1900
  month := d.high / 2 ^ 10 % 16 + 1
  day := d.high / 2 ^ 5 % 32
  hour := d.high % 32
  min := d.low / 2 ^ 26 % 64
  sec := d.low / 2 ^ 20 % 64
  nsec := d.low % 2 ^ 20 * 1000

/-- `Time._load` (time.rs:526-571) and what marshal.rs:537-562 does then. `exists_ f` says whether the
wall clock occurs in the zone of the process: a Time that is not in UTC is first made there, and only
then moved to its offset.  The words with bit 31 clear (an older format) are not modelled. -/
def load (exists_ : Fields → Bool) (d : Dumped) : Except Err (Fields × Option Int) :=
  let f := unpack d
  if Fields.ok f then
    if d.high / 2 ^ 30 % 2 = 1 then .ok ({ f with nsec := f.nsec + d.nano }, none)
    else if exists_ f then .ok ({ f with nsec := f.nsec + d.nano }, d.offset)
    else .error .argument
  else .error .argument

end Verif.TimeCls
