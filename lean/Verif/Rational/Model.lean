import Mathlib.Data.Int.GCD

/-!
# Rational

`RationalInner` (value/rvalue/rational.rs), the Ruby-level operators on it
(builtins/numeric/rational.rs, /repo/monoruby/builtins/rational.rb) and `Float#to_r`,
`Float#rationalize` (builtins/numeric/float.rs).

Simplifications for the whole file: `BigInt` is `Int` (its `/` and `%` truncate, hence `tdiv` and
`tmod`; `div_floor` is `fdiv`); a panic is `none`; memory exhaustion is not modelled.
-/

namespace Verif.Rational

/-- `RationalInner`.  value/rvalue/rational.rs:12-16 -/
structure R where
  num : Int
  den : Int
  deriving DecidableEq

/-- `RationalInner::new` with `normalize`; `none` is the panic on a zero denominator.
value/rvalue/rational.rs:23-44 -/
def mk (num den : Int) : Option R :=
  if den = 0 then none
  else
    let n := if den < 0 then -num else num
    let d := if den < 0 then -den else den
    let g : Int := Int.gcd n d
    if g = 1 then some ⟨n, d⟩ else some ⟨n.tdiv g, d.tdiv g⟩

/-- `neg`.  value/rvalue/rational.rs:110-115 -/
def neg (a : R) : R := ⟨-a.num, a.den⟩

/-- `abs`.  value/rvalue/rational.rs:117-126 -/
def abs (a : R) : R := ⟨if a.num < 0 then -a.num else a.num, a.den⟩

/-- `add`.  value/rvalue/rational.rs:128-132 -/
def add (a b : R) : Option R := mk (a.num * b.den + b.num * a.den) (a.den * b.den)

/-- `sub`.  value/rvalue/rational.rs:134-138 -/
def sub (a b : R) : Option R := mk (a.num * b.den - b.num * a.den) (a.den * b.den)

/-- `mul`.  value/rvalue/rational.rs:140-144 -/
def mul (a b : R) : Option R := mk (a.num * b.num) (a.den * b.den)

/-- What an operator returns: a Rational, or `ZeroDivisionError`; `panic` is a Rust panic. -/
inductive Res where
  | ok (r : R)
  | zeroDivision
  | panic
  deriving DecidableEq

def Res.of : Option R → Res
  | some r => .ok r
  | none => .panic

/-- `div`.  value/rvalue/rational.rs:146-153 -/
def div (a b : R) : Res :=
  if b.num = 0 then .zeroDivision else .of (mk (a.num * b.den) (a.den * b.num))

/-- `cmp`.  value/rvalue/rational.rs:155-157 -/
def cmp (a b : R) : Ordering := compare (a.num * b.den) (b.num * a.den)

/-- `eq`.  value/rvalue/rational.rs:159-161 -/
def eq (a b : R) : Bool := a.num == b.num && a.den == b.den

/-- `==` with an Integer.  builtins/numeric/rational.rs:125-128 -/
def eqInt (a : R) (i : Int) : Bool := a.den == 1 && a.num == i

/-- Does the Integer fit a Fixnum?  value.rs:962 -/
def isFixnum (i : Int) : Bool := decide (-(2 ^ 62) ≤ i) && decide (i < 2 ^ 62)

/-- `!=` with an Integer: there is no case for a big Integer, which falls through to `true`.
builtins/numeric/rational.rs:148-155 -/
def neInt (a : R) (i : Int) : Bool :=
  if isFixnum i then !(a.den == 1 && a.num == i) else true

/-- `n as u32`. -/
def asU32 (n : Int) : Nat := (n % 2 ^ 32).toNat

/-- What `**` returns. -/
inductive PowRes where
  | ok (r : R)
  | zeroDivision
  | tooLarge
  | panic
  deriving DecidableEq

def PowRes.of : Option R → PowRes
  | some r => .ok r
  | none => .panic

/-- `pow_by_integer` (`Rational#**` with an Integer).  builtins/numeric/rational.rs:419-463 -/
def powInt (a : R) (exp : Int) : PowRes :=
  if exp = 0 then .of (mk 1 1)
  else if a.num = 0 then if exp < 0 then .zeroDivision else .of (mk 0 1)
  else if a.num = 1 ∧ a.den = 1 then .of (mk 1 1)
  else if a.num = -1 ∧ a.den = 1 then .of (mk (if exp.tmod 2 = 0 then 1 else -1) 1)
  else if exp < -(2 ^ 63) ∨ 2 ^ 63 ≤ exp then .tooLarge
  else if 0 ≤ exp then .of (mk (a.num ^ asU32 exp) (a.den ^ asU32 exp))
  else .of (mk (a.den ^ asU32 (-exp)) (a.num ^ asU32 (-exp)))

/-! ## Rounding -/

/-- `RationalFloorResult`.  value/rvalue/rational.rs:7-10 -/
inductive Rounded where
  | int (i : Int)
  | rat (r : R)
  | panic
  deriving DecidableEq

def Rounded.of : Option R → Rounded
  | some r => .rat r
  | none => .panic

/-- `while t % p == 0 { t /= p; count += 1 }`: the rest and the count.  On zero the code loops
forever; the denominator is never zero. -/
def strip (p t : Nat) : Nat × Nat :=
  if h : 1 < p ∧ 0 < t ∧ t % p = 0 then ((strip p (t / p)).1, (strip p (t / p)).2 + 1) else (t, 0)
termination_by t
decreasing_by all_goals exact Nat.div_lt_self h.2.1 h.1

/-- `ndigits_sufficient`.  value/rvalue/rational.rs:164-190 -/
def ndigitsSufficient (a : R) (ndigits : Int) : Bool :=
  if a.den = 1 then true
  else if (strip 5 (strip 2 a.den.natAbs).1).1 ≠ 1 then false
  else decide (max ((strip 2 a.den.natAbs).2 : Int)
    ((strip 5 (strip 2 a.den.natAbs).1).2 : Int) ≤ ndigits)

/-- `rational_floor`.  value/rvalue/rational.rs:194-212 -/
def floor (a : R) (nd : Int) : Rounded :=
  if nd = 0 then .int (a.num.fdiv a.den)
  else if 0 < nd then
    if ndigitsSufficient a nd then .rat a
    else .of (mk ((a.num * 10 ^ asU32 nd).fdiv a.den) (10 ^ asU32 nd))
  else .int (((a.num.tdiv a.den).fdiv (10 ^ asU32 (-nd))) * 10 ^ asU32 (-nd))

/-- `rational_ceil`.  value/rvalue/rational.rs:215-239 -/
def ceil (a : R) (nd : Int) : Rounded :=
  if nd = 0 then .int (-((-a.num).fdiv a.den))
  else if 0 < nd then
    if ndigitsSufficient a nd then .rat a
    else .of (mk (-((-(a.num * 10 ^ asU32 nd)).fdiv a.den)) (10 ^ asU32 nd))
  else .int (-((-(a.num.tdiv a.den)).fdiv (10 ^ asU32 (-nd))) * 10 ^ asU32 (-nd))

/-- `rational_truncate`.  value/rvalue/rational.rs:242-258 -/
def truncate (a : R) (nd : Int) : Rounded :=
  if nd = 0 then .int (a.num.tdiv a.den)
  else if 0 < nd then
    if ndigitsSufficient a nd then .rat a
    else .of (mk ((a.num * 10 ^ asU32 nd).tdiv a.den) (10 ^ asU32 nd))
  else .int (((a.num.tdiv a.den).tdiv (10 ^ asU32 (-nd))) * 10 ^ asU32 (-nd))

/-- `RoundHalf`; no keyword means up.  value.rs -/
inductive Half where
  | up | down | even
  deriving DecidableEq

/-- The tie rule shared by both branches of `rational_round`.
value/rvalue/rational.rs:281-302, 333-351 -/
def tie (half : Half) (nonneg : Bool) (q : Int) : Int :=
  match half with
  | .down => q
  | .even => if q.tmod 2 = 0 then q else if nonneg then q + 1 else q - 1
  | .up => if nonneg then q + 1 else q - 1

/-- `rational_round(0, half)`.  value/rvalue/rational.rs:266-304 -/
def round0 (a : R) (half : Half) : Int :=
  if a.den = 1 then a.num
  else
    let q := a.num.tdiv a.den
    let r := a.num.tmod a.den
    let dbl := (r * 2).natAbs
    if a.den.natAbs < dbl then if 0 ≤ a.num then q + 1 else q
    else if dbl < a.den.natAbs then q
    else tie half (decide (0 ≤ a.num)) q

/-- `rational_round`.  value/rvalue/rational.rs:261-353 -/
def round (a : R) (nd : Int) (half : Half) : Rounded :=
  if nd = 0 then .int (round0 a half)
  else if 0 < nd then
    if ndigitsSufficient a nd then .rat a
    else
      match mk (a.num * 10 ^ asU32 nd) a.den with
      | none => .panic
      | some s => .of (mk (round0 s half) (10 ^ asU32 nd))
  else
    let d : Int := 10 ^ asU32 (-nd)
    let i := a.num.tdiv a.den
    let q := i.tdiv d
    let r := i.tmod d
    let dbl := (r * 2).natAbs
    .int (if d.natAbs < dbl then if 0 ≤ i then (q + 1) * d else (q - 1) * d
      else if dbl < d.natAbs then q * d
      else tie half (decide (0 ≤ i)) q * d)

/-! ## Simplest fractions -/

/-- `div_ceil_bigint`.  value/rvalue/rational.rs:447-458 -/
def divCeil (a b : Int) : Int :=
  if b = 0 then 1
  else
    let q := a.tdiv b
    let r := a.tmod b
    if r = 0 ∨ (r < 0 ∧ b < 0) ∨ (0 < r ∧ 0 < b) then if r = 0 then q else q + 1
    else q

/-- The loop of `find_simplest`, with a bound on the number of turns; `none` if the bound is hit or
the code panics.  value/rvalue/rational.rs:410-437 -/
def simplestLoop (lo hi : R) : Nat → Int → Int → Int → Int → Option R
  | 0, _, _, _, _ => none
  | fuel + 1, p0, q0, p1, q1 =>
    match mk (p0 + p1) (q0 + q1) with
    | none => none
    | some med =>
      if cmp med lo = .lt then
        let k := divCeil (lo.num * (q0 + q1) - (p0 + p1) * lo.den) (p1 * lo.den - lo.num * q1)
        simplestLoop lo hi fuel (p0 + k * p1) (q0 + k * q1) p1 q1
      else if cmp med lo = .gt ∧ cmp med hi = .gt then
        let k := divCeil ((p0 + p1) * hi.den - hi.num * (q0 + q1)) (hi.num * q0 - p0 * hi.den)
        simplestLoop lo hi fuel p0 q0 (p1 + k * p0) (q1 + k * q0)
      else mk (p0 + p1) (q0 + q1)

/-- `find_simplest` for a non-negative value.  value/rvalue/rational.rs:393-437 -/
def simplestPos (fuel : Nat) (value eps : R) : Option R :=
  match sub value (abs eps), add value (abs eps), mk 0 1 with
  | some lo, some hi, some zero =>
    if cmp hi zero = .lt then some zero
    else simplestLoop (if cmp lo zero = .lt then zero else lo) hi fuel 0 1 1 0
  | _, _, _ => none

/-- `find_simplest`.  value/rvalue/rational.rs:384-438 -/
def findSimplest (fuel : Nat) (value eps : R) : Option R :=
  if value.num < 0 then
    match mk (-value.num) value.den with
    | some pos => (simplestPos fuel pos (abs eps)).map neg
    | none => none
  else simplestPos fuel value eps

/-- The loop of `Rational#rationalize`, in Ruby; `none` also for an exception.
/repo/monoruby/builtins/rational.rb:99-116 -/
def rbLoop (lo hi : R) : Nat → Int → Int → Int → Int → Option R
  | 0, _, _, _, _ => none
  | fuel + 1, p0, q0, p1, q1 =>
    match mk (p0 + p1) (q0 + q1) with
    | none => none
    | some med =>
      if cmp med lo = .lt then
        -- k = ((lo * qm - pm) / (p1 - lo * q1)).ceil
        match (mul lo ⟨q0 + q1, 1⟩).bind (fun x => sub x ⟨p0 + p1, 1⟩),
            (mul lo ⟨q1, 1⟩).bind (fun x => sub ⟨p1, 1⟩ x) with
        | some x, some y =>
          match div x y with
          | .ok z =>
            match ceil z 0 with
            | .int k => rbLoop lo hi fuel (p0 + k * p1) (q0 + k * q1) p1 q1
            | _ => none
          | _ => none
        | _, _ => none
      else if cmp med hi = .gt then
        -- k = ((pm - hi * qm) / (hi * q0 - p0)).ceil
        match (mul hi ⟨q0 + q1, 1⟩).bind (fun x => sub ⟨p0 + p1, 1⟩ x),
            (mul hi ⟨q0, 1⟩).bind (fun x => sub x ⟨p0, 1⟩) with
        | some x, some y =>
          match div x y with
          | .ok z =>
            match ceil z 0 with
            | .int k => rbLoop lo hi fuel p0 q0 (p1 + k * p0) (q1 + k * q0)
            | _ => none
          | _ => none
        | _, _ => none
      else mk (p0 + p1) (q0 + q1)

/-- `Rational#rationalize(eps)` with a Rational (or Integer) `eps`, for a non-negative receiver.
/repo/monoruby/builtins/rational.rb:92-116 -/
def rbRationalizePos (fuel : Nat) (value eps : R) : Option R :=
  match sub value (abs eps), add value (abs eps), mk 0 1 with
  | some lo, some hi, some zero =>
    if cmp lo zero ≠ .gt then some zero else rbLoop lo hi fuel 0 1 1 0
  | _, _, _ => none

/-- `Rational#rationalize(eps)`.  /repo/monoruby/builtins/rational.rb:89-117 -/
def rbRationalize (fuel : Nat) (value eps : R) : Option R :=
  if value.num < 0 then (rbRationalizePos fuel (neg value) (abs eps)).map neg
  else rbRationalizePos fuel value eps

/-! ## Floats -/

/-- A finite non-zero double: `±m · 2^e` with `m < 2^53`, `-1074 ≤ e` (normal numbers have
`2^52 ≤ m`).  Every finite double has this form. -/
structure F where
  negative : Bool
  m : Nat
  e : Int
  deriving DecidableEq

/-- The doubling loop of `from_f64`: `x = m · 2^e` is doubled (exactly: `x` is below 2^53 while it
is not whole) until it is whole; the count.  value/rvalue/rational.rs:365-372 -/
def doublings (m : Nat) (e : Int) : Nat → Nat → Nat
  | 0, n => n
  | fuel + 1, n =>
    if 0 ≤ e ∨ m % 2 ^ (-e).toNat = 0 then n
    else if 1074 < n + 1 then n + 1
    else doublings m (e + 1) fuel (n + 1)

/-- `from_f64` on a finite non-zero double: `BigInt::from_f64` of the whole number, over `1 << n`.
value/rvalue/rational.rs:358-379 -/
def fromFloat (f : F) : Option R :=
  let n := doublings f.m f.e 1076 0
  let e := f.e + n
  let whole : Int := if 0 ≤ e then (f.m : Int) * 2 ^ e.toNat else ((f.m / 2 ^ (-e).toNat : Nat) : Int)
  mk (if f.negative then -whole else whole) (2 ^ n)

/-- The exponent as `frexp` gives it (`2^(exp-1) ≤ |f| < 2^exp`).
builtins/numeric/float.rs:299-311 -/
def frexp (f : F) : Int := f.e + (f.m.log2 + 1 : Nat)

/-- `Float#rationalize` without an argument, on a finite non-zero double.
builtins/numeric/float.rs:292-316 -/
def floatRationalize (fuel : Nat) (f : F) : Option R :=
  match fromFloat f, mk 1 (2 ^ asU32 (53 - frexp f + 1)) with
  | some exact, some eps => findSimplest fuel exact eps
  | _, _ => none

end Verif.Rational
