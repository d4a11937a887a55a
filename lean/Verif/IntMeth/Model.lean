import Verif.IntArith.Model
import Mathlib.Data.Int.Bitwise
import Mathlib.Data.Nat.Size

/-!
Model of methods of Integer: `pow` with a modulus, `floor`, `ceil`, `truncate` and
`round` with a number of digits, `gcd`, `lcm`, `div`, `ceildiv`, `remainder`,
`Integer.sqrt`, `digits`, `to_s`, `bit_length`, `[]` and `fdiv`.

An integer is a mathematical integer here. Whether it is an immediate or a heap
number is a function of its value (C01, C04), `isFix`. Operators used by the Ruby
code (`+ - * / % << >> &` on Integers) are the exact ones: that is C04 to C08.
Plain `i64` operators wrap as in a release build (`wrap64`), and a shift count is
taken modulo 64.
-/

namespace Verif.IntMeth
open Verif.IntArith (wrap64 asU32 fits64)

inductive Err where
  | zeroDiv
  | range
  | argument
  | domain
deriving DecidableEq, Repr

abbrev Res := Except Err

/-- Does the integer live in an immediate value? monoruby/src/value.rs `Value::integer`,
`Value::bigint`. -/
def isFix (n : Int) : Bool := decide (-(2 ^ 62) ≤ n) && decide (n < 2 ^ 62)

/-- monoruby/src/value/coerce.rs:117-138 `coerce_to_int_i64` for an Integer argument. -/
def i64Arg (n : Int) : Res Int := if fits64 n then .ok n else .error .range

/-! ### pow(exp, mod) -/

/-- The loop of monoruby/src/builtins/numeric/integer.rs:1563-1569; `%` of BigInt is
the truncated remainder. -/
def powLoop (m : Int) (base result : Int) (e : Nat) : Int :=
  if _h : e = 0 then result
  else
    powLoop m ((base * base).tmod m) (if e % 2 = 1 then (result * base).tmod m else result) (e / 2)
termination_by e
decreasing_by omega

/-- monoruby/src/builtins/numeric/integer.rs:1531-1579 `pow` with two Integer arguments. -/
def powMod (self exp mod : Int) : Res Int := do
  let e ← i64Arg exp
  if e < 0 then .error .range
  else
    let m ← i64Arg mod
    if m = 0 then .error .zeroDiv
    else
      let mb := wrap64 (if m < 0 then -m else m)
      let r := powLoop mb (self.tmod mb) 1 e.toNat
      let r := if r < 0 then r + mb else r
      .ok (if m < 0 ∧ r > 0 then r - mb else r)

/-! ### floor, ceil, truncate, round -/

/-- `pow10((-ndigits) as u32)`: monoruby/src/builtins/numeric/integer.rs:1600-1602, 1620-1621. -/
def unit10 (nd : Int) : Int := 10 ^ asU32 (wrap64 (-nd))

/-- monoruby/src/builtins/numeric/integer.rs:1611-1627 `int_floor`. -/
def floorD (n nd : Int) : Res Int := do
  let nd ← i64Arg nd
  if nd ≥ 0 then .ok n else .ok (n.fdiv (unit10 nd) * unit10 nd)

/-- `num::integer::div_ceil`. -/
def divCeil (a b : Int) : Int := if a.fmod b = 0 then a.fdiv b else a.fdiv b + 1

/-- monoruby/src/builtins/numeric/integer.rs:1635-1649 `int_ceil`. -/
def ceilD (n nd : Int) : Res Int := do
  let nd ← i64Arg nd
  if nd ≥ 0 then .ok n else .ok (divCeil n (unit10 nd) * unit10 nd)

/-- monoruby/src/builtins/numeric/integer.rs:1658-1678 `int_truncate`. -/
def truncD (n nd : Int) : Res Int := do
  let nd ← i64Arg nd
  if nd ≥ 0 then .ok n else .ok (n.tdiv (unit10 nd) * unit10 nd)

/-- `half:` of `round`; `up` also stands for nil or no keyword. -/
inductive Half where
  | up | down | even
deriving DecidableEq, Repr

/-- The choice of the quotient in monoruby/src/builtins/numeric/integer.rs:1717-1742. -/
def roundQuot (half : Half) (quot rem halfD : Int) : Int :=
  if rem > halfD then quot + 1
  else if rem < halfD then quot
  else match half with
    | .down => quot
    | .even => if quot.tmod 2 = 0 then quot else quot + 1
    | .up => quot + 1

/-- monoruby/src/builtins/numeric/integer.rs:1687-1745 `int_round`. -/
def roundD (n nd : Int) (half : Half) : Res Int := do
  let nd ← i64Arg nd
  if nd > 0x3FFFFFFF ∨ nd < -0x40000000 then .error .range
  else if nd ≥ 0 then .ok n
  else
    let d := unit10 nd
    let a := if n < 0 then -n else n
    let r := roundQuot half (a.tdiv d) (a.tmod d) (d.tdiv 2) * d
    .ok (if n < 0 then -r else r)

/-! ### div, ceildiv, remainder, gcd, lcm -/

/-- monoruby/builtins/integer.rb:79-86 `div`, for an Integer argument (`floor` of an
Integer is the Integer). -/
def divM (a b : Int) : Res Int := if b = 0 then .error .zeroDiv else .ok (a.fdiv b)

/-- monoruby/builtins/integer.rb:88-90 `ceildiv`. -/
def ceildiv (a b : Int) : Res Int := do
  let q ← divM (-a) b
  .ok (-q)

/-- monoruby/builtins/integer.rb:92-99 `remainder`. -/
def remainder (a b : Int) : Res Int :=
  if b = 0 then .error .zeroDiv
  else
    let r := a.fmod b
    .ok (if r ≠ 0 ∧ (decide (a < 0) != decide (b < 0)) = true then r - b else r)

/-- `abs`, monoruby/src/builtins/numeric/integer.rs:1505-1521. -/
def absM (a : Int) : Int := if a < 0 then -a else a

/-- The loop of monoruby/builtins/integer.rb:159-161; the variables are absolute values. -/
def gcdLoop (a b : Nat) : Nat :=
  if _h : b = 0 then a else gcdLoop b (a % b)
termination_by b
decreasing_by exact Nat.mod_lt _ (Nat.pos_of_ne_zero _h)

/-- monoruby/builtins/integer.rb:153-163 `gcd`. -/
def gcd (a b : Int) : Int := gcdLoop (absM a).toNat (absM b).toNat

/-- monoruby/builtins/integer.rb:165-171 `lcm`. -/
def lcm (a b : Int) : Int :=
  if a = 0 ∨ b = 0 then 0 else absM (a.fdiv (gcd a b) * b)

/-! ### bit_length, Integer.sqrt, digits, to_s -/

/-- `leading_zeros` of a `u64`. -/
def lz64 (n : Nat) : Nat := 64 - n.size

/-- monoruby/src/builtins/numeric/integer.rs:1776-1803 `bit_length`. -/
def bitLength (n : Int) : Nat :=
  if isFix n then 64 - lz64 (if n < 0 then -n - 1 else n).toNat
  else (if n < 0 then -n - 1 else n).natAbs.size

/-- The loop of monoruby/builtins/integer.rb:267-271. -/
def sqrtLoop (n x : Nat) : Nat :=
  if _h : (x + n / x) / 2 ≥ x then x else sqrtLoop n ((x + n / x) / 2)
termination_by x
decreasing_by omega

/-- monoruby/builtins/integer.rb:251-272 `Integer.sqrt` of an Integer. -/
def sqrt (n : Int) : Res Nat :=
  if n < 0 then .error .domain
  else if n = 0 then .ok 0
  else .ok (sqrtLoop n.toNat (2 ^ ((bitLength n + 1) / 2)))

/-- The loop of monoruby/builtins/integer.rb:338-341, which pushes the low digit first. -/
def digitLoop (base n : Nat) (acc : List Nat) : List Nat :=
  if _h : n = 0 ∨ base < 2 then acc
  else digitLoop base (n / base) (acc ++ [n % base])
termination_by n
decreasing_by exact Nat.div_lt_self (by omega) (by omega)

/-- monoruby/builtins/integer.rb:324-343 `digits`. -/
def digits (n base : Int) : Res (List Nat) :=
  if n < 0 then .error .domain
  else if base < 2 then .error .argument
  else if n = 0 then .ok [0]
  else .ok (digitLoop base.toNat n.toNat [])

/-- `DIGITS`, monoruby/src/builtins/numeric/integer.rs:1859. -/
def DIGITS : List Char := "0123456789abcdefghijklmnopqrstuvwxyz".toList

/-- monoruby/src/builtins/numeric/integer.rs:1855-1887 `format_integer_base`,
`format_bigint_base` (same loop), and the decimal `format!`, which the library
documents to give the same digits. -/
def formatBase (n base : Nat) : List Char :=
  if n = 0 then ['0']
  else ((digitLoop base n []).map (fun d => DIGITS.getD d '?')).reverse

/-- monoruby/src/builtins/numeric/integer.rs:1811-1853 `to_s`. -/
def toS (n base : Int) : Res (List Char) := do
  let b ← i64Arg base
  if ¬ (2 ≤ b ∧ b ≤ 36) then .error .argument
  else if n < 0 then .ok ('-' :: formatBase (-n).toNat b.toNat)
  else .ok (formatBase n.toNat b.toNat)

/-! ### Integer#[] -/

/-- `i64 >> k`: a shift count is taken modulo 64. -/
def shr64 (b k : Int) : Int := b / 2 ^ (k % 64).toNat

/-- `i64 << k`. -/
def shl64 (b k : Int) : Int := wrap64 (b * 2 ^ (k % 64).toNat)

/-- `(1i64 << w) - 1`. -/
def mask64 (w : Int) : Int := wrap64 (shl64 1 w - 1)

/-- `(BigInt::from(1) << w) - 1`. -/
def maskBig (w : Int) : Int := 2 ^ w.toNat - 1

/-- `base >> k` or `base << -k` on BigInt, the closure `shifted` of
monoruby/src/executor/op.rs:1114-1120 (the left shift of an enormous count aborts the
process for lack of memory: not modelled). -/
def shiftBig (b k : Int) : Int := if k ≥ 0 then b / 2 ^ k.toNat else b * 2 ^ (-k).toNat

/-- All bits from `k` on: monoruby/src/builtins/numeric/integer.rs:1344-1364,
monoruby/src/executor/op.rs:1081-1102, 1122-1137. -/
def bitsFrom (b k : Int) : Int :=
  if isFix b then
    if k ≥ 0 then (if k ≥ 64 then (if b < 0 then -1 else 0) else shr64 b k)
    else b * 2 ^ (-k).toNat
  else shiftBig b k

/-- `self[nth, len]`: monoruby/src/builtins/numeric/integer.rs:1337-1410. -/
def aref2 (b nth len : Int) : Res Int := do
  let k ← i64Arg nth
  let w ← i64Arg len
  if w < 0 then .ok (bitsFrom b k)
  else if isFix b then
    if k < 0 then
      .ok (Int.land (b * 2 ^ (-k).toNat) (if w ≥ 64 then maskBig w else mask64 w))
    else
      let sh := if k ≥ 64 then (if b < 0 then -1 else 0) else shr64 b k
      .ok (Int.land sh (if w ≥ 64 then -1 else mask64 w))
  else
    let sh := shiftBig b k
    if w > (Nat.size sh.natAbs : Int) + 1 then
      if sh ≥ 0 then .ok sh else .ok (Int.land sh (maskBig w))
    else .ok (Int.land sh (maskBig w))

/-- `self[i]` for an Integer `i`: monoruby/src/executor/op.rs:1167-1199. -/
def aref1 (b i : Int) : Int :=
  if isFix b then
    if isFix i then
      if i < 0 then 0 else if i > 63 then (if b < 0 then 1 else 0) else Int.land (shr64 b i) 1
    else 0
  else
    if isFix i then (if i < 0 then 0 else Int.land (b / 2 ^ i.toNat) 1) else 0

/-- `self[..e]`, `self[...e]`: monoruby/src/executor/op.rs:1046-1078. -/
def arefTo (b e : Int) (excl : Bool) : Res Int := do
  let e ← i64Arg e
  let e := if excl then e else wrap64 (e + 1)
  let x :=
    if isFix b then
      if e ≤ 0 then 0 else if e ≥ 64 then b else Int.land b (mask64 e)
    else
      if e ≤ 0 then 0
      else let r := Int.land b (maskBig e); if fits64 r then r else 1
  if x ≠ 0 then .error .argument else .ok 0

/-- `self[s..]`: monoruby/src/executor/op.rs:1081-1104. -/
def arefFrom (b s : Int) : Res Int := do
  let s ← i64Arg s
  .ok (bitsFrom b s)

/-- `self[s..e]`, `self[s...e]`: monoruby/src/executor/op.rs:1106-1165. -/
def arefRange (b s e : Int) (excl : Bool) : Res Int := do
  let s ← i64Arg s
  let er ← i64Arg e
  let e := if excl then er else wrap64 (er + 1)
  let w := wrap64 (e - s)
  if er < s then .ok (bitsFrom b s)
  else if isFix b = true ∧ w < 64 then
    .ok (Int.land (if s ≥ 0 then shr64 b s else shl64 b (wrap64 (-s))) (mask64 w))
  else
    let sh := shiftBig b s
    if w > (Nat.size sh.natAbs : Int) + 1 ∧ sh ≥ 0 then .ok sh
    else .ok (Int.land sh (maskBig w))

/-- monoruby/builtins/integer.rb:182-204 `allbits?`, `anybits?`, `nobits?` with an Integer. -/
def allbits (a m : Int) : Bool := Int.land a m == m
def anybits (a m : Int) : Bool := Int.land a m != 0
def nobits (a m : Int) : Bool := Int.land a m == 0

/-! ### fdiv -/

/-- A double that is not NaN, up to its sign: `m * 2^e`, or infinity. -/
inductive Dbl where
  | fin (m : Nat) (e : Int)
  | inf
deriving DecidableEq, Repr

/-- Round to nearest, ties to even, of `a / b`. -/
def rne (a b : Nat) : Nat :=
  if 2 * (a % b) < b then a / b
  else if 2 * (a % b) > b then a / b + 1
  else a / b + a / b % 2

/-- `q as f64` for `0 ≤ q < 2^63`
(monoruby/src/builtins/numeric/integer.rs:463-470 `to_f`; the conversion of the processor,
which rounds to nearest even). -/
def toF (q : Nat) : Nat × Nat :=
  if q.size ≤ 53 then (q, 0) else (rne q (2 ^ (q.size - 53)), q.size - 53)

/-- `ldexp(m * 2^s, k)` of the C library for `m ≤ 2^53`
(monoruby/src/builtins/math.rs:583-641): exact when the result is a normal number,
else rounded to a multiple of `2^-1074` or infinite. -/
def ldexp (m s : Nat) (k : Int) : Dbl :=
  let e : Int := s + k
  if e < -1074 then .fin (rne m (2 ^ (-1074 - e).toNat)) (-1074)
  else if m ≠ 0 ∧ (m.size : Int) + e > 1024 then .inf
  else .fin m e

/-- `i as i32`, monoruby/src/builtins/math.rs:593. -/
def asI32 (n : Int) : Int := n.bmod (2 ^ 32)

/-- The scaled quotient with its sticky bit: monoruby/builtins/integer.rb:126-137. -/
def scaledQuot (a b : Nat) (extra : Int) : Nat :=
  let n := if extra > 0 then a * 2 ^ extra.toNat else a
  let d := if extra < 0 then b * 2 ^ (-extra).toNat else b
  if n % d ≠ 0 then n / d ||| 1 else n / d

/-- The path of `fdiv` for two non-zero Integers of which one needs more than 53 bits:
monoruby/builtins/integer.rb:104-140. Returns the sign (true for minus) and the size.
`to_f` of operands below 2^54 and the hardware division of the other path are not
modelled. -/
def fdivBig (self other : Int) : Bool × Dbl :=
  let a := self.natAbs
  let b := other.natAbs
  let extra : Int := 56 - (bitLength a : Int) + (bitLength b : Int)
  let f := toF (scaledQuot a b extra)
  (decide (self < 0) != decide (other < 0), ldexp f.1 f.2 (asI32 (-extra)))

end Verif.IntMeth
