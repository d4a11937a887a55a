import Mathlib.Logic.Function.Basic

/-!
# Numbers in strings: `String#to_i`, `hex`, `oct`, `sum`

`monoruby/src/builtins/string.rs` 5326-5571 and 7309-7323.  A string is its list of code points.
Integers are mathematical: how a value becomes a fixnum or a bignum is in `Verif.IntArith`.
-/

namespace Verif.Text

/-- `char::to_digit(radix)` (standard library) -/
def toDigit (r c : Nat) : Option Nat :=
  let d := if 48 ≤ c ∧ c ≤ 57 then some (c - 48)
    else if 97 ≤ c ∧ c ≤ 122 then some (c - 97 + 10)
    else if 65 ≤ c ∧ c ≤ 90 then some (c - 65 + 10)
    else none
  match d with
  | some x => if x < r then some x else none
  | none => none

/-- `char::is_whitespace` (standard library), used by `trim_start` -/
def uniWs (c : Nat) : Bool :=
  (9 ≤ c && c ≤ 13) || c = 32 || c = 0x85 || c = 0xA0 || c = 0x1680 || (0x2000 ≤ c && c ≤ 0x200A) ||
    c = 0x2028 || c = 0x2029 || c = 0x202F || c = 0x205F || c = 0x3000

/-- `char::is_ascii_whitespace` (standard library) -/
def asciiWs (c : Nat) : Bool := c = 9 || c = 10 || c = 12 || c = 13 || c = 32

/-- the loop of `parse_i64` and `parse_bigint`, string.rs:5501-5531 and 5539-5568; `lim` is the
largest `i64`, or nothing for a BigInt; `sign` is `some true` after `-`; `none` is the overflow -/
def scan (r : Nat) (lim : Option Nat) : Option Bool → Bool → Nat → List Nat → Option (Nat × Option Bool)
  | sign, _, acc, [] => some (acc, sign)
  | sign, und, acc, c :: t =>
    if und ∧ c = 95 then scan r lim sign false acc t
    else if sign = none ∧ c = 45 then scan r lim (some true) false acc t
    else if sign = none ∧ c = 43 then scan r lim (some false) false acc t
    else
      let sign := if sign = none then some false else sign
      match toDigit r c with
      | none => some (acc, sign)
      | some d =>
        if lim.all (acc * r + d ≤ ·) then scan r lim sign true (acc * r + d) t else none

/-- `parse_i64`, string.rs:5496-5532: the sign it returns is not looked at -/
def parseI64 (s : List Nat) (r : Nat) : Option Nat :=
  (scan r (some (2 ^ 63 - 1)) none false 0 (s.dropWhile asciiWs)).map Prod.fst

/-- `parse_bigint`, string.rs:5534-5571 -/
def parseBigint (s : List Nat) (r : Nat) : Int :=
  match scan r none none false 0 (s.dropWhile asciiWs) with
  | some (v, sign) => if sign = some true then -(v : Int) else v
  | none => 0

/-- `parse_int_value`, string.rs:5474-5494 -/
def parseIntValue (s : List Nat) (r : Nat) (neg : Bool) : Int :=
  match parseI64 s r with
  | some i => if neg then -(i : Int) else i
  | none => if neg then -parseBigint s r else parseBigint s r

/-- `strip_sign`, string.rs:5356-5364 -/
def stripSign : List Nat → List Nat × Bool
  | 45 :: t => (t, true)
  | 43 :: t => (t, false)
  | s => (s, false)

/-- `strip_prefix` with a lower and an upper case letter after `0` -/
def stripPre (l : Nat) : List Nat → Option (List Nat)
  | 48 :: c :: t => if c = l ∨ c + 32 = l then some t else none
  | _ => none

/-- `try_strip`, string.rs:5373-5380 -/
def tryStrip (s : List Nat) (radix base l : Nat) : Option (List Nat) :=
  if radix = 0 ∨ radix = base then stripPre l s else none

/-- `strip_int_prefix`, string.rs:5372-5398 -/
def stripIntPrefix (s : List Nat) (radix : Nat) : List Nat × Nat :=
  match tryStrip s radix 16 120 with
  | some t => (t, 16)
  | none =>
    match tryStrip s radix 2 98 with
    | some t => (t, 2)
    | none =>
      match tryStrip s radix 10 100 with
      | some t => (t, 10)
      | none =>
        match tryStrip s radix 8 111 with
        | some t => (t, 8)
        | none =>
          if radix = 0 then
            (match s with
             | 48 :: c :: _ => if 48 ≤ c ∧ c ≤ 57 then (s, 8) else (s, 10)
             | _ => (s, 10))
          else (s, radix)

/-- `matches!(s.chars().next(), Some('+') | Some('-'))` -/
def signed (s : List Nat) : Bool := s.head? = some 43 || s.head? = some 45

/-- `String#to_i` once the sign is off, string.rs:5337-5351 -/
def toITail (p : List Nat × Bool) (radix : Nat) : Int :=
  if signed p.1 then 0
  else
    let q := stripIntPrefix p.1 radix
    if signed q.1 then 0 else parseIntValue q.1 q.2 p.2

/-- `String#to_i` with radix 0 or 2..36, string.rs:5326-5352 -/
def toI (s : List Nat) (radix : Nat) : Int := toITail (stripSign (s.dropWhile uniWs)) radix

/-- `String#hex`, string.rs:5407-5434 -/
def hex (s : List Nat) : Int :=
  let p := stripSign (s.dropWhile uniWs)
  let q := (stripPre 120 p.1).getD p.1
  if signed q then 0 else parseIntValue q 16 p.2

/-- the prefixes of `oct`, string.rs:5458-5468 -/
def octPrefix (s : List Nat) : List Nat × Nat :=
  match stripPre 120 s with
  | some t => (t, 16)
  | none =>
    match stripPre 98 s with
    | some t => (t, 2)
    | none =>
      match stripPre 100 s with
      | some t => (t, 10)
      | none =>
        match stripPre 111 s with
        | some t => (t, 8)
        | none => (s, 8)

/-- `String#oct`, string.rs:5442-5471 -/
def oct (s : List Nat) : Int :=
  let p := stripSign (s.dropWhile uniWs)
  let q := octPrefix p.1
  if signed q.1 then 0 else parseIntValue q.1 q.2 p.2

/-- the digits `Integer#to_s(radix)` writes for a natural number, the last first -/
def digitsRev (r : Nat) : Nat → Nat → List Nat
  | 0, _ => []
  | f + 1, n => (if n % r < 10 then 48 + n % r else 87 + n % r) ::
      if n < r then [] else digitsRev r f (n / r)

/-- `Integer#to_s(radix)` (`BigInt::to_str_radix` and `i64`, by their documented meaning) -/
def intToS (r : Nat) (n : Int) : List Nat :=
  (if n < 0 then [45] else []) ++ (digitsRev r (n.natAbs + 1) n.natAbs).reverse

/-- `String#sum(bits)`, string.rs:7309-7323; the `u64` shift takes its count modulo 64 (release
build) -/
def sum (bs : List Nat) (bits : Int) : Nat :=
  (bs.foldl (· + ·) 0) &&& (2 ^ ((bits % 64).toNat) - 1)

end Verif.Text
