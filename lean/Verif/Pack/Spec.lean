import Mathlib.Data.List.Basic
import Verif.Pack.Model

/-!
# What `pack` and `unpack` should do

The directives as Ruby documents them, and records: lists of fields, each with its text in the
template, the arguments it takes and the values it should give back.  Only the types `PV` and `Err`
come from the model.
-/

namespace Verif.Pack

/-- The letters with native and platform modifiers: letter, width, width with `!` or `_`, signed. -/
def modifiable : List (Char × Nat × Nat × Bool) :=
  [('s', 2, 2, true), ('S', 2, 2, false), ('i', 4, 4, true), ('I', 4, 4, false),
   ('l', 4, 8, true), ('L', 4, 8, false), ('q', 8, 8, true), ('Q', 8, 8, false),
   ('j', 8, 8, true), ('J', 8, 8, false)]

/-- The fixed-width integer directives: text, width in bytes, signed, big-endian. -/
def fixedDirectives : List (String × Nat × Bool × Bool) :=
  [("c", 1, true, false), ("C", 1, false, false), ("n", 2, false, true), ("N", 4, false, true),
   ("v", 2, false, false), ("V", 4, false, false)] ++
  modifiable.flatMap fun (c, w, wn, s) =>
    [(String.ofList [c], w, s, false), (String.ofList [c, '<'], w, s, false),
     (String.ofList [c, '>'], w, s, true), (String.ofList [c, '!'], wn, s, false),
     (String.ofList [c, '_'], wn, s, false), (String.ofList [c, '!', '<'], wn, s, false),
     (String.ofList [c, '!', '>'], wn, s, true), (String.ofList [c, '_', '>'], wn, s, true),
     (String.ofList [c, '>', '!'], wn, s, true)]

/-- The double-precision directives: text, big-endian. -/
def doubleDirectives : List (String × Bool) :=
  [("d", false), ("D", false), ("E", false), ("G", true), ("d>", true), ("D<", false)]

/-- An Integer reduced to `w` bytes: the representative of its class modulo `256 ^ w` that the
signedness calls for. -/
def reduce (w : Nat) (signed : Bool) (i : Int) : Int :=
  if signed then i.bmod (256 ^ w) else i % 256 ^ w

/-- A hex digit in lower case. -/
def lowerHex (c : Nat) : Nat := if 65 ≤ c ∧ c ≤ 70 then c + 32 else c

/-- `s` cut or filled with `pad` to `n` bytes. -/
def fit (pad n : Nat) (s : List Nat) : List Nat := (s ++ List.replicate n pad).take n

/-- A field of a record. -/
inductive Field where
  | ints (d : String) (w : Nat) (signed big : Bool) (is : List Int)
  | doubles (d : String) (big : Bool) (fs : List Nat)
  | bytes (n : Nat) (s : List Nat)
  | text (n : Nat) (s : List Nat)
  | cstring (n : Nat) (s : List Nat)
  | hex (high : Bool) (n : Nat) (s : List Nat)
  | bits (high : Bool) (n : Nat) (s : List Nat)
  | chars (cps : List Nat)
  | ber (is : List Int)
  | uleb (is : List Int)
  | sleb (is : List Int)
  | skip (n : Nat)

/-- The directive of a field, without the count. -/
def Field.directive : Field → String
  | .ints d .. => d
  | .doubles d .. => d
  | .bytes .. => "a"
  | .text .. => "A"
  | .cstring .. => "Z"
  | .hex high .. => if high then "H" else "h"
  | .bits high .. => if high then "B" else "b"
  | .chars .. => "U"
  | .ber .. => "w"
  | .uleb .. => "R"
  | .sleb .. => "r"
  | .skip .. => "x"

/-- The count of a field. -/
def Field.count : Field → Nat
  | .ints _ _ _ _ is => is.length
  | .doubles _ _ fs => fs.length
  | .bytes n _ => n
  | .text n _ => n
  | .cstring n _ => n
  | .hex _ n _ => n
  | .bits _ n _ => n
  | .chars cps => cps.length
  | .ber is => is.length
  | .uleb is => is.length
  | .sleb is => is.length
  | .skip n => n

/-- Does the field name a directive of Ruby and hold values of its domain? -/
def Field.Ok : Field → Prop
  | .ints d w signed big _ => (d, w, signed, big) ∈ fixedDirectives
  | .doubles d big fs => (d, big) ∈ doubleDirectives ∧ ∀ b ∈ fs, b < 2 ^ 64
  | .bytes _ _ => True
  | .text n s => s.length ≤ n ∧ s.getLast? ≠ some 32 ∧ s.getLast? ≠ some 0
  | .cstring n s => s.length ≤ n ∧ 0 ∉ s
  | .hex _ _ s => ∀ c ∈ s, (48 ≤ c ∧ c ≤ 57) ∨ (65 ≤ c ∧ c ≤ 70) ∨ (97 ≤ c ∧ c ≤ 102)
  | .bits _ _ s => ∀ c ∈ s, c = 48 ∨ c = 49
  | .chars cps => ∀ c ∈ cps, c < 0x200000
  | .ber is => ∀ i ∈ is, 0 ≤ i ∧ i < 2 ^ 63
  | .uleb is => ∀ i ∈ is, 0 ≤ i ∧ i < 2 ^ 64
  | .sleb is => ∀ i ∈ is, -(2 ^ 63) ≤ i ∧ i < 2 ^ 63
  | .skip _ => True

/-- The arguments the field takes. -/
def Field.args : Field → List PV
  | .ints _ _ _ _ is => is.map .int
  | .doubles _ _ fs => fs.map .flt
  | .bytes _ s => [.str s]
  | .text _ s => [.str s]
  | .cstring _ s => [.str s]
  | .hex _ _ s => [.str s]
  | .bits _ _ s => [.str s]
  | .chars cps => cps.map fun (c : Nat) => .int c
  | .ber is => is.map .int
  | .uleb is => is.map .int
  | .sleb is => is.map .int
  | .skip _ => []

/-- The values the field should give back. -/
def Field.values : Field → List PV
  | .ints _ w signed _ is => is.map fun i => .int (reduce w signed i)
  | .doubles _ _ fs => fs.map .flt
  | .bytes n s => [.str (fit 0 n s)]
  | .text _ s => [.str s]
  | .cstring _ s => [.str s]
  | .hex _ n s => [.str (fit 48 n (s.map lowerHex))]
  | .bits _ n s => [.str (fit 48 n s)]
  | .chars cps => cps.map fun (c : Nat) => .int c
  | .ber is => is.map .int
  | .uleb is => is.map .int
  | .sleb is => is.map .int
  | .skip _ => []

/-- The template of a record: each directive followed by its count in decimal. -/
def recordTemplate (fs : List Field) : String :=
  String.join (fs.map fun f => f.directive ++ toString f.count)

end Verif.Pack
