/-
  JSON: `JSON.parse` and `JSON.generate` without options, on bytes and characters.

  Sources: /repo/monoruby/src/builtins/json.rs; /repo/monoruby/stdlib/json.rb:66-96 (which
  calls get here).

  Not modelled: the options (the Ruby parser and generator in stdlib/json/ext), error
  messages, the machine stack (the parser recurses once per nesting level), cyclic arrays
  and hashes, the formatting and reading of floats (dtoa, Rust's `f64::from_str`), which
  are parameters.
-/
namespace Verif.Json

abbrev Byte := UInt8

/-- a byte constant `b'…'` -/
def B (c : Char) : Byte := UInt8.ofNat c.toNat

/-- Strings are stored in UTF-8. -/
def utf8 (cs : List Char) : List Byte := cs.flatMap String.utf8EncodeChar

/-- The character at the front of a byte string, if it is well-formed UTF-8. -/
def decode (bs : List Byte) : Option Char := bs.toByteArray.utf8DecodeChar? 0

/-- What stands for the float routines: `dtoa::Buffer::format` and `str::parse::<f64>`. -/
structure FloatIO where
  F : Type
  fmt : F → List Char
  read : List Char → F
  isNan : F → Bool
  isInf : F → Bool
  isPos : F → Bool

/-- What the parser builds. -/
inductive JV (F : Type) where
  | null
  | bool (b : Bool)
  | int (i : Int)
  | flo (f : F)
  | str (s : List Char)
  | arr (xs : List (JV F))
  | obj (kvs : List (List Char × JV F))

/-! ### The parser -/

/-- `skip_ws` (json.rs:70-77). -/
def isWs (b : Byte) : Bool := b == B ' ' || b == B '\t' || b == B '\n' || b == B '\r'

def skipWs (s : List Byte) : List Byte := s.dropWhile isWs

def isDigit (b : Byte) : Bool := decide (B '0' ≤ b) && decide (b ≤ B '9')

def hexDigit (b : Byte) : Option Nat :=
  if B '0' ≤ b ∧ b ≤ B '9' then some (b.toNat - 48)
  else if B 'a' ≤ b ∧ b ≤ B 'f' then some (b.toNat - 87)
  else if B 'A' ≤ b ∧ b ≤ B 'F' then some (b.toNat - 55)
  else none

def hexVal : List Byte → Nat → Option Nat
  | [], a => some a
  | b :: r, a => match hexDigit b with
    | some d => hexVal r (16 * a + d)
    | none => none

/-- `parse_unicode_escape` (json.rs:199-207); `from_str_radix` takes a leading `+`. -/
def hex4 : List Byte → Option (Nat × List Byte)
  | a :: b :: c :: d :: r =>
    (if a = B '+' then hexVal [b, c, d] 0 else hexVal [a, b, c, d] 0).map fun v => (v, r)
  | _ => none

/-- One turn of the loop in `parse_string_raw`. -/
inductive StrStep where
  | fail
  | close (rest : List Byte)
  | push (cs : List Char) (rest : List Byte)

def replacement : Char := Char.ofNat 0xFFFD

/-- after a high surrogate `cp` (json.rs:140-154) -/
def lowStep (cp : Nat) : List Byte → StrStep
  | x :: y :: r =>
    if x = B '\\' ∧ y = B 'u' then
      match hex4 r with
      | none => .fail
      | some (low, r') =>
        if 0xDC00 ≤ low ∧ low ≤ 0xDFFF then
          .push [Char.ofNat (0x10000 + ((cp - 0xD800) * 1024) + (low - 0xDC00))] r'
        else .push [replacement] r'
    else .push [replacement] (x :: y :: r)
  | r => .push [replacement] r

/-- after `\u` (json.rs:138-158) -/
def uniStep (s : List Byte) : StrStep :=
  match hex4 s with
  | none => .fail
  | some (cp, r) =>
    if 0xD800 ≤ cp ∧ cp ≤ 0xDBFF then lowStep cp r
    else if cp.isValidChar then .push [Char.ofNat cp] r
    else .fail

/-- after a backslash (json.rs:127-164) -/
def escStep : List Byte → StrStep
  | [] => .fail
  | e :: r =>
    if e = B '"' then .push ['"'] r
    else if e = B '\\' then .push ['\\'] r
    else if e = B '/' then .push ['/'] r
    else if e = B 'b' then .push [Char.ofNat 8] r
    else if e = B 'f' then .push [Char.ofNat 12] r
    else if e = B 'n' then .push ['\n'] r
    else if e = B 'r' then .push ['\r'] r
    else if e = B 't' then .push ['\t'] r
    else if e = B 'u' then uniStep r
    else .push ['\\', Char.ofNat e.toNat] r

/-- the body of the loop of `parse_string_raw` (json.rs:124-196). The decoding of a
multi-byte character there looks at the whole rest of the text, but takes its first
character if that is well-formed, else skips a byte. -/
def strStep : List Byte → StrStep
  | [] => .fail
  | b :: r =>
    if b = B '"' then .close r
    else if b = B '\\' then escStep r
    else if 0x80 ≤ b then
      match decode (b :: r) with
      | some c => .push [c] ((b :: r).drop c.utf8Size)
      | none => .push [replacement] r
    else .push [Char.ofNat b.toNat] r

/-- `parse_string_raw` (json.rs:118-197), after the opening quote; the first argument
bounds the number of turns. -/
def pStr : Nat → List Byte → Option (List Char × List Byte)
  | 0, _ => none
  | n + 1, s => match strStep s with
    | .fail => none
    | .close r => some ([], r)
    | .push cs r => (pStr n r).map fun q => (cs ++ q.1, q.2)

def pString (s : List Byte) : Option (List Char × List Byte) := pStr (s.length + 1) s

def digits (s : List Byte) : List Byte × List Byte := (s.takeWhile isDigit, s.dropWhile isDigit)

def startsDigit : List Byte → Bool
  | [] => false
  | b :: _ => isDigit b

/-- the digits of the integer part, after the sign (json.rs:214-228): what is consumed and
what is left -/
def pNat (sign : List Byte) : List Byte → Option (List Byte × List Byte)
  | [] => none
  | b :: r =>
    if b = B '0' then some (sign ++ [b], r)
    else if isDigit b then some (sign ++ b :: (digits r).1, (digits r).2)
    else none

/-- the sign and integer part (json.rs:210-228) -/
def pIntPart : List Byte → Option (List Byte × List Byte)
  | [] => none
  | b :: r => if b = B '-' then pNat [b] r else pNat [] (b :: r)

/-- the fractional part (json.rs:229-240) -/
def pFrac : List Byte → Option (List Byte × List Byte)
  | [] => some ([], [])
  | b :: r =>
    if b = B '.' then
      if startsDigit r then some (b :: (digits r).1, (digits r).2) else none
    else some ([], b :: r)

/-- the sign of an exponent -/
def pSign : List Byte → List Byte × List Byte
  | [] => ([], [])
  | b :: r => if b = B '+' ∨ b = B '-' then ([b], r) else ([], b :: r)

/-- the exponent (json.rs:241-255) -/
def pExp : List Byte → Option (List Byte × List Byte)
  | [] => some ([], [])
  | b :: r =>
    if b = B 'e' ∨ b = B 'E' then
      if startsDigit (pSign r).2 then
        some (b :: (pSign r).1 ++ (digits (pSign r).2).1, (digits (pSign r).2).2)
      else none
    else some ([], b :: r)

def asChars (s : List Byte) : List Char := s.map fun b => Char.ofNat b.toNat

/-- decimal value of a digit string -/
def decNat (s : List Byte) : Nat := s.foldl (fun a b => 10 * a + (b.toNat - 48)) 0

/-- `str::parse::<i64>` of an integer token -/
def parseI64 (tok : List Byte) : Option Int :=
  let i : Int := match tok with
    | b :: r => if b = B '-' then -(decNat r : Int) else decNat (b :: r)
    | [] => 0
  if -(2 ^ 63) ≤ i ∧ i < 2 ^ 63 then some i else none

/-- the end of `parse_number` (json.rs:256-269): an integer token that is not an `i64`
is read as a float. -/
def numValue (P : FloatIO) (tok : List Byte) (isFloat : Bool) : JV P.F :=
  if isFloat then .flo (P.read (asChars tok))
  else match parseI64 tok with
    | some i => .int i
    | none => .flo (P.read (asChars tok))

/-- `parse_number` (json.rs:209-270). -/
def pNumber (P : FloatIO) (s : List Byte) : Option (JV P.F × List Byte) :=
  match pIntPart s with
  | none => none
  | some (t1, s1) =>
    match pFrac s1 with
    | none => none
    | some (t2, s2) =>
      match pExp s2 with
      | none => none
      | some (t3, s3) => some (numValue P (t1 ++ t2 ++ t3) (!t2.isEmpty || !t3.isEmpty), s3)

/-- `parse_literal` (json.rs:337-345). -/
def pLit {F : Type} (word : List Char) (v : JV F) (s : List Byte) : Option (JV F × List Byte) :=
  if (word.map B).isPrefixOf s then some (v, s.drop word.length) else none

/-- `RubyMap::insert`: replaces the value of a known key in place. -/
def insertKV {F : Type} (m : List (List Char × JV F)) (k : List Char) (v : JV F) : List (List Char × JV F) :=
  match m with
  | [] => [(k, v)]
  | (k', v') :: r => if k' = k then (k', v) :: r else (k', v') :: insertKV r k v

abbrev PV (F : Type) := List Byte → Option (JV F × List Byte)

/-- the loop of `parse_array` (json.rs:317-333), with what is parsed so far -/
def pItems {F : Type} (pv : PV F) : Nat → List (JV F) → List Byte → Option (JV F × List Byte)
  | 0, _, _ => none
  | n + 1, acc, s =>
    match pv s with
    | none => none
    | some (v, r) =>
      match skipWs r with
      | [] => none
      | b :: r' =>
        if b = B ',' then pItems pv n (acc ++ [v]) r'
        else if b = B ']' then some (.arr (acc ++ [v]), r')
        else none

/-- `parse_array` (json.rs:309-334), after the bracket -/
def pArray {F : Type} (pv : PV F) (s : List Byte) : Option (JV F × List Byte) :=
  match skipWs s with
  | [] => none
  | b :: r => if b = B ']' then some (.arr [], r) else pItems pv (s.length + 1) [] (b :: r)

/-- a key and its colon: `parse_string`, `expect(b':')` (json.rs:281-289) -/
def pKey (s : List Byte) : Option (List Char × List Byte) :=
  match skipWs s with
  | [] => none
  | b :: r =>
    if b = B '"' then
      match pString r with
      | none => none
      | some (k, r) =>
        match skipWs r with
        | [] => none
        | b :: r => if b = B ':' then some (k, r) else none
    else none

/-- the loop of `parse_object` (json.rs:280-306) -/
def pPairs {F : Type} (pv : PV F) : Nat → List (List Char × JV F) → List Byte → Option (JV F × List Byte)
  | 0, _, _ => none
  | n + 1, acc, s =>
    match pKey s with
    | none => none
    | some (k, r) =>
      match pv r with
      | none => none
      | some (v, r) =>
        match skipWs r with
        | [] => none
        | b :: r' =>
          if b = B ',' then pPairs pv n (insertKV acc k v) r'
          else if b = B '}' then some (.obj (insertKV acc k v), r')
          else none

/-- `parse_object` (json.rs:272-306), after the brace -/
def pObject {F : Type} (pv : PV F) (s : List Byte) : Option (JV F × List Byte) :=
  match skipWs s with
  | [] => none
  | b :: r => if b = B '}' then some (.obj [], r) else pPairs pv (s.length + 1) [] (b :: r)

/-- `parse_value` (json.rs:93-111); the first argument bounds the nesting. -/
def pValue (P : FloatIO) : Nat → PV P.F
  | 0, _ => none
  | n + 1, s =>
    match skipWs s with
    | [] => none
    | b :: r =>
      if b = B '"' then (pString r).map fun q => (.str q.1, q.2)
      else if b = B '{' then pObject (pValue P n) r
      else if b = B '[' then pArray (pValue P n) r
      else if b = B 't' then pLit "true".toList (.bool true) (b :: r)
      else if b = B 'f' then pLit "false".toList (.bool false) (b :: r)
      else if b = B 'n' then pLit "null".toList .null (b :: r)
      else if b = B '-' ∨ isDigit b = true then pNumber P (b :: r)
      else none

/-- `JSON.parse` (json.rb:66-74, json.rs:10-16) on the bytes of a valid UTF-8 string;
`none` is an exception. What follows the value is not looked at. -/
def parse (P : FloatIO) (s : List Byte) : Option (JV P.F) := (pValue P (s.length + 1) s).map (·.1)

/-! ### The generator -/

/-- A Hash key, by its `to_s`. -/
inductive Key where
  | str (s : List Char)
  | other (tos : List Char)

def Key.tos : Key → List Char
  | .str s => s
  | .other s => s

/-- A Ruby value: `other` is any object not treated specially, by its `to_s`. -/
inductive RV (F : Type) where
  | nil
  | bool (b : Bool)
  | int (i : Int)
  | flo (f : F)
  | str (s : List Char)
  | arr (xs : List (RV F))
  | hash (kvs : List (Key × RV F))
  | other (tos : List Char)

def hexChar (n : Nat) : Char := if n < 10 then Char.ofNat (48 + n) else Char.ofNat (87 + n)

/-- one character of `generate_string` (json.rs:593-606) -/
def genChar (c : Char) : List Char :=
  if c = '"' then ['\\', '"']
  else if c = '\\' then ['\\', '\\']
  else if c = '\n' then ['\\', 'n']
  else if c = '\r' then ['\\', 'r']
  else if c = '\t' then ['\\', 't']
  else if c = Char.ofNat 8 then ['\\', 'b']
  else if c = Char.ofNat 12 then ['\\', 'f']
  else if c.toNat < 0x20 then ['\\', 'u', '0', '0', hexChar (c.toNat / 16), hexChar (c.toNat % 16)]
  else [c]

/-- `generate_string` (json.rs:590-608). -/
def genString (s : List Char) : List Char := '"' :: (s.flatMap genChar ++ ['"'])

/-- the decimal digits of a number, as `to_string` prints them -/
def dec (n : Nat) : List Char :=
  if n < 10 then [Char.ofNat (48 + n)] else dec (n / 10) ++ [Char.ofNat (48 + n % 10)]
termination_by n

def intDec (i : Int) : List Char := if i < 0 then '-' :: dec i.natAbs else dec i.natAbs

/-- small integers, kept in the value word (`try_fixnum`, value.rs:2341) -/
def isFixnum (i : Int) : Bool := decide (-(2 ^ 62) ≤ i) && decide (i < 2 ^ 62)

/-- the float arm of `generate` (json.rs:361-371) -/
def genFloat (P : FloatIO) (f : P.F) : List Char :=
  if P.isNan f then "NaN".toList
  else if P.isInf f then if P.isPos f then "Infinity".toList else "-Infinity".toList
  else P.fmt f

mutual
/-- `generate` (json.rs:352-396). A String that is not valid UTF-8 is outside the model. An Integer that is not small falls through to the last
arm. -/
def gen (P : FloatIO) : RV P.F → List Char
  | .nil => "null".toList
  | .bool true => "true".toList
  | .bool false => "false".toList
  | .int i => if isFixnum i then intDec i else genString (intDec i)
  | .flo f => genFloat P f
  | .str s => genString s
  | .arr xs => '[' :: (genItems P xs ++ [']'])
  | .hash kvs => '{' :: (genPairs P kvs ++ ['}'])
  | .other s => genString s

/-- the loop over the elements (json.rs:375-382) -/
def genItems (P : FloatIO) : List (RV P.F) → List Char
  | [] => []
  | [v] => gen P v
  | v :: w :: r => gen P v ++ ',' :: genItems P (w :: r)

/-- the loop over the pairs (json.rs:384-393) -/
def genPairs (P : FloatIO) : List (Key × RV P.F) → List Char
  | [] => []
  | [(k, v)] => genString k.tos ++ ':' :: gen P v
  | (k, v) :: w :: r => genString k.tos ++ ':' :: (gen P v ++ ',' :: genPairs P (w :: r))
end

/-- `JSON.generate` (json.rb:89-95, json.rs:20-30). -/
def generate (P : FloatIO) (v : RV P.F) : List Byte := utf8 (gen P v)

end Verif.Json
