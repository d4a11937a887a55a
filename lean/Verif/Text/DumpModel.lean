import Verif.Str.Utf8

/-!
# `String#dump`, `String#inspect`, `String#undump`

`monoruby/src/value/rvalue/string.rs` 921-1000, 1017-1075, 1128-1257 and
`monoruby/src/builtins/string.rs` 7662-7704, 7913-8040.  Bytes are natural numbers below 256.
Error messages are not kept: `none` is a RuntimeError.
-/

namespace Verif.Text
open Verif.Str

/-- a digit of `{:X}` (standard library) -/
def hexd (n : Nat) : Nat := if n < 10 then 48 + n else 55 + n

/-- `{:0>2X}` of a byte -/
def hex2 (b : Nat) : List Nat := [hexd (b / 16), hexd (b % 16)]

/-- `{:0>4X}` of a number below 65536 -/
def hex4 (c : Nat) : List Nat :=
  [hexd (c / 4096), hexd (c / 256 % 16), hexd (c / 16 % 16), hexd (c % 16)]

/-- `{:X}`, as many digits as there are, at most 8 -/
def hexN : Nat → Nat → List Nat
  | 0, _ => []
  | n + 1, c => if c < 16 then [hexd c] else hexN n (c / 16) ++ [hexd (c % 16)]

/-- `\xHH` -/
def xesc (b : Nat) : List Nat := 92 :: 120 :: hex2 b

/-- `\uHHHH` or `\u{H...}`, string.rs:1024-1030, 1071-1075 -/
def uesc (c : Nat) : List Nat :=
  if c ≤ 0xFFFF then 92 :: 117 :: hex4 c else 92 :: 117 :: 123 :: hexN 8 c ++ [125]

/-- the arms of `ascii_escape` and `utf8_inspect_with_next` that give a backslash and a character,
string.rs:1191-1206, 1042-1051: the character -/
def short (b : Nat) : Option Nat :=
  [(34, 34), (92, 92), (9, 116), (11, 118), (10, 110), (13, 114), (12, 102), (8, 98), (7, 97),
    (27, 101)].lookup b

/-- `ascii_escape`, string.rs:1189-1213 -/
def asciiEsc (b : Nat) : List Nat :=
  match short b with
  | some l => [92, l]
  | none => if 32 ≤ b ∧ b ≤ 126 then [b] else xesc b

/-- `matches!(next, b'$' | b'@' | b'{')` -/
def sigil (c : Nat) : Bool := c = 36 || c = 64 || c = 123

/-- `utf8_escape`, string.rs:1017-1031 -/
def utf8Esc (c : Nat) : List Nat := if c < 0x80 then asciiEsc c else uesc c

/-- `utf8_dump_one`, string.rs:1251-1257 -/
def dumpOne (c next : Nat) : List Nat := if c = 35 ∧ sigil next then [92, 35] else utf8Esc c

/-- `utf8_inspect_with_next` with `is_utf8`, string.rs:1038-1077; `pr` is `is_printable` -/
def inspectOne (pr : Nat → Bool) (c next : Nat) : List Nat :=
  if c < 0x80 then
    match short c with
    | some l => [92, l]
    | none =>
      if c = 35 ∧ sigil next then [92, 35]
      else if 32 ≤ c ∧ c ≤ 126 then [c]
      else uesc c
  else if pr c then encode c
  else uesc c

/-- the code point of one character's bytes (`str::chars`, standard library; `decode_encode`) -/
def decode : List Nat → Nat
  | [a] => a
  | [a, b] => (a - 0xC0) * 64 + (b - 0x80)
  | [a, b, c] => (a - 0xE0) * 4096 + (b - 0x80) * 64 + (c - 0x80)
  | [a, b, c, d] => (a - 0xF0) * 262144 + (b - 0x80) * 4096 + (c - 0x80) * 64 + (d - 0x80)
  | _ => 0

/-- the character after this one in the same well-formed run, or `'\0'` -/
def nextChar (bs : List Nat) : Nat :=
  match u8w bs with
  | some w => decode (bs.take w)
  | none => 0

/-- `utf8_dump_with_lookahead` and `utf8_inspect_with_lookahead`, string.rs:1218-1249, 1155-1187: `f`
on each well-formed character, `\xHH` for every byte of an ill-formed subpart.  (The source takes a
maximal well-formed run at once; here a character at a time.) -/
def walk (f : Nat → Nat → List Nat) : Nat → List Nat → List Nat
  | _, [] => []
  | 0, _ :: _ => []
  | n + 1, b :: t =>
    match u8w (b :: t) with
    | some w => f (decode ((b :: t).take w)) (nextChar ((b :: t).drop w)) ++
        walk f n ((b :: t).drop w)
    | none => (((b :: t).take (badLen (b :: t))).map xesc).flatten ++
        walk f n ((b :: t).drop (badLen (b :: t)))

/-- the loop of `dump` for other encodings, string.rs:928-937 -/
def dumpBytes : List Nat → List Nat
  | [] => []
  | b :: t => (if b = 35 ∧ sigil (t.headD 0) then [92, 35] else asciiEsc b) ++ dumpBytes t

/-- `RStringInner::dump`, string.rs:921-939 -/
def dumpBody (e : Enc) (bs : List Nat) : List Nat :=
  if e.utf8Compat then walk dumpOne bs.length bs else dumpBytes bs

/-- `String#dump`, builtins/string.rs:7662-7677: bytes and encoding of the result -/
def dump (e : Enc) (bs : List Nat) : List Nat × Enc :=
  (34 :: dumpBody e bs ++ [34], if e.asciiCompat then e else .utf8)

/-- `RStringInner::inspect`, string.rs:941-1000, in the quotes of `String#inspect`; `none` for the
encodings UTF-16, UTF-32, EUC-JP and Shift_JIS, which are not modelled -/
def inspect (pr : Nat → Bool) (e : Enc) (bs : List Nat) : Option (List Nat) :=
  match e with
  | .utf8 => some (34 :: walk (inspectOne pr) bs.length bs ++ [34])
  | .utf16le | .utf16be | .utf32le | .utf32be | .eucJp | .sjis _ => none
  | .iso2022Jp | .other _ => some (34 :: (bs.map xesc).flatten ++ [34])
  | _ => some (34 :: (bs.map asciiEsc).flatten ++ [34])

/-- `hex_digit`, builtins/string.rs:8019-8026 -/
def hexVal (b : Nat) : Option Nat :=
  if 48 ≤ b ∧ b ≤ 57 then some (b - 48)
  else if 97 ≤ b ∧ b ≤ 102 then some (b - 97 + 10)
  else if 65 ≤ b ∧ b ≤ 70 then some (b - 65 + 10)
  else none

/-- the loop of `parse_hex_str`, builtins/string.rs:8032-8037, with the overflow of `u32` -/
def hexAcc : Nat → List Nat → Option Nat
  | acc, [] => some acc
  | acc, b :: t =>
    match hexVal b with
    | some d => if acc * 16 + d < 2 ^ 32 then hexAcc (acc * 16 + d) t else none
    | none => none

/-- `parse_hex_str`, builtins/string.rs:8028-8038 -/
def parseHex (l : List Nat) : Option Nat := if l = [] then none else hexAcc 0 l

/-- the bytes of the code point named by hex digits, builtins/string.rs:7990-7993, 8001-8005 -/
def uniBytes (l : List Nat) : Option (List Nat) :=
  match parseHex l with
  | some c => if scalar c then some (encode c) else none
  | none => none

/-- `split(|&c| c == b' ')` -/
def spaces : List Nat → List Nat → List (List Nat)
  | cur, [] => [cur.reverse]
  | cur, b :: t => if b = 32 then cur.reverse :: spaces [] t else spaces (b :: cur) t

/-- the code points between braces, builtins/string.rs:7986-7995 -/
def uniList : List (List Nat) → Option (List Nat)
  | [] => some []
  | p :: ps =>
    if p = [] then uniList ps
    else match uniBytes p with
      | some o => (uniList ps).map (o ++ ·)
      | none => none

/-- the named escapes, builtins/string.rs:7950-7961 -/
def named (e : Nat) : Option Nat :=
  if e = 97 then some 7 else if e = 98 then some 8 else if e = 116 then some 9
  else if e = 110 then some 10 else if e = 118 then some 11 else if e = 102 then some 12
  else if e = 114 then some 13 else if e = 101 then some 27 else if e = 115 then some 32
  else if e = 34 then some 34 else if e = 92 then some 92 else if e = 35 then some 35
  else none

/-- `\x`, builtins/string.rs:7962-7973 -/
def xArm : List Nat → Option (List Nat × List Nat)
  | h :: l :: t =>
    match hexVal h, hexVal l with
    | some a, some b => some ([a * 16 + b], t)
    | _, _ => none
  | _ => none

/-- `\u`, builtins/string.rs:7974-8009 -/
def uArm (t : List Nat) : Option (List Nat × List Nat) :=
  if t.head? = some 123 then
    let body := t.tail
    if 125 ∈ body then
      (uniList (spaces [] (body.takeWhile (· ≠ 125)))).map
        fun o => (o, (body.dropWhile (· ≠ 125)).tail)
    else none
  else if 4 ≤ t.length then (uniBytes (t.take 4)).map fun o => (o, t.drop 4)
  else none

/-- one turn of the loop, builtins/string.rs:7929-8011: what is pushed and the rest -/
def one : List Nat → Option (List Nat × List Nat)
  | [] => none
  | b :: t =>
    if b = 0 ∨ 0x80 ≤ b ∨ b = 34 then none
    else if b ≠ 92 then some ([b], t)
    else match t with
      | [] => none
      | e :: t =>
        match named e with
        | some c => some ([c], t)
        | none => if e = 120 then xArm t else if e = 117 then uArm t else none

/-- the loop of `parse_undump` -/
def undumpLoop : Nat → List Nat → Option (List Nat)
  | _, [] => some []
  | 0, _ :: _ => none
  | n + 1, b :: t =>
    match one (b :: t) with
    | some (o, r) => (undumpLoop n r).map (o ++ ·)
    | none => none

/-- `parse_undump`, builtins/string.rs:7913-8017 -/
def parseUndump (s : List Nat) : Option (List Nat) :=
  if s.length < 2 ∨ s.head? ≠ some 34 ∨ s.getLast? ≠ some 34 then none
  else undumpLoop s.length (s.tail.dropLast)

/-- `String#undump`, builtins/string.rs:7692-7704: the result is tagged UTF-8.  (`expect_str` on the
receiver is left out; it succeeds on ASCII bytes.) -/
def undump (s : List Nat) : Option (List Nat × Enc) := (parseUndump s).map fun b => (b, .utf8)

end Verif.Text
