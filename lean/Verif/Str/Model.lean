import Mathlib.Logic.Function.Basic

/-!
# Strings: bytes, encoding and the cached code range

`monoruby/src/value/rvalue/string.rs` (`Encoding`, `CharByteIter`, `RStringInner`), the callers in
`builtins/string.rs`, `codegen/runtime.rs` (`concatenate_string_inner`) and the machine code of
`String#<<` and `String#setbyte` (`codegen/arch/x86_64/compile/builtin.rs`).

A byte is a `Nat`; nothing below needs it to be under 256.  How the buffer is stored (inline,
heap, shared view) is the subject of `Verif.Share`.  The decoder of ISO-2022-JP belongs to the
`encoding_rs` crate: its verdict is a parameter `iso`.
-/

namespace Verif.Str

/-- `Encoding`, string.rs:185-290.  The byte orders of UTF-16 and UTF-32 are kept apart. -/
inductive Enc where
  | ascii8 | utf8 | usAscii
  | utf16le | utf16be | utf32le | utf32be
  | iso8859 (n : Nat) | eucJp | sjis (n : Nat) | iso2022Jp | other (n : Nat) | namedByte (n : Nat)
deriving DecidableEq, Repr

/-- `CodeRange`, string.rs:146-170 -/
inductive CR where
  | unknown | sevenBit | valid | broken
deriving DecidableEq, Repr

/-- `is_ascii_compatible`, string.rs:295-305 -/
def Enc.asciiCompat : Enc → Bool
  | .utf16le | .utf16be | .utf32le | .utf32be | .iso2022Jp | .other _ => false
  | _ => true

/-- `is_utf8_compatible`, string.rs:310-312 -/
def Enc.utf8Compat : Enc → Bool
  | .utf8 | .usAscii => true
  | _ => false

/-- the JIT's one-byte encoding tags 0..=6, x86_64/compile/builtin.rs:296-320 -/
def Enc.tag : Enc → Nat
  | .ascii8 => 0 | .utf8 => 1 | .usAscii => 2
  | .utf16le => 3 | .utf16be => 4 | .utf32le => 5 | .utf32be => 6
  | .iso8859 _ => 7 | .eucJp => 8 | .sjis _ => 9 | .iso2022Jp => 10 | .other _ => 11
  | .namedByte _ => 12

/-! ## Widths of characters -/

/-- a continuation byte, `b & 0xC0 == 0x80` for a byte `b` -/
def cont (b : Nat) : Bool := 0x80 ≤ b && b < 0xC0

/-- second byte after a three-byte lead, per the table of `core::str::from_utf8` -/
def ok3 (b0 b1 : Nat) : Bool :=
  if b0 = 0xE0 then 0xA0 ≤ b1 && b1 < 0xC0
  else if b0 = 0xED then 0x80 ≤ b1 && b1 < 0xA0
  else cont b1

/-- second byte after a four-byte lead -/
def ok4 (b0 b1 : Nat) : Bool :=
  if b0 = 0xF0 then 0x90 ≤ b1 && b1 < 0xC0
  else if b0 = 0xF4 then 0x80 ≤ b1 && b1 < 0x90
  else cont b1

/-- Width of the UTF-8 scalar at the head of the bytes, as `core::str::from_utf8` accepts it
(standard library; `C116_utf8_spec` relates it to Unicode scalar values). -/
def u8w : List Nat → Option Nat
  | [] => none
  | b0 :: t =>
    if b0 < 0x80 then some 1
    else if 0xC2 ≤ b0 ∧ b0 ≤ 0xDF then
      match t with
      | b1 :: _ => if cont b1 then some 2 else none
      | _ => none
    else if 0xE0 ≤ b0 ∧ b0 ≤ 0xEF then
      match t with
      | b1 :: b2 :: _ => if ok3 b0 b1 && cont b2 then some 3 else none
      | _ => none
    else if 0xF0 ≤ b0 ∧ b0 ≤ 0xF4 then
      match t with
      | b1 :: b2 :: b3 :: _ => if ok4 b0 b1 && cont b2 && cont b3 then some 4 else none
      | _ => none
    else none

/-- `eucjp_char_width`, string.rs:15-38 -/
def eucw : List Nat → Option Nat
  | [] => none
  | c0 :: t =>
    if c0 < 0x80 then some 1
    else if c0 = 0x8e then
      match t with
      | b1 :: _ => if 0xa1 ≤ b1 && b1 ≤ 0xdf then some 2 else none
      | _ => none
    else if c0 = 0x8f then
      match t with
      | b1 :: b2 :: _ =>
        if 0xa1 ≤ b1 && b1 ≤ 0xfe && 0xa1 ≤ b2 && b2 ≤ 0xfe then some 3 else none
      | _ => none
    else if 0xa1 ≤ c0 ∧ c0 ≤ 0xfe then
      match t with
      | b1 :: _ => if 0xa1 ≤ b1 && b1 ≤ 0xfe then some 2 else none
      | _ => none
    else none

/-- `sjis_char_width`, string.rs:40-54 -/
def sjisw : List Nat → Option Nat
  | [] => none
  | c0 :: t =>
    if c0 < 0x80 ∨ (0xa1 ≤ c0 ∧ c0 ≤ 0xdf) then some 1
    else if (0x81 ≤ c0 ∧ c0 ≤ 0x9f) ∨ (0xe0 ≤ c0 ∧ c0 ≤ 0xfc) then
      match t with
      | b1 :: _ => if (0x40 ≤ b1 && b1 ≤ 0x7e) || (0x80 ≤ b1 && b1 ≤ 0xfc) then some 2 else none
      | _ => none
    else none

/-- The loop that steps over characters until the end or an invalid one: string.rs:436-445 and the
loop of `core::str::from_utf8`.  `fuel` bounds the number of steps. -/
def chk (w : List Nat → Option Nat) : Nat → List Nat → Bool
  | _, [] => true
  | 0, _ :: _ => false
  | n + 1, b :: t =>
    match w (b :: t) with
    | some k => chk w n ((b :: t).drop k)
    | none => false

/-- `from_utf8(..).is_ok()` for `w = u8w` -/
def wellFormed (w : List Nat → Option Nat) (bs : List Nat) : Bool := chk w bs.length bs

/-- `Encoding::classify`, string.rs:386-462 -/
def classify (iso : List Nat → Bool) (e : Enc) (bs : List Nat) : CR :=
  if bs = [] then .sevenBit
  else if e.asciiCompat && bs.all (· < 0x80) then .sevenBit
  else
    match e with
    | .usAscii => .broken
    | .utf8 => if wellFormed u8w bs then .valid else .broken
    | .ascii8 | .other _ | .namedByte _ | .iso8859 _ => .valid
    | .utf16le | .utf16be => if bs.length % 2 = 0 then .valid else .broken
    | .utf32le | .utf32be => if bs.length % 4 = 0 then .valid else .broken
    | .eucJp => if wellFormed eucw bs then .valid else .broken
    | .sjis _ => if wellFormed sjisw bs then .valid else .broken
    | .iso2022Jp => if iso bs then .valid else .broken

/-! ## Characters -/

/-- number of bytes a UTF-8 lead byte asks for, string.rs:113-123 -/
def needed (b : Nat) : Nat := if b < 0xE0 then 2 else if b < 0xF0 then 3 else 4

/-- Width of the next item of `CharByteIter::next`, string.rs:80-137, before it is cut to the rest
of the buffer. -/
def iterW (e : Enc) : List Nat → Nat
  | [] => 1
  | b :: t =>
    match e with
    | .ascii8 | .usAscii | .iso8859 _ | .other _ | .namedByte _ | .iso2022Jp => 1
    | .eucJp => if b = 0x8e then 2 else if b = 0x8f then 3 else if 0xa1 ≤ b ∧ b ≤ 0xfe then 2 else 1
    | .sjis _ => if (0x81 ≤ b ∧ b ≤ 0x9f) ∨ (0xe0 ≤ b ∧ b ≤ 0xfc) then 2 else 1
    | .utf16le | .utf16be => 2
    | .utf32le | .utf32be => 4
    | .utf8 =>
      if b < 0xC0 then 1
      else if needed b ≤ (b :: t).length && wellFormed u8w ((b :: t).take (needed b)) then needed b
      else 1

/-- the items of `iter_char_bytes`, string.rs:71-143, 1467-1474 -/
def iter (e : Enc) : Nat → List Nat → List (List Nat)
  | _, [] => []
  | 0, _ :: _ => []
  | n + 1, b :: t =>
    (b :: t).take (iterW e (b :: t)) :: iter e n ((b :: t).drop (iterW e (b :: t)))

/-- `String#chars` -/
def chars (e : Enc) (bs : List Nat) : List (List Nat) := iter e bs.length bs

/-! ## A string -/

/-- `RStringInner`, string.rs:766-773: contents, declared encoding, cached code range -/
structure S where
  bytes : List Nat
  enc : Enc
  cr : CR
deriving DecidableEq, Repr

/-- `code_range`, string.rs:1381-1391: the value answered -/
def S.codeRange (iso : List Nat → Bool) (s : S) : CR :=
  match s.cr with
  | .unknown => classify iso s.enc s.bytes
  | c => c

/-- `code_range`: the cache afterwards -/
def S.query (iso : List Nat → Bool) (s : S) : S := { s with cr := s.codeRange iso }

/-- `is_ascii_only`, string.rs:1393-1395: `String#ascii_only?` -/
def S.asciiOnly (iso : List Nat → Bool) (s : S) : Bool := s.codeRange iso = .sevenBit

/-- `is_valid_encoding`, string.rs:1397-1399: `String#valid_encoding?` -/
def S.validEncoding (iso : List Nat → Bool) (s : S) : Bool :=
  s.codeRange iso = .sevenBit || s.codeRange iso = .valid

/-- `check_utf8`, string.rs:1643-1664: `true` means that the bytes are handed on as a `&str`, by
`from_utf8_unchecked` on the first two branches. -/
def S.checkUtf8 (iso : List Nat → Bool) (s : S) : Bool :=
  if s.codeRange iso = .sevenBit then true
  else if s.enc = .utf8 ∧ s.codeRange iso = .valid then true
  else wellFormed u8w s.bytes

/-- `char_length`, string.rs:1405-1460.  For ISO-2022-JP the count comes from `encoding_rs` and is
not modelled (`none`). -/
def S.charLength (iso : List Nat → Bool) (s : S) : Option Nat :=
  match s.enc with
  | .ascii8 | .usAscii | .iso8859 _ | .other _ | .namedByte _ => some s.bytes.length
  | .utf16le | .utf16be => some (s.bytes.length / 2 + s.bytes.length % 2)
  | .utf32le | .utf32be => some (s.bytes.length / 4 + if s.bytes.length % 4 > 0 then 1 else 0)
  | .utf8 =>
    match s.codeRange iso with
    | .sevenBit => some s.bytes.length
    | .valid => some (s.bytes.filter (fun b => !cont b)).length
    | _ => some (chars .utf8 s.bytes).length
  | .eucJp | .sjis _ =>
    match s.codeRange iso with
    | .sevenBit => some s.bytes.length
    | _ => some (chars s.enc s.bytes).length
  | .iso2022Jp => none

/-- `Encoding::compatible`, string.rs:634-672 -/
def compatible (aE : Enc) (aC : CR) (bE : Enc) (bC : CR) : Option Enc :=
  if aE = bE then some aE
  else if aE.asciiCompat && bE.asciiCompat then
    if aC = .sevenBit && bC = .sevenBit then some aE
    else if aC = .sevenBit then some bE
    else if bC = .sevenBit then some aE
    else none
  else none

/-- `compatible_encoding`, string.rs:1525-1580: the encoding, and the two strings with the caches
that the test has filled -/
def compatEnc (iso : List Nat → Bool) (a b : S) : Option Enc × S × S :=
  if a.enc = b.enc then (some a.enc, a, b)
  else if a.bytes = [] ∧ b.bytes = [] then (some a.enc, a, b)
  else if a.bytes = [] then
    if a.enc.asciiCompat then
      if b.codeRange iso = .sevenBit then (some a.enc, a, b.query iso)
      else (some b.enc, a, b.query iso)
    else (some b.enc, a, b)
  else if b.bytes = [] then
    if b.enc.asciiCompat then (some a.enc, a.query iso, b) else (some a.enc, a, b)
  else (compatible a.enc (a.codeRange iso) b.enc (b.codeRange iso), a.query iso, b.query iso)

/-- the table by which two code ranges are combined: string.rs:2148-2161, 2188-2194, 2231-2237,
runtime.rs:1000-1007 -/
def fold : CR → CR → CR
  | .sevenBit, .sevenBit => .sevenBit
  | .sevenBit, .valid => .valid
  | .valid, .sevenBit => .valid
  | .valid, .valid => .valid
  | _, _ => .unknown

/-- `extend`, string.rs:2127-2166: `none` is `Encoding::CompatibilityError`; with the two strings
afterwards (`none`: the receiver's bytes are unchanged) -/
def extend (iso : List Nat → Bool) (a b : S) : Bool × S × S :=
  if b.bytes = [] then (true, a, b)
  else
    match compatEnc iso a b with
    | (none, a1, b1) => (false, a1, b1)
    | (some e, a1, b1) =>
      let b2 := b1.query iso
      (true, { bytes := a1.bytes ++ b2.bytes, enc := e, cr := fold a1.cr b2.cr }, b2)

/-- `extend_from_slice_checked`, string.rs:2168-2198; `none`: the bytes are refused -/
def extendChecked (s : S) (bs : List Nat) : Option S :=
  if s.enc.utf8Compat && !wellFormed u8w bs then none
  else
    let c : CR := if bs.all (· < 0x80) then .sevenBit else if s.enc.utf8Compat then .valid else .unknown
    some { s with bytes := s.bytes ++ bs, cr := fold s.cr c }

/-- the UTF-8 bytes of a code point, `char::encode_utf8` -/
def encode (c : Nat) : List Nat :=
  if c < 0x80 then [c]
  else if c < 0x800 then [0xC0 + c / 64, 0x80 + c % 64]
  else if c < 0x10000 then [0xE0 + c / 4096, 0x80 + c / 64 % 64, 0x80 + c % 64]
  else [0xF0 + c / 262144, 0x80 + c / 4096 % 64, 0x80 + c / 64 % 64, 0x80 + c % 64]

/-- `char::from_u32` succeeds -/
def scalar (c : Nat) : Bool := c < 0xD800 || (0xE000 ≤ c && c < 0x110000)

/-- `String#<<` with an Integer, builtins/string.rs:778-798; `none` is RangeError -/
def appendInt (s : S) (c : Nat) : Option S :=
  if s.enc.utf8Compat then
    if scalar c then extendChecked s (encode c) else none
  else if c < 256 then extendChecked s [c]
  else none

/-- `String#append_as_bytes`: `extend_from_slice_no_validate`, string.rs:2203-2206 -/
def appendBytes (s : S) (bs : List Nat) : S := { s with bytes := s.bytes ++ bs, cr := .unknown }

/-- `Array#pack(buffer:)`: `extend_from_slice_merge_cr`, string.rs:2217-2240 -/
def extendMerge (iso : List Nat → Bool) (s : S) (bs : List Nat) : S :=
  if bs = [] then s
  else
    let c := if s.enc.asciiCompat && bs.all (· < 0x80) then .sevenBit else classify iso s.enc bs
    { s with bytes := s.bytes ++ bs, cr := fold s.cr c }

/-- `repeat`, string.rs:2242-2254: `String#*` -/
def repeatS (s : S) (n : Nat) : S :=
  { bytes := (List.replicate n s.bytes).flatten, enc := s.enc
    cr := if n = 0 then .sevenBit else s.cr }

/-- the single-byte encodings of `reverse`, string.rs:1491-1495 -/
def Enc.byteRev : Enc → Bool
  | .ascii8 | .usAscii | .iso8859 _ => true
  | _ => false

/-- `reverse`, string.rs:1476-1523 -/
def reverseS (iso : List Nat → Bool) (s : S) : S :=
  let c := s.codeRange iso
  if c = .sevenBit ∨ s.enc.byteRev then { bytes := s.bytes.reverse, enc := s.enc, cr := c }
  else { bytes := (chars s.enc s.bytes).reverse.flatten, enc := s.enc, cr := c }

/-- `is_utf8_char_boundary`, string.rs:1013-1015, 1927-1929 -/
def boundary (bs : List Nat) (i : Nat) : Bool :=
  i == 0 || i == bs.length || !cont (bs.getD i 0)

/-- `propagated_cr`, string.rs:1858-1922 -/
def propagated (iso : List Nat → Bool) (p : S) (st en : Nat) : CR :=
  if st = en then .sevenBit
  else
    match p.codeRange iso with
    | .sevenBit => .sevenBit
    | .valid =>
      match p.enc with
      | .ascii8 | .iso8859 _ | .other _ | .namedByte _ => .valid
      | .utf8 => if boundary p.bytes st && boundary p.bytes en then .valid else .unknown
      | .utf16le | .utf16be => if st % 2 = 0 ∧ en % 2 = 0 then .valid else .unknown
      | .utf32le | .utf32be => if st % 4 = 0 ∧ en % 4 = 0 then .valid else .unknown
      | .usAscii | .eucJp | .sjis _ | .iso2022Jp => .unknown
    | _ => .unknown

/-- bytes `st..en` -/
def slice (bs : List Nat) (st en : Nat) : List Nat := (bs.drop st).take (en - st)

/-- `from_substring`, string.rs:1838-1844, and `string_substring`, l.2438-2458: the new string.
The range must lie in the parent (`st ≤ en ≤ len`). -/
def substring (iso : List Nat → Bool) (p : S) (st en : Nat) : S :=
  { bytes := slice p.bytes st en, enc := p.enc, cr := propagated iso p st en }

/-- `set_byte`, string.rs:1981-1998, and the machine code of `String#setbyte`,
x86_64/compile/builtin.rs:133-140 (the same table) -/
def setByte (s : S) (i b : Nat) : S :=
  { s with bytes := s.bytes.set i b
           cr := if s.cr = .sevenBit ∧ b < 0x80 then .sevenBit else .unknown }

/-- `set_encoding`, string.rs:1374-1379: `force_encoding` -/
def force (s : S) (e : Enc) : S := { s with enc := e, cr := .unknown }

/-- `bytesplice_with`, string.rs:2340-2400, with `splice_bytes`, l.2305-2326.  The range must lie in
the receiver.  `false` is `Encoding::CompatibilityError`. -/
def splice (iso : List Nat → Bool) (a : S) (st len : Nat) (r : S) : Bool × S × S :=
  match compatEnc iso a r with
  | (none, a1, r1) => (false, a1, r1)
  | (some e, a1, r1) =>
    let r2 := r1.query iso
    let okb := a1.enc = .utf8 ∧ (a1.cr = .valid ∨ a1.cr = .sevenBit) ∧
      boundary a1.bytes st ∧ boundary a1.bytes (st + len)
    let bs := a1.bytes.take st ++ r2.bytes ++ a1.bytes.drop (st + len)
    if a1.cr = .sevenBit ∧ r2.cr = .sevenBit ∧ e.asciiCompat then
      (true, { bytes := bs, enc := e, cr := .sevenBit }, r2)
    else if okb ∧ (r2.cr = .sevenBit ∨ r2.cr = .valid) then
      (true, { bytes := bs, enc := e, cr := .valid }, r2)
    else
      let c := classify iso e bs
      if c = .broken ∧ e.utf8Compat then (true, { bytes := bs, enc := .ascii8, cr := .valid }, r2)
      else (true, { bytes := bs, enc := e, cr := c }, r2)

/-! ## Scrubbing -/

/-- `Utf8Error::error_len` (standard library) at an ill-formed position: the length of the maximal
subpart; at an unexpected end it is the whole rest. -/
def badLen : List Nat → Nat
  | [] => 0
  | b0 :: t =>
    if 0xE0 ≤ b0 ∧ b0 ≤ 0xEF then
      match t with
      | b1 :: _ => if ok3 b0 b1 then 2 else 1
      | [] => 1
    else if 0xF0 ≤ b0 ∧ b0 ≤ 0xF4 then
      match t with
      | b1 :: b2 :: _ => if ok4 b0 b1 then (if cont b2 then 3 else 2) else 1
      | [b1] => if ok4 b0 b1 then 2 else 1
      | [] => 1
    else 1

/-- `scrub_utf8`, string.rs:1259-1282: one ill-formed subpart at a time.  (The source copies a
maximal well-formed run at once; here a character at a time.) -/
def scrubUtf8 (repl : List Nat) : Nat → List Nat → List Nat
  | _, [] => []
  | 0, _ :: _ => []
  | n + 1, b :: t =>
    match u8w (b :: t) with
    | some k => (b :: t).take k ++ scrubUtf8 repl n ((b :: t).drop k)
    | none => repl ++ scrubUtf8 repl n ((b :: t).drop (badLen (b :: t)))

/-- the loop for EUC-JP and Shift_JIS, string.rs:1696-1714 -/
def scrubW (w : List Nat → Option Nat) (repl : List Nat) : Nat → List Nat → List Nat
  | _, [] => []
  | 0, _ :: _ => []
  | n + 1, b :: t =>
    match w (b :: t) with
    | some k => (b :: t).take k ++ scrubW w repl n ((b :: t).drop k)
    | none => repl ++ scrubW w repl n t

/-- `scrub`, string.rs:1669-1721, without a block -/
def scrub (iso : List Nat → Bool) (s : S) (repl : List Nat) : S :=
  if s.validEncoding iso then s.query iso
  else
    let out :=
      match s.enc with
      | .utf8 => scrubUtf8 repl s.bytes.length s.bytes
      | .usAscii => s.bytes.flatMap (fun b => if b < 0x80 then [b] else repl)
      | .eucJp => scrubW eucw repl s.bytes.length s.bytes
      | .sjis _ => scrubW sjisw repl s.bytes.length s.bytes
      | _ => s.bytes
    { bytes := out, enc := s.enc, cr := classify iso s.enc out }

/-! ## Padding -/

/-- `write_pad`, builtins/string.rs:4203-4241: `n` characters of the pad -/
def padBytes (iso : List Nat → Bool) (p : S) (n : Nat) : List Nat :=
  match p.bytes with
  | [b] => List.replicate n b
  | _ =>
    let k := (p.charLength iso).getD 0
    if k = p.bytes.length then
      (List.replicate (n / k) p.bytes).flatten ++ p.bytes.take (n % k)
    else
      (List.replicate (n / k) p.bytes).flatten ++ ((chars p.enc p.bytes).take (n % k)).flatten

/-- `PadSide` and the two counts, builtins/string.rs:4259-4271 -/
inductive Side where
  | left | right | center

def Side.counts (needed : Nat) : Side → Nat × Nat
  | .left => (0, needed)
  | .right => (needed, 0)
  | .center => (needed / 2, needed - needed / 2)

/-- `pad_string_inner`, builtins/string.rs:4248-4288 (`ljust`, `rjust`, `center`), after the
compatibility check of `pad_builtin` -/
def pad (iso : List Nat → Bool) (s : S) (width : Int) (p : S) (side : Side) : S :=
  let n := (s.charLength iso).getD 0
  if width ≤ 0 ∨ width.toNat ≤ n then s
  else
    let ht := side.counts (width.toNat - n)
    let out := padBytes iso p ht.1 ++ s.bytes ++ padBytes iso p ht.2
    if s.asciiOnly iso ∧ p.asciiOnly iso then { bytes := out, enc := s.enc, cr := .sevenBit }
    else { bytes := out, enc := s.enc, cr := .unknown }

/-! ## Interpolation -/

/-- an operand of an interpolated string: a String, or the default form of an object whose `to_s`
did not answer a String (ASCII bytes) -/
inductive Piece where
  | str (s : S)
  | raw (bs : List Nat)

/-- one round of the loop of `concatenate_string_inner`, runtime.rs:966-1030.  The state is the
bytes, the encoding and the code range so far; `none` is `Encoding::CompatibilityError`. -/
def interpStep (iso : List Nat → Bool) (acc : List Nat × Option Enc × CR) :
    Piece → Option (List Nat × Option Enc × CR)
  | .raw bs => some (acc.1 ++ bs, some (acc.2.1.getD .utf8), acc.2.2)
  | .str s =>
    match acc.2.1 with
    | none => some (acc.1 ++ s.bytes, some s.enc, fold acc.2.2 (s.codeRange iso))
    | some prev =>
      if prev = s.enc then some (acc.1 ++ s.bytes, some prev, fold acc.2.2 (s.codeRange iso))
      else
        let c := s.codeRange iso
        if acc.1 = [] ∧ s.bytes = [] then some (acc.1 ++ s.bytes, some prev, fold acc.2.2 c)
        else if acc.1 = [] then
          if prev.asciiCompat ∧ c = .sevenBit then some (acc.1 ++ s.bytes, some prev, fold acc.2.2 c)
          else some (acc.1 ++ s.bytes, some s.enc, fold acc.2.2 c)
        else if s.bytes = [] then some (acc.1 ++ s.bytes, some prev, fold acc.2.2 c)
        else
          let ac := if acc.2.2 = .unknown then classify iso prev acc.1 else acc.2.2
          match compatible prev ac s.enc c with
          | none => none
          | some e => some (acc.1 ++ s.bytes, some e, fold ac c)

def interpLoop (iso : List Nat → Bool) : List Nat × Option Enc × CR → List Piece →
    Option (List Nat × Option Enc × CR)
  | acc, [] => some acc
  | acc, p :: ps =>
    match interpStep iso acc p with
    | none => none
    | some acc' => interpLoop iso acc' ps

/-- `concatenate_string_inner` with `from_vec_cr`, runtime.rs:945-1036 -/
def interp (iso : List Nat → Bool) (ps : List Piece) : Option S :=
  (interpLoop iso ([], none, .sevenBit) ps).map
    (fun r => { bytes := r.1, enc := r.2.1.getD .utf8, cr := r.2.2 })

/-! ## Machine code of `String#<<` -/

/-- the Fixnum arm of `emit_string_shl`, x86_64/compile/builtin.rs:227-275; `none`: the arm leaves
the operation to the helper.  Capacity and sharing are in `Verif.Share`. -/
def jitAppendByte (s : S) (b : Nat) : Option S :=
  if b > 0xff then none
  else if b > 0x7f ∧ s.enc.tag ≠ 0 then none
  else some { s with bytes := s.bytes ++ [b], cr := if b ≤ 0x7f then s.cr else .unknown }

/-- the String arm of `emit_string_shl`, x86_64/compile/builtin.rs:290-405 -/
def jitAppend (a b : S) : Option S :=
  if a.enc.tag = b.enc.tag then
    if a.enc.tag > 6 then none
    else some { a with bytes := a.bytes ++ b.bytes, cr := fold a.cr b.cr }
  else if a.enc.tag > 2 then none
  else if b.enc.tag > 2 then none
  else if b.cr ≠ .sevenBit then none
  else if a.cr = .sevenBit ∨ a.cr = .valid then
    some { a with bytes := a.bytes ++ b.bytes, cr := fold a.cr b.cr }
  else none

/-! ## Histories -/

/-- The strings of a program.  (Strings no longer used stay in the list.) -/
abbrev World := Nat → S

/-- what a program does to its strings -/
inductive Op where
  /-- a new string that is not scanned: `from_str`, `from_string`, `bytes`, `from_encoding`,
  string.rs:1729-1792 -/
  | new (k : Nat) (bs : List Nat) (e : Enc)
  /-- a new string that is scanned: `from_encoding_scanned`, string.rs:1808-1814;
  `from_str_scanned`, l.1742-1749, is the case of UTF-8 text -/
  | newScanned (k : Nat) (bs : List Nat) (e : Enc)
  /-- `from_vec_scanned`, string.rs:1936-1946 -/
  | newAuto (k : Nat) (bs : List Nat)
  /-- `valid_encoding?`, `ascii_only?`, `length`, … fill the cache -/
  | query (i : Nat)
  /-- `dup`, `replace`, `String.new(s)` -/
  | copy (k i : Nat)
  | force (i : Nat) (e : Enc)
  | setByte (i n b : Nat)
  /-- `<<`, `concat` -/
  | append (i j : Nat)
  /-- `+` -/
  | add (k i j : Nat)
  | appendInt (i c : Nat)
  | appendBytes (i : Nat) (bs : List Nat)
  | packInto (i : Nat) (bs : List Nat)
  | substr (k i st en : Nat)
  | mul (k i n : Nat)
  | reverse (k i : Nat)
  /-- `[]=`, `bytesplice`, `insert`, … -/
  | splice (i st len j : Nat)
  | scrub (k i : Nat) (repl : List Nat)
  | pad (k i : Nat) (width : Int) (j : Nat) (side : Side)
  /-- `tr`, `delete`, `squeeze`, `upcase`, … on ASCII strings: `from_ascii_bytes`,
  string.rs:1824-1836, with the bytes they have built -/
  | asciiOut (k i : Nat) (bs : List Nat)
  /-- interpolation of strings and ASCII pieces -/
  | interp (k : Nat) (ps : List (Nat ⊕ List Nat))
  | jitAppendByte (i b : Nat)
  | jitAppend (i j : Nat)

/-- `from_vec_scanned`, string.rs:1936-1946 -/
def fromVecScanned (bs : List Nat) : S :=
  if bs.all (· < 0x80) then ⟨bs, .utf8, .sevenBit⟩
  else if wellFormed u8w bs then ⟨bs, .utf8, .valid⟩
  else ⟨bs, .ascii8, .valid⟩

/-- an operand of an interpolation: a string of the world, or ASCII bytes -/
def toPiece (w : World) : Nat ⊕ List Nat → Piece
  | .inl j => .str (w j)
  | .inr bs => .raw (bs.filter (· < 0x80))

/-- One operation.  An operation whose arguments are out of range, or that raises, leaves the bytes
as they are. -/
def step (iso : List Nat → Bool) (w : World) : Op → World
  | .new k bs e => Function.update w k ⟨bs, e, .unknown⟩
  | .newScanned k bs e => Function.update w k ⟨bs, e, classify iso e bs⟩
  | .newAuto k bs => Function.update w k (fromVecScanned bs)
  | .query i => Function.update w i ((w i).query iso)
  | .copy k i => Function.update w k (w i)
  | .force i e => Function.update w i (Str.force (w i) e)
  | .setByte i n b => if n < (w i).bytes.length then Function.update w i (Str.setByte (w i) n b) else w
  | .append i j =>
    if i = j then Function.update w i (extend iso (w i) (w i)).2.1
    else
      let r := extend iso (w i) (w j)
      Function.update (Function.update w j r.2.2) i r.2.1
  | .add k i j =>
    let r := extend iso (w i) (w j)
    if r.1 then Function.update w k r.2.1 else w
  | .appendInt i c =>
    match Str.appendInt (w i) c with
    | some s => Function.update w i s
    | none => w
  | .appendBytes i bs => Function.update w i (Str.appendBytes (w i) bs)
  | .packInto i bs => Function.update w i (extendMerge iso (w i) bs)
  | .substr k i st en =>
    if st ≤ en ∧ en ≤ (w i).bytes.length then
      Function.update (Function.update w i ((w i).query iso)) k (substring iso (w i) st en)
    else w
  | .mul k i n => Function.update w k (repeatS (w i) n)
  | .reverse k i =>
    Function.update (Function.update w i ((w i).query iso)) k (reverseS iso (w i))
  | .splice i st len j =>
    if st + len ≤ (w i).bytes.length then
      if i = j then Function.update w i (splice iso (w i) st len (w i)).2.1
      else
        let r := splice iso (w i) st len (w j)
        Function.update (Function.update w j r.2.2) i r.2.1
    else w
  | .scrub k i repl => Function.update w k (Str.scrub iso (w i) repl)
  | .pad k i width j side =>
    if (w j).bytes = [] then w else Function.update w k (Str.pad iso (w i) width (w j) side)
  | .asciiOut k i bs =>
    if (w i).asciiOnly iso ∧ bs.all (· < 0x80) ∧ ((w i).bytes = [] → bs = []) then
      Function.update w k ⟨bs, (w i).enc, .sevenBit⟩
    else w
  | .interp k ps =>
    match Str.interp iso (ps.map (toPiece w)) with
    | some s => Function.update w k s
    | none => w
  | .jitAppendByte i b =>
    match Str.jitAppendByte (w i) b with
    | some s => Function.update w i s
    | none => w
  | .jitAppend i j =>
    match Str.jitAppend (w i) (w j) with
    | some s => Function.update w i s
    | none => w

/-- a program: from strings that are all empty -/
def run (iso : List Nat → Bool) (ops : List Op) : World :=
  ops.foldl (step iso) (fun _ => ⟨[], .utf8, .sevenBit⟩)

/-! ## Indexing by characters -/

/-- 64-bit wrapping arithmetic (release builds do not check) -/
def wrap (n : Nat) : Nat := n % 2 ^ 64

/-- the fixed width used by `get_range`, string.rs:2066-2090 -/
def S.unit (iso : List Nat → Bool) (s : S) : Option Nat :=
  match s.enc with
  | .ascii8 | .usAscii | .iso8859 _ | .other _ | .namedByte _ => some 1
  | .utf16le | .utf16be => some 2
  | .utf32le | .utf32be => some 4
  | .iso2022Jp => some 1
  | .utf8 => if s.codeRange iso = .sevenBit then some 1 else none
  | .eucJp | .sjis _ => none

/-- the loop of `get_range`, string.rs:2098-2116: number of the character, byte position, start
found so far; the answer is the start and the end -/
def rangeLoop (total index len : Nat) : Nat → Nat → Option Nat → List (List Nat) → Option Nat × Nat
  | _, _, st, [] => (st, total)
  | i, pos, st, c :: cs =>
    let st' := if i = index then some pos else st
    if i = index ∧ len = 0 then (st', pos)
    else if st'.isSome ∧ i + 1 = index + len then (st', pos + c.length)
    else rangeLoop total index len (i + 1) (pos + c.length) st' cs

/-- `get_range`, string.rs:2060-2125: byte range of `len` characters from `index` -/
def getRange (iso : List Nat → Bool) (s : S) (index len : Nat) : Nat × Nat :=
  match s.unit iso with
  | some u => (min (wrap (index * u)) s.bytes.length, min (wrap (wrap (index + len) * u)) s.bytes.length)
  | none =>
    match rangeLoop s.bytes.length index len 0 0 none (chars s.enc s.bytes) with
    | (some st, en) => (st, en)
    | (none, _) =>
      if some index = s.charLength iso then (s.bytes.length, s.bytes.length) else (0, 0)

/-- `conv_char_index`, string.rs:2005-2019 -/
def convCharIndex (n : Nat) (i : Int) : Option Nat :=
  if 0 ≤ i then (if i ≤ n then some i.toNat else none)
  else if (n : Int) + i < 0 then none else some ((n : Int) + i).toNat

/-- the answer of `String#[]` -/
inductive Idx where
  | nil
  | str (s : S)
deriving DecidableEq

/-- `String#[]` with an Integer, builtins/string.rs:1025-1029, 1041-1049 -/
def index1 (iso : List Nat → Bool) (s : S) (i : Int) : Idx :=
  match convCharIndex ((s.charLength iso).getD 0) i with
  | none => .nil
  | some k =>
    let r := getRange iso s k 1
    if r.1 < r.2 then .str (substring iso s r.1 r.2) else .nil

/-- `String#[]` with start and length, builtins/string.rs:1030-1040 -/
def index2 (iso : List Nat → Bool) (s : S) (i len : Int) : Idx :=
  match convCharIndex ((s.charLength iso).getD 0) i with
  | none => .nil
  | some k =>
    if len = 0 then .str ⟨[], .utf8, .unknown⟩
    else if len < 0 then .nil
    else
      let r := getRange iso s k len.toNat
      .str (substring iso s r.1 r.2)

/-- `String#[]` with a Range, builtins/string.rs:1050-1092 (`none` is a nil endpoint) -/
def indexRange (iso : List Nat → Bool) (s : S) (b e : Option Int) (excl : Bool) : Idx :=
  let n : Int := ((s.charLength iso).getD 0 : Nat)
  let b0 := b.getD 0
  let beg := if b0 < 0 then b0 + n else b0
  if beg < 0 ∨ n < beg then .nil
  else
    let en := match e with
      | none => n
      | some e0 =>
        let e1 := if e0 < 0 then e0 + n else e0
        if excl then e1 else e1 + 1
    let r := getRange iso s beg.toNat (en - beg).toNat
    .str (substring iso s r.1 r.2)

end Verif.Str
