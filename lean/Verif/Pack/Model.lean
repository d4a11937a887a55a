/-!
# Model of Array#pack and String#unpack

`monoruby/src/value/rvalue/string/pack.rs` (all citations below are to that file unless said
otherwise).

Simplifications.
* A byte is a `Nat`; every function of the model keeps bytes below 256 where the code's type does.
  `u32`/`u64`/`i64` values are `Nat`/`Int` with the reductions the casts make written out.
* Arguments are Integers, Strings (bytes), Floats (their 64 bits) and `nil`.  Conversion of other
  objects with `#to_int`, `#to_str`, `#to_f`, `#to_s`, of Floats for integer directives and of
  Integers for float directives is not modelled (an `.error .type`).
* Not modelled: single-precision floats (`f`, `F`, `e`, `g`), pointers (`p`, `P`), the encoding of
  the result, the `buffer:` keyword, `offset:` (zero).
-/

namespace Verif.Pack

inductive Err where
  | argument | range | type
  deriving DecidableEq

/-- A Ruby value given to `pack` or made by `unpack`. -/
inductive PV where
  | int (i : Int)
  | str (bytes : List Nat)
  | flt (bits : Nat)
  | nil
  deriving DecidableEq

/-! ## Templates -/

/-- `enum Template`; the eight integer forms are one constructor with width and sign.  l.13-49 -/
inductive Template where
  | int (width : Nat) (signed : Bool)
  | f64 | ascii | asciiTrim | cString | bitString | hex | utf8 | null | back | atPos
  | base64 | quotedPrintable | uuEncoded | ber | uleb | sleb | offset
  | unmodelled
  deriving DecidableEq

/-- `struct TemplateNode`.  l.3-11 -/
structure Node where
  template : Template
  big : Bool
  /-- `none` is `*` -/
  rep : Option Nat
  explicit : Bool
  deriving DecidableEq

/-- The directive letters.  l.1181-1230 -/
def directive : Char → Option (Template × Bool)
  | 'a' => some (.ascii, false)
  | 'A' => some (.asciiTrim, false)
  | 'Z' => some (.cString, false)
  | 'b' => some (.bitString, false)
  | 'B' => some (.bitString, true)
  | 'h' => some (.hex, false)
  | 'H' => some (.hex, true)
  | 'c' => some (.int 1 true, false)
  | 'C' => some (.int 1 false, false)
  | 's' => some (.int 2 true, false)
  | 'S' => some (.int 2 false, false)
  | 'i' => some (.int 4 true, false)
  | 'I' => some (.int 4 false, false)
  | 'l' => some (.int 4 true, false)
  | 'L' => some (.int 4 false, false)
  | 'q' => some (.int 8 true, false)
  | 'Q' => some (.int 8 false, false)
  | 'j' => some (.int 8 true, false)
  | 'J' => some (.int 8 false, false)
  | 'v' => some (.int 2 false, false)
  | 'V' => some (.int 4 false, false)
  | 'n' => some (.int 2 false, true)
  | 'N' => some (.int 4 false, true)
  | 'd' => some (.f64, false)
  | 'D' => some (.f64, false)
  | 'f' => some (.unmodelled, false)
  | 'F' => some (.unmodelled, false)
  | 'e' => some (.unmodelled, false)
  | 'E' => some (.f64, false)
  | 'g' => some (.unmodelled, true)
  | 'G' => some (.f64, true)
  | 'U' => some (.utf8, false)
  | 'x' => some (.null, false)
  | 'X' => some (.back, false)
  | '@' => some (.atPos, false)
  | 'm' => some (.base64, false)
  | 'M' => some (.quotedPrintable, false)
  | 'u' => some (.uuEncoded, false)
  | 'w' => some (.ber, false)
  | 'p' => some (.unmodelled, false)
  | 'P' => some (.unmodelled, false)
  | 'R' => some (.uleb, false)
  | 'r' => some (.sleb, false)
  | '^' => some (.offset, false)
  | _ => none

/-- Whether `ch` is white space for a template.  l.1168 -/
def isSpace (c : Char) : Bool :=
  c == ' ' || c == '\t' || c == '\n' || c == '\x0b' || c == '\x0c' || c == '\r'

/-- The rest after a comment: everything up to and including the newline is dropped.
l.1172-1180 -/
def skipComment : List Char → List Char
  | [] => []
  | c :: rest => if c == '\n' then rest else skipComment rest

/-- The modifier loop: `(native seen, endian modifier seen, big, rest)`.  l.1233-1256 -/
def modifiers (native endianMod big : Bool) : List Char → Bool × Bool × Bool × List Char
  | [] => (native, endianMod, big, [])
  | c :: rest =>
    if c == '!' || c == '_' then modifiers true endianMod big rest
    else if c == '>' then modifiers native true true rest
    else if c == '<' then modifiers native true false rest
    else (native, endianMod, big, c :: rest)

/-- Letters after which `!` and `_` are allowed.  l.1259-1268 -/
def nativeOk (c : Char) : Bool := "sSiIlLqQjJ".toList.contains c

/-- Letters after which `<` and `>` are allowed.  l.1270-1280 -/
def endianOk (c : Char) : Bool := "sSiIlLqQjJnNvVdDeEfFgG".toList.contains c

/-- The digits after the first one, `none` if the count exceeds `i64::MAX`.  l.1307-1313 -/
def countDigits (count : Nat) : List Char → Option (Nat × List Char)
  | [] => some (count, [])
  | c :: rest =>
    if c.isDigit then
      if 2 ^ 63 ≤ count * 10 then none
      else if 2 ^ 63 ≤ count * 10 + (c.toNat - 48) then none
      else countDigits (count * 10 + (c.toNat - 48)) rest
    else some (count, c :: rest)

/-- The count: `(repeat, explicit, rest)`.  l.1293-1328 -/
def parseCount : List Char → Except Err (Option Nat × Bool × List Char)
  | [] => .ok (some 1, false, [])
  | c :: rest =>
    if c == '*' then .ok (none, true, rest)
    else if c.isDigit then
      match countDigits (c.toNat - 48) rest with
      | none => .error .range
      | some (n, rest) => .ok (some n, true, rest)
    else .ok (some 1, false, c :: rest)

/-- One directive with its modifiers and count.  l.1181-1328 -/
def parseDirective (ch : Char) (rest : List Char) : Except Err (Node × List Char) :=
  match directive ch with
  | none => .error .argument
  | some (template, big) =>
    match modifiers false false big rest with
    | (native, endianMod, big, rest) =>
      if native && !nativeOk ch then .error .argument
      else if endianMod && !endianOk ch then .error .argument
      else
        let template :=
          if native && ch == 'l' then .int 8 true
          else if native && ch == 'L' then .int 8 false
          else template
        match parseCount rest with
        | .error e => .error e
        | .ok (rep, explicit, rest) => .ok (⟨template, big, rep, explicit⟩, rest)

/-- `parse_template`; `fuel` bounds the number of turns (the length of the template suffices).
l.1163-1331 -/
def parseAux : Nat → List Char → Except Err (List Node)
  | 0, _ => .ok []
  | _ + 1, [] => .ok []
  | fuel + 1, ch :: rest =>
    if isSpace ch then parseAux fuel rest
    else if ch == '#' then parseAux fuel (skipComment rest)
    else
      match parseDirective ch rest with
      | .error e => .error e
      | .ok (node, rest) =>
        match parseAux fuel rest with
        | .error e => .error e
        | .ok nodes => .ok (node :: nodes)

def parse (t : String) : Except Err (List Node) := parseAux t.toList.length t.toList

/-! ## Integers -/

/-- `coerce_to_pack_u64` on an Integer: a Fixnum is cast; of a big Integer the lowest digit of the
magnitude is taken and negated if need be.  value/coerce.rs:142-171 -/
def coerceU64 (i : Int) : Nat :=
  if -(2 ^ 62) ≤ i ∧ i < 2 ^ 62 then (i % 2 ^ 64).toNat
  else if i < 0 then (2 ^ 64 - i.natAbs % 2 ^ 64) % 2 ^ 64
  else i.natAbs % 2 ^ 64

/-- `to_le_bytes` of a `w`-byte integer. -/
def toLE : Nat → Nat → List Nat
  | 0, _ => []
  | w + 1, v => v % 256 :: toLE w (v / 256)

/-- `to_be_bytes` / `to_le_bytes` after the cast to the width. -/
def toBytes (w : Nat) (big : Bool) (v : Nat) : List Nat :=
  if big then (toLE w (v % 2 ^ (8 * w))).reverse else toLE w (v % 2 ^ (8 * w))

/-- `from_le_bytes`. -/
def ofLE : List Nat → Nat
  | [] => 0
  | b :: rest => b + 256 * ofLE rest

/-- `from_be_bytes` / `from_ne_bytes` (the machine is little-endian). -/
def ofBytes (big : Bool) (c : List Nat) : Nat := if big then ofLE c.reverse else ofLE c

/-- A `w`-byte pattern as a signed or unsigned integer. -/
def interpret (w : Nat) (signed : Bool) (v : Nat) : Int :=
  if signed && decide (2 ^ (8 * w - 1) ≤ v) then (v : Int) - 2 ^ (8 * w) else v

/-- `coerce_to_int_i64` on an Integer: out of range raises.  value/coerce.rs -/
def coerceI64 (i : Int) : Except Err Int :=
  if -(2 ^ 63) ≤ i ∧ i < 2 ^ 63 then .ok i else .error .range

/-! ## Variable-length integers -/

/-- `encode_uleb128`; `fuel` bounds the turns (10 suffice for 64 bits).  l.1727-1739 -/
def ulebEncode : Nat → Nat → List Nat
  | 0, _ => []
  | fuel + 1, v =>
    if v >>> 7 ≠ 0 then ((v &&& 0x7f) ||| 0x80) :: ulebEncode fuel (v >>> 7)
    else [v &&& 0x7f]

/-- `encode_sleb128`: `val & 0x7F` is the residue modulo 128 and the arithmetic `val >>= 7` the
floor of the quotient.  l.1741-1756 -/
def slebEncode : Nat → Int → List Nat
  | 0, _ => []
  | fuel + 1, v =>
    let byte := (v % 128).toNat
    let v' := v.fdiv 128
    let signBit := byte &&& 0x40 ≠ 0
    if (v' = 0 ∧ ¬ signBit) ∨ (v' = -1 ∧ signBit) then [byte]
    else (byte ||| 0x80) :: slebEncode fuel v'

inductive Outcome (α : Type) where
  | value (v : α) (rest : List Nat)
  | incomplete
  | atEnd

/-- The loop of `unpack_uleb128`.  l.1768-1792 -/
def ulebLoop (result shift : Nat) : List Nat → Outcome Nat
  | [] => .incomplete
  | byte :: rest =>
    let result := if shift < 64 then result ||| ((byte &&& 0x7f) <<< shift % 2 ^ 64) else result
    if byte &&& 0x80 = 0 then .value result rest
    else ulebLoop result (shift + 7) rest

/-- `unpack_uleb128`.  l.1768-1792 -/
def ulebDecode (l : List Nat) : Outcome Nat := if l.isEmpty then .atEnd else ulebLoop 0 0 l

/-- The loop of `unpack_sleb128`; the `i64` is kept as its 64-bit pattern.  l.1800-1824 -/
def slebLoop (result shift : Nat) : List Nat → Outcome Int
  | [] => .incomplete
  | byte :: rest =>
    let result := if shift < 64 then result ||| ((byte &&& 0x7f) <<< shift % 2 ^ 64) else result
    let shift := shift + 7
    if byte &&& 0x80 = 0 then
      let result :=
        if shift < 64 ∧ byte &&& 0x40 ≠ 0 then result ||| (2 ^ 64 - 2 ^ shift) else result
      .value (interpret 8 true result) rest
    else slebLoop result shift rest

/-- `unpack_sleb128`.  l.1800-1824 -/
def slebDecode (l : List Nat) : Outcome Int := if l.isEmpty then .atEnd else slebLoop 0 0 l

/-- The groups of `ber_encode`/`ber_encode_bigint` after the last, lowest first.  `fuel` bounds the
turns.  l.1854-1867, 1869-1884 -/
def berGroups : Nat → Nat → List Nat
  | 0, _ => []
  | fuel + 1, v => if v = 0 then [] else ((v &&& 0x7f) ||| 0x80) :: berGroups fuel (v >>> 7)

/-- `ber_encode_value`: the two branches (64-bit and big) do the same.  l.1830-1884 -/
def berEncode (i : Int) : Except Err (List Nat) :=
  if i < 0 then .error .argument
  else .ok ((i.toNat &&& 0x7f) :: berGroups (i.toNat + 1) (i.toNat >>> 7)).reverse

/-- `ber_decode`: 64 bits are kept, and cast to `i64`.  l.1963-1975 -/
def berDecode (val : Nat) : List Nat → Except Err (Int × List Nat)
  | [] => .error .argument
  | byte :: rest =>
    let val := (val <<< 7 % 2 ^ 64) ||| (byte &&& 0x7f)
    if byte &&& 0x80 = 0 then .ok (interpret 8 true val, rest)
    else berDecode val rest

/-! ## UTF-8 -/

/-- `utf8_encode_one`; `as u8` reduces modulo 256.  l.1888-1923 -/
def utf8Encode (cp : Nat) : List Nat :=
  if cp ≤ 0x7f then [cp]
  else if cp ≤ 0x7ff then [(0xc0 ||| cp >>> 6) % 256, 0x80 ||| cp &&& 0x3f]
  else if cp ≤ 0xffff then
    [(0xe0 ||| cp >>> 12) % 256, 0x80 ||| cp >>> 6 &&& 0x3f, 0x80 ||| cp &&& 0x3f]
  else if cp ≤ 0x1fffff then
    [(0xf0 ||| cp >>> 18) % 256, 0x80 ||| cp >>> 12 &&& 0x3f, 0x80 ||| cp >>> 6 &&& 0x3f,
      0x80 ||| cp &&& 0x3f]
  else if cp ≤ 0x3ffffff then
    [(0xf8 ||| cp >>> 24) % 256, 0x80 ||| cp >>> 18 &&& 0x3f, 0x80 ||| cp >>> 12 &&& 0x3f,
      0x80 ||| cp >>> 6 &&& 0x3f, 0x80 ||| cp &&& 0x3f]
  else
    [(0xfc ||| cp >>> 30) % 256, 0x80 ||| cp >>> 24 &&& 0x3f, 0x80 ||| cp >>> 18 &&& 0x3f,
      0x80 ||| cp >>> 12 &&& 0x3f, 0x80 ||| cp >>> 6 &&& 0x3f, 0x80 ||| cp &&& 0x3f]

/-- `utf8_decode_one`.  l.1925-1961 -/
def utf8Decode : List Nat → Except Err (Nat × List Nat)
  | [] => .error .argument
  | first :: rest =>
    if first &&& 0x80 = 0 then .ok (first, rest)
    else if first &&& 0xe0 = 0xc0 then
      match rest with
      | b1 :: rest => .ok ((first &&& 0x1f) <<< 6 ||| b1 &&& 0x3f, rest)
      | _ => .error .argument
    else if first &&& 0xf0 = 0xe0 then
      match rest with
      | b1 :: b2 :: rest =>
        .ok ((first &&& 0x0f) <<< 12 ||| (b1 &&& 0x3f) <<< 6 ||| b2 &&& 0x3f, rest)
      | _ => .error .argument
    else if first &&& 0xf8 = 0xf0 then
      match rest with
      | b1 :: b2 :: b3 :: rest =>
        .ok ((first &&& 0x07) <<< 18 ||| (b1 &&& 0x3f) <<< 12 ||| (b2 &&& 0x3f) <<< 6
          ||| b3 &&& 0x3f, rest)
      | _ => .error .argument
    else .error .argument

/-! ## Base64 -/

/-- `data.chunks(n)`; `fuel` bounds the number of chunks. -/
def chunksAux (n : Nat) : Nat → List Nat → List (List Nat)
  | 0, _ => []
  | _ + 1, [] => []
  | fuel + 1, l => l.take n :: chunksAux n fuel (l.drop n)

def chunks (n : Nat) (l : List Nat) : List (List Nat) := chunksAux n l.length l

/-- `BASE64_CHARS[v]`.  l.1421 -/
def b64char (v : Nat) : Nat :=
  if v < 26 then 65 + v
  else if v < 52 then 97 + (v - 26)
  else if v < 62 then 48 + (v - 52)
  else if v = 62 then 43 else 47

/-- The three bytes of a chunk as one number, missing ones as zero.  l.1434-1437, 1638-1649 -/
def triple (c : List Nat) : Nat :=
  (c.getD 0 0) <<< 16 ||| (c.getD 1 0) <<< 8 ||| c.getD 2 0

/-- The four characters of one chunk.  l.1439-1450 -/
def b64group (c : List Nat) : List Nat :=
  [b64char (triple c >>> 18 &&& 0x3f), b64char (triple c >>> 12 &&& 0x3f),
    if 1 < c.length then b64char (triple c >>> 6 &&& 0x3f) else 61,
    if 2 < c.length then b64char (triple c &&& 0x3f) else 61]

/-- The loop of `base64_encode`.  l.1433-1462 -/
def b64Loop (perLine : Nat) : Nat → List (List Nat) → List Nat
  | col, [] => if 0 < perLine ∧ 0 < col then [10] else []
  | col, c :: rest =>
    if 0 < perLine ∧ perLine ≤ col + 4 then b64group c ++ 10 :: b64Loop perLine 0 rest
    else b64group c ++ b64Loop perLine (col + 4) rest

/-- `base64_encode`.  l.1423-1466 -/
def b64Encode (lineLen : Nat) (data : List Nat) : List Nat :=
  b64Loop (if lineLen = 0 then 0 else lineLen / 3 * 4 + if lineLen % 3 ≠ 0 then 4 else 0) 0
    (chunks 3 data)

/-- `base64_decode_char`.  l.1468-1477 -/
def b64val (c : Nat) : Option Nat :=
  if 65 ≤ c ∧ c ≤ 90 then some (c - 65)
  else if 97 ≤ c ∧ c ≤ 122 then some (c - 97 + 26)
  else if 48 ≤ c ∧ c ≤ 57 then some (c - 48 + 52)
  else if c = 43 then some 62
  else if c = 47 then some 63
  else none

/-- What one full buffer of four gives.  l.1500-1510 -/
def b64flush (buf : List Nat) (pad : Nat) : List Nat :=
  let t := (buf.getD 0 0) <<< 18 ||| (buf.getD 1 0) <<< 12 ||| (buf.getD 2 0) <<< 6 ||| buf.getD 3 0
  (t >>> 16) % 256 :: ((if pad < 2 then [(t >>> 8) % 256] else []) ++
    (if pad < 1 then [t % 256] else []))

/-- The loop of `base64_decode`; `buf` holds the values so far, fewer than four.  l.1479-1517 -/
def b64DecodeLoop (buf : List Nat) (pad : Nat) : List Nat → List Nat
  | [] => []
  | c :: rest =>
    if c = 61 then
      if buf.length + 1 = 4 then b64flush (buf ++ [0]) (pad + 1) ++ b64DecodeLoop [] 0 rest
      else b64DecodeLoop (buf ++ [0]) (pad + 1) rest
    else
      match b64val c with
      | none => b64DecodeLoop buf pad rest
      | some v =>
        if buf.length + 1 = 4 then b64flush (buf ++ [v]) 0 ++ b64DecodeLoop [] 0 rest
        else b64DecodeLoop (buf ++ [v]) 0 rest

def b64Decode (data : List Nat) : List Nat := b64DecodeLoop [] 0 data

/-! ## Quoted-printable -/

/-- A digit of `{:02X}`. -/
def upHex (v : Nat) : Nat := if v < 10 then 48 + v else 55 + v

/-- May the byte stand for itself?  l.1555 -/
def qpPlain (b : Nat) : Bool := b == 9 || b == 32 || (decide (33 ≤ b) && decide (b ≤ 126) && b != 61)

/-- The loop of `qp_encode`, with the output so far.  l.1532-1562 -/
def qpLoop (limit : Nat) (out : List Nat) (col : Nat) : List Nat → List Nat
  | [] => out
  | byte :: rest =>
    if byte = 10 then
      if 0 < col ∧ (out.getLast? = some 9 ∨ out.getLast? = some 32) then
        qpLoop limit (out ++ [61, 10] ++ [10]) 0 rest
      else qpLoop limit (out ++ [10]) 0 rest
    else
      let out' := if limit < col then out ++ [61, 10] else out
      let col' := if limit < col then 0 else col
      if qpPlain byte then qpLoop limit (out' ++ [byte]) (col' + 1) rest
      else qpLoop limit (out' ++ [61, upHex (byte / 16), upHex (byte % 16)]) (col' + 3) rest

/-- `qp_encode`.  l.1521-1571 -/
def qpEncode (lineLen : Nat) (data : List Nat) : List Nat :=
  if data.isEmpty then []
  else
    let out := qpLoop (if 1 < lineLen then lineLen else 72) [] 0 data
    if out.getLast? ≠ some 10 then out ++ [61, 10] else out

/-- `hex_val`.  l.1611-1618 -/
def hexVal (c : Nat) : Option Nat :=
  if 48 ≤ c ∧ c ≤ 57 then some (c - 48)
  else if 65 ≤ c ∧ c ≤ 70 then some (c - 65 + 10)
  else if 97 ≤ c ∧ c ≤ 102 then some (c - 97 + 10)
  else none

/-- `qp_decode`; `fuel` bounds the turns.  l.1573-1609 -/
def qpDecodeAux : Nat → List Nat → List Nat
  | 0, _ => []
  | _ + 1, [] => []
  | fuel + 1, c :: rest =>
    if c = 61 then
      match rest with
      | c1 :: c2 :: rest' =>
        if c1 = 10 then qpDecodeAux fuel (c2 :: rest')
        else if c1 = 13 ∧ c2 = 10 then qpDecodeAux fuel rest'
        else
          match hexVal c1, hexVal c2 with
          | some h, some l => ((h <<< 4 % 256) ||| l) :: qpDecodeAux fuel rest'
          | _, _ => c :: qpDecodeAux fuel rest
      | [c1] => if c1 = 10 then qpDecodeAux fuel [] else c :: qpDecodeAux fuel rest
      | [] => c :: qpDecodeAux fuel rest
    else c :: qpDecodeAux fuel rest

def qpDecode (data : List Nat) : List Nat := qpDecodeAux data.length data

/-! ## UU -/

/-- `uu_char`.  l.1663-1669 -/
def uuChar (v : Nat) : Nat := if v = 0 then 96 else v + 32

/-- The four characters of a chunk of three.  l.1651-1654 -/
def uuGroup (c : List Nat) : List Nat :=
  [uuChar (triple c >>> 18 &&& 0x3f), uuChar (triple c >>> 12 &&& 0x3f),
    uuChar (triple c >>> 6 &&& 0x3f), uuChar (triple c &&& 0x3f)]

/-- `uu_encode`.  l.1622-1661 (`lineLen` is never 1 or 2, so `chunks` is never given 0) -/
def uuEncode (lineLen : Nat) (data : List Nat) : List Nat :=
  ((chunks (if lineLen = 0 then 45 else min lineLen 45 / 3 * 3) data).map fun line =>
    (line.length % 256 + 32) % 256 :: ((chunks 3 line).map uuGroup).flatten ++ [10]).flatten

/-- `uu_decode_char`.  l.1711-1719 -/
def uuVal (c : Nat) : Nat := if c = 96 then 0 else if 32 ≤ c then (c - 32) &&& 0x3f else 0

/-- `data.split(|b| b == b'\n')`. -/
def splitLines (cur : List Nat) : List Nat → List (List Nat)
  | [] => [cur]
  | c :: rest => if c = 10 then cur :: splitLines [] rest else splitLines (cur ++ [c]) rest

/-- The groups of four of a line.  l.1692-1702 -/
def uuGroups : List Nat → List Nat
  | c0 :: c1 :: c2 :: c3 :: rest =>
    let v := uuVal c0 <<< 18 ||| uuVal c1 <<< 12 ||| uuVal c2 <<< 6 ||| uuVal c3
    (v >>> 16) % 256 :: (v >>> 8) % 256 :: v % 256 :: uuGroups rest
  | _ => []

/-- One line.  l.1675-1705 -/
def uuLine : List Nat → List Nat
  | [] => []
  | len :: encoded =>
    if 32 ≤ len then
      if len - 32 = 0 then [] else (uuGroups encoded).take (len - 32)
    else []

/-- `uu_decode`.  l.1671-1709 -/
def uuDecode (data : List Nat) : List Nat := ((splitLines [] data).map uuLine).flatten

/-! ## Hex and bit strings -/

/-- The value of a character for `H`/`h`.  l.796-801 -/
def nibble (c : Nat) : Nat :=
  if (65 ≤ c ∧ c ≤ 90) ∨ (97 ≤ c ∧ c ≤ 122) then (c + 9) % 256 &&& 0x0f else c &&& 0x0f

/-- The nibble loop of `pack`: `pending` is the half byte, if any.  l.786-827 -/
def hexPack (high : Bool) : Option Nat → List Nat → List Nat
  | none, [] => []
  | some b, [] => [b]
  | none, n :: rest => hexPack high (some (if high then n <<< 4 else n)) rest
  | some b, n :: rest => (b ||| if high then n else n <<< 4) :: hexPack high none rest

/-- The first `count` characters' values, zero past the end (`if i < s.len() … else 0`). -/
def padded (f : Nat → Nat) (count : Nat) (s : List Nat) : List Nat :=
  (List.range count).map fun i => match s[i]? with | some c => f c | none => 0

/-- A digit of `{:x}`. -/
def lowHex (v : Nat) : Nat := if v < 10 then 48 + v else 87 + v

/-- The byte as `unpack` looks at it.  l.233-237 -/
def hexByte (big : Bool) (b : Nat) : Nat := if big then b else (b <<< 4 % 256) ||| b >>> 4

/-- `H`/`h` of `unpack` with a count.  l.230-248 -/
def hexUnpackN (big : Bool) : Nat → List Nat → List Nat × List Nat
  | 0, l => ([], l)
  | _ + 1, [] => ([], [])
  | 1, b :: rest => ([lowHex (hexByte big b >>> 4)], rest)
  | n + 2, b :: rest =>
    let r := hexUnpackN big n rest
    (lowHex (hexByte big b >>> 4) :: lowHex (hexByte big b &&& 0x0f) :: r.1, r.2)

/-- `H*`/`h*`.  l.250-257 -/
def hexUnpackAll (big : Bool) (l : List Nat) : List Nat :=
  (l.map fun b => [lowHex (hexByte big b >>> 4), lowHex (hexByte big b &&& 0x0f)]).flatten

/-- The bit loop of `pack`.  l.966-984 -/
def bitPack (big : Bool) : Nat → Nat → List Nat → List Nat
  | byte, i, [] => if 0 < i then [byte] else []
  | byte, i, bit :: rest =>
    let byte := byte ||| bit <<< (if big then 7 - i else i)
    if i + 1 = 8 then byte :: bitPack big 0 0 rest else bitPack big byte (i + 1) rest

/-- `take` bits of a byte as characters.  l.376-385 -/
def byteBits (big : Bool) (take b : Nat) : List Nat :=
  (List.range take).map fun i => if b >>> (if big then 7 - i else i) &&& 1 = 1 then 49 else 48

/-- `B`/`b` of `unpack` with a count.  l.371-390 -/
def bitUnpackN (big : Bool) : Nat → List Nat → List Nat × List Nat
  | _, [] => ([], [])
  | count, b :: rest =>
    if count = 0 then ([], b :: rest)
    else
      let r := bitUnpackN big (count - min count 8) rest
      (byteBits big (min count 8) b ++ r.1, r.2)

/-- `B*`/`b*`.  l.392-401 -/
def bitUnpackAll (big : Bool) (l : List Nat) : List Nat := (l.map (byteBits big 8)).flatten

/-! ## pack -/

/-- `for _ in 0..repeat { if let Some(value) = iter.next() { … } else { too few arguments } }`. -/
def eachN (f : PV → Except Err (List Nat)) : Nat → List PV → Except Err (List Nat × List PV)
  | 0, args => .ok ([], args)
  | _ + 1, [] => .error .argument
  | n + 1, v :: args =>
    match f v with
    | .error e => .error e
    | .ok bs =>
      match eachN f n args with
      | .error e => .error e
      | .ok (rest, args) => .ok (bs ++ rest, args)

/-- `while let Some(value) = iter.next() { … }`. -/
def eachAll (f : PV → Except Err (List Nat)) : List PV → Except Err (List Nat × List PV)
  | [] => .ok ([], [])
  | v :: args =>
    match f v with
    | .error e => .error e
    | .ok bs =>
      match eachAll f args with
      | .error e => .error e
      | .ok (rest, args) => .ok (bs ++ rest, args)

def each (f : PV → Except Err (List Nat)) (rep : Option Nat) (args : List PV) :
    Except Err (List Nat × List PV) :=
  match rep with
  | some n => eachN f n args
  | none => eachAll f args

/-- One Integer of a fixed-width directive.  l.628-634 -/
def packInt (w : Nat) (big : Bool) : PV → Except Err (List Nat)
  | .int i => .ok (toBytes w big (coerceU64 i))
  | _ => .error .type

/-- One Float (double).  l.687-693 -/
def packF64 (big : Bool) : PV → Except Err (List Nat)
  | .flt b => .ok (toBytes 8 big b)
  | _ => .error .type

/-- One code point.  l.994-1004 -/
def packUtf8 : PV → Except Err (List Nat)
  | .int i =>
    match coerceI64 i with
    | .error e => .error e
    | .ok i => if i < 0 then .error .range else if 2 ^ 32 ≤ i then .error .range
      else .ok (utf8Encode i.toNat)
  | _ => .error .type

/-- One `w`.  l.1830-1850 -/
def packBer : PV → Except Err (List Nat)
  | .int i => berEncode i
  | _ => .error .type

/-- One `R`.  l.1082-1083 -/
def packUleb : PV → Except Err (List Nat)
  | .int i => .ok (ulebEncode 10 (coerceU64 i))
  | _ => .error .type

/-- One `r`.  l.1101-1102 -/
def packSleb : PV → Except Err (List Nat)
  | .int i =>
    match coerceI64 i with
    | .error e => .error e
    | .ok i => .ok (slebEncode 10 i)
  | _ => .error .type

/-- `get_pack_string` (`nil` is the empty string).  l.1365-1375 -/
def packString : PV → Except Err (List Nat)
  | .str s => .ok s
  | .nil => .ok []
  | _ => .error .type

/-- `get_pack_string_strict`.  l.1381-1392 -/
def packStringStrict : PV → Except Err (List Nat)
  | .str s => .ok s
  | _ => .error .type

/-- `a`/`A`/`Z` with a count.  l.836-842, 855-862, 874-881 -/
def padTo (pad count : Nat) (s : List Nat) : List Nat :=
  if count ≤ s.length then s.take count else s ++ List.replicate (count - s.length) pad

/-- The bytes per line of `m` and `u`.  l.900-908, 940-948 -/
def lineLen (n : Node) : Nat :=
  if n.explicit then
    match n.rep with
    | some 0 => 0
    | some k => if 3 ≤ k then k else 45
    | none => 45
  else 45

/-- A directive that consumes one String. -/
def oneString (get : PV → Except Err (List Nat)) (f : List Nat → List Nat) :
    List PV → Except Err (List Nat × List PV)
  | [] => .error .argument
  | v :: args =>
    match get v with
    | .error e => .error e
    | .ok s => .ok (f s, args)

/-- What a directive appends, and the arguments left; `x`, `X` and `@` are in `packNode`.
l.673-1117 -/
def packOut (n : Node) (args : List PV) : Except Err (List Nat × List PV) :=
  match n.template with
  | .int w _ => each (packInt w n.big) n.rep args
  | .f64 => each (packF64 n.big) n.rep args
  | .ascii => oneString packString
      (fun s => match n.rep with | some c => padTo 0 c s | none => s) args
  | .asciiTrim => oneString packString
      (fun s => match n.rep with | some c => padTo 32 c s | none => s) args
  | .cString => oneString packString
      (fun s => match n.rep with | some c => padTo 0 c s | none => s ++ [0]) args
  | .hex => oneString packString
      (fun s => hexPack n.big none (padded nibble (n.rep.getD s.length) s)) args
  | .bitString => oneString packString
      (fun s => bitPack n.big 0 0 (padded (· &&& 1) (n.rep.getD s.length) s)) args
  | .base64 => oneString packStringStrict (b64Encode (lineLen n)) args
  | .uuEncoded => oneString packStringStrict (uuEncode (lineLen n)) args
  | .quotedPrintable => oneString packString
      (qpEncode (if n.explicit then n.rep.getD 72 else 72)) args
  | .utf8 => each packUtf8 n.rep args
  | .ber => each packBer n.rep args
  | .uleb => each packUleb n.rep args
  | .sleb => each packSleb n.rep args
  | .null => .ok (List.replicate (n.rep.getD 0) 0, args)
  | .offset => .ok ([], args)
  | _ => .error .type

/-- One directive.  l.673-1117; `X` l.753-764, `@` l.765-775 -/
def packNode (n : Node) (packed : List Nat) (args : List PV) : Except Err (List Nat × List PV) :=
  match n.template with
  | .back =>
    match n.rep with
    | none => .ok (packed, args)
    | some c => if packed.length < c then .error .argument
      else .ok (packed.take (packed.length - c), args)
  | .atPos =>
    .ok (if packed.length < n.rep.getD 0
      then packed ++ List.replicate (n.rep.getD 0 - packed.length) 0
      else packed.take (n.rep.getD 0), args)
  | _ =>
    match packOut n args with
    | .error e => .error e
    | .ok (out, args) => .ok (packed ++ out, args)

/-- The loop over the template.  l.653-1118 -/
def packNodes : List Node → List Nat → List PV → Except Err (List Nat)
  | [], packed, _ => .ok packed
  | n :: ns, packed, args =>
    match packNode n packed args with
    | .error e => .error e
    | .ok (packed, args) => packNodes ns packed args

/-- `Array#pack`.  l.549-1161 -/
def pack (args : List PV) (template : String) : Except Err (List Nat) :=
  match parse template with
  | .error e => .error e
  | .ok ns => packNodes ns [] args

/-! ## unpack -/

/-- `ByteIter`.  l.57-115 -/
structure It where
  slice : List Nat
  i : Nat
  deriving DecidableEq

def It.rem (it : It) : List Nat := it.slice.drop it.i

/-- Move to where `rest` is what remains. -/
def It.to (it : It) (rest : List Nat) : It := { it with i := it.slice.length - rest.length }

/-- `next_chunk`.  l.105-114 -/
def nextChunk (w : Nat) (l : List Nat) : Option (List Nat × List Nat) :=
  if w ≤ l.length then some (l.take w, l.drop w) else none

/-- The `unpack!` macro with a count.  l.138-150 -/
def unpackN (w : Nat) (f : List Nat → PV) : Nat → List Nat → List PV × List Nat
  | 0, l => ([], l)
  | n + 1, l =>
    match nextChunk w l with
    | some (c, rest) => let r := unpackN w f n rest; (f c :: r.1, r.2)
    | none => let r := unpackN w f n l; (.nil :: r.1, r.2)

/-- The `unpack!` macro with `*`; `fuel` bounds the turns.  l.151-160 -/
def unpackAll (w : Nat) (f : List Nat → PV) : Nat → List Nat → List PV × List Nat
  | 0, l => ([], l)
  | fuel + 1, l =>
    match nextChunk w l with
    | some (c, rest) => let r := unpackAll w f fuel rest; (f c :: r.1, r.2)
    | none => ([], l)

/-- `for _ in 0..count { if b.is_empty() { break } … }` of `U` and `w`.  l.410-426, 427-443 -/
def decodeN (f : List Nat → Except Err (PV × List Nat)) : Nat → List Nat →
    Except Err (List PV × List Nat)
  | 0, l => .ok ([], l)
  | _ + 1, [] => .ok ([], [])
  | n + 1, l =>
    match f l with
    | .error e => .error e
    | .ok (v, rest) =>
      match decodeN f n rest with
      | .error e => .error e
      | .ok (vs, rest) => .ok (v :: vs, rest)

/-- The loop of `R` and `r`; under `*` (`star`) the bound is the number of bytes.
l.491-504, 515-528 -/
def lebN {α : Type} (dec : List Nat → Outcome α) (mkv : α → PV) (star : Bool) :
    Nat → List Nat → List PV × List Nat
  | 0, l => ([], l)
  | n + 1, l =>
    match dec l with
    | .value v rest => let r := lebN dec mkv star n rest; (mkv v :: r.1, r.2)
    | .incomplete => (if star then [] else [.nil], [])
    | .atEnd => ([], l)

/-- `A`: trailing spaces and NULs go.  l.313-329 -/
def trim (s : List Nat) : List Nat := (s.reverse.dropWhile fun c => c == 32 || c == 0).reverse

/-- `Z`: up to the first NUL.  l.333-344 -/
def upToNul (s : List Nat) : List Nat := s.takeWhile (· != 0)

/-- A directive that makes one value of the next `count` (or all) bytes. -/
def takeStr (f : List Nat → List Nat) (rep : Option Nat) (l : List Nat) :
    List PV × List Nat :=
  match rep with
  | some c => ([.str (f (l.take c))], l.drop c)
  | none => ([.str (f l)], [])

/-- One directive of `unpack`.  l.164-540 -/
def unpackNode (n : Node) (it : It) : Except Err (List PV × It) :=
  let l := it.rem
  let pure (r : List PV × List Nat) : Except Err (List PV × It) := .ok (r.1, it.to r.2)
  match n.template with
  | .int w signed =>
    let f := fun c => PV.int (interpret w signed (ofBytes n.big c))
    pure (match n.rep with | some k => unpackN w f k l | none => unpackAll w f l.length l)
  | .f64 =>
    let f := fun c => PV.flt (ofBytes n.big c)
    pure (match n.rep with | some k => unpackN 8 f k l | none => unpackAll 8 f l.length l)
  | .hex => pure (match n.rep with
    | some k => let r := hexUnpackN n.big k l; ([.str r.1], r.2)
    | none => ([.str (hexUnpackAll n.big l)], []))
  | .bitString => pure (match n.rep with
    | some k => let r := bitUnpackN n.big k l; ([.str r.1], r.2)
    | none => ([.str (bitUnpackAll n.big l)], []))
  | .null =>
    match n.rep with
    | some k => if l.length < k then .error .argument else .ok ([], { it with i := it.i + k })
    | none => .ok ([], { it with i := max it.i it.slice.length })
  | .back =>
    match n.rep with
    | some k => if it.i < k then .error .argument else .ok ([], { it with i := it.i - k })
    | none => .ok ([], { it with i := 0 })
  | .atPos =>
    match n.rep with
    | some p => if it.slice.length < p then .error .argument else .ok ([], { it with i := p })
    | none => .ok ([], { it with i := it.slice.length })
  | .ascii => pure (takeStr id n.rep l)
  | .asciiTrim => pure (takeStr trim n.rep l)
  | .cString => pure (takeStr upToNul n.rep l)
  | .base64 => pure ([.str (b64Decode l)], [])
  | .quotedPrintable => pure ([.str (qpDecode l)], [])
  | .uuEncoded => pure ([.str (uuDecode l)], [])
  | .utf8 =>
    match decodeN (fun l => (utf8Decode l).map fun r => (.int r.1, r.2)) (n.rep.getD l.length) l with
    | .error e => .error e
    | .ok r => pure r
  | .ber =>
    match decodeN (fun l => (berDecode 0 l).map fun r => (.int r.1, r.2)) (n.rep.getD l.length) l with
    | .error e => .error e
    | .ok r => pure r
  | .uleb => pure (lebN ulebDecode (fun v => .int v) n.rep.isNone (n.rep.getD l.length) l)
  | .sleb => pure (lebN slebDecode (fun v => .int v) n.rep.isNone (n.rep.getD l.length) l)
  | .offset => .ok ([.int it.i], it)
  | .unmodelled => .error .type

/-- The loop over the template.  l.164-540 -/
def unpackNodes : List Node → It → Except Err (List PV)
  | [], _ => .ok []
  | n :: ns, it =>
    match unpackNode n it with
    | .error e => .error e
    | .ok (vs, it) =>
      match unpackNodes ns it with
      | .error e => .error e
      | .ok rest => .ok (vs ++ rest)

/-- `String#unpack`.  l.117-547 -/
def unpack (packed : List Nat) (template : String) : Except Err (List PV) :=
  match parse template with
  | .error e => .error e
  | .ok ns => unpackNodes ns ⟨packed, 0⟩

end Verif.Pack
