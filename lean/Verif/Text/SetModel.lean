import Mathlib.Logic.Function.Basic

/-!
# Sets of characters: `tr`, `tr_s`, `delete`, `count`, `squeeze`

`monoruby/src/builtins/string.rs` 6368-7302.

A character is its code point, a `Nat`.  A receiver whose encoding is neither UTF-8 nor US-ASCII
is the list of the byte sequences of its characters (`iter_char_bytes`, the subject of
`Verif.Str`).  The byte-to-U+00XX view of 8-bit strings (`tr_set_view`, `regex_view`) maps byte `b`
to code point `b` and back, so such a string is a list of code points under 256 here.
-/

namespace Verif.Text

/-- `char::from_u32(c).is_some()` (standard library) -/
def isScalar (c : Nat) : Bool := c < 0xD800 || (0xE000 ≤ c && c ≤ 0x10FFFF)

/-- the characters pushed for a range `ch-end`, string.rs:6778-6782 -/
def rangeChars (a b : Nat) : List Nat := ((List.range (b + 1 - a)).map (a + ·)).filter isScalar

/-- one character of a spec, `\` taking the next literally, string.rs:6752-6756, 6767-6771 -/
def takeCh (c : Nat) (t : List Nat) : Nat × List Nat :=
  if c = 92 then (match t with | [] => (92, []) | d :: u => (d, u)) else (c, t)

/-- The loop of `expand_tr_spec`, string.rs:6751-6787.  `none` is the `ArgumentError` of a range
that runs backwards.  A `\` takes the next character literally, at the start and at the end of
a range alike; the last `\` of the spec stands for itself.  `fuel` bounds the iterations. -/
def expandLoop : Nat → List Nat → Option (List Nat)
  | 0, _ => some []
  | _ + 1, [] => some []
  | n + 1, c :: t =>
    let r := takeCh c t
    match r.2 with
    | 45 :: e :: u =>
      let q := takeCh e u
      if r.1 > q.1 then none
      else (expandLoop n q.2).map (rangeChars r.1 q.1 ++ ·)
    | _ => (expandLoop n r.2).map (r.1 :: ·)

/-- `expand_tr_spec`, string.rs:6742-6789: a leading `^` negates unless it is the whole spec -/
def expandSpec (spec : List Nat) : Option (List Nat × Bool) :=
  match spec with
  | 94 :: d :: t => (expandLoop (t.length + 1) (d :: t)).map (·, true)
  | _ => (expandLoop spec.length spec).map (·, false)

/-- the 128-bit map over ASCII, two words, string.rs:6646 and 7230 -/
structure Bitmap where
  w0 : Nat
  w1 : Nat
deriving Repr

/-- `bitmap[(b >> 6)] |= 1 << (b & 63)`, string.rs:6649, 6674, 7255 -/
def Bitmap.set (m : Bitmap) (b : Nat) : Bitmap :=
  if b >>> 6 = 0 then { m with w0 := m.w0 ||| (1 <<< (b &&& 63)) }
  else { m with w1 := m.w1 ||| (1 <<< (b &&& 63)) }

/-- `bitmap[(b >> 6)] & (1 << (b & 63)) != 0`, string.rs:6654, 6682, 7277, 7295 -/
def Bitmap.has (m : Bitmap) (b : Nat) : Bool :=
  ((if b >>> 6 = 0 then m.w0 else m.w1) &&& (1 <<< (b &&& 63))) != 0

/-- the loop that fills a bitmap from the characters of a spec -/
def Bitmap.ofList (l : List Nat) : Bitmap := l.foldl Bitmap.set ⟨0, 0⟩

/-- `Charset`, string.rs:7238-7243; the `BTreeSet` is a list used for membership only -/
structure Charset where
  bits : Bitmap
  nonAscii : List Nat
  negated : Bool
  empty : Bool
deriving Repr

/-- `Charset::parse`, string.rs:7246-7272 -/
def Charset.parse (spec : List Nat) : Option Charset :=
  if spec = [] then some ⟨⟨0, 0⟩, [], false, true⟩
  else (expandSpec spec).map fun (chars, negated) =>
    ⟨Bitmap.ofList (chars.filter (· < 128)), chars.filter (128 ≤ ·), negated, false⟩

/-- `contains_char`, string.rs:7274-7285 -/
def Charset.hasChar (s : Charset) (c : Nat) : Bool :=
  if s.empty then false
  else (if c < 128 then s.bits.has c else s.nonAscii.contains c) ^^ s.negated

/-- `contains_ascii_byte`, string.rs:7291-7299 -/
def Charset.hasByte (s : Charset) (b : Nat) : Bool :=
  if s.empty then false else s.bits.has b ^^ s.negated

/-- every argument parsed, `collect::<Result<_>>` -/
def parseAll : List (List Nat) → Option (List Charset)
  | [] => some []
  | a :: t => (Charset.parse a).bind fun s => (parseAll t).map (s :: ·)

/-- the arms of `delete_compute`, `count`, `squeeze_compute` for a receiver in UTF-8, US-ASCII or
an 8-bit encoding: per byte when it is ASCII only (string.rs:6406-6414, 7036-7045, 7131-7146),
else per character (6418-6424, 7047-7054, 7148-7158) -/
def member (asciiRecv : Bool) (sets : List Charset) (c : Nat) : Bool :=
  if asciiRecv then sets.all (·.hasByte c) else sets.all (·.hasChar c)

/-- `is_ascii_only` -/
def asciiOnly (s : List Nat) : Bool := s.all (· < 128)

/-- `String#delete`, string.rs:6372-6432 -/
def delete (s : List Nat) (args : List (List Nat)) : Option (List Nat) :=
  if args = [] then none
  else (parseAll args).map fun sets => s.filter fun c => !member (asciiOnly s) sets c

/-- the counting loops of `String#count` -/
def countLoop (p : Nat → Bool) : List Nat → Nat → Nat
  | [], n => n
  | c :: t, n => countLoop p t (if p c then n + 1 else n)

/-- `String#count`, string.rs:7007-7056 -/
def count (s : List Nat) (args : List (List Nat)) : Option Nat :=
  if args = [] then none
  else (parseAll args).map fun sets => countLoop (member (asciiOnly s) sets) s 0

/-- the loops of `squeeze_compute`; `prev` is the character pushed last -/
def squeezeLoop (p : Nat → Bool) : Option Nat → List Nat → List Nat
  | _, [] => []
  | prev, c :: t =>
    if p c && (some c == prev) then squeezeLoop p prev t
    else c :: squeezeLoop p (some c) t

/-- `squeeze_compute`, string.rs:7098-7160: no argument squeezes every character -/
def squeeze (s : List Nat) (args : List (List Nat)) : Option (List Nat) :=
  (parseAll args).map fun sets =>
    squeezeLoop (fun c => sets.isEmpty || member (asciiOnly s) sets c) none s

/-- `ascii_sets_contain`, string.rs:7230-7236: one character as bytes, against ASCII-only sets -/
def asciiSetsHave (sets : List Charset) (ch : List Nat) : Bool :=
  match ch with
  | [b] => if b < 128 then sets.all (·.hasByte b) else sets.all (·.hasChar 0xFFFF)
  | _ => sets.all (·.hasChar 0xFFFF)

/-- `String#delete` on a receiver of another encoding with ASCII-only arguments,
string.rs:6394-6404 -/
def deleteEnc (s : List (List Nat)) (args : List (List Nat)) : Option (List Nat) :=
  if args = [] then none
  else (parseAll args).map fun sets => (s.filter fun ch => !asciiSetsHave sets ch).flatten

/-- the loop of `String#count` on such a receiver, string.rs:7024-7032 -/
def countEnc (s : List (List Nat)) (args : List (List Nat)) : Option Nat :=
  if args = [] then none
  else (parseAll args).map fun sets => s.countP (asciiSetsHave sets)

/-! ## tr -/

/-- `to_chars.get(i).copied().unwrap_or(last_to)`, string.rs:6711 and 6814 -/
def nthTo (to_ : List Nat) (i : Nat) : Nat := to_.getD i (to_.getLastD 0)

/-- `TrMap`, string.rs:6820-6830.  The `IndexMap` is an association list with the newest entry
first, so a later `insert` of the same key wins. -/
inductive TrMap where
  | map (m : List (Nat × Nat))
  | delete (chars : List Nat) (negated : Bool)
  | negated (fromSet : List Nat) (replacement : Nat)
deriving Repr

/-- the `insert` loop, string.rs:6813-6816 -/
def insertLoop (to_ : List Nat) : Nat → List Nat → List (Nat × Nat) → List (Nat × Nat)
  | _, [], m => m
  | i, c :: t, m => insertLoop to_ (i + 1) t ((c, nthTo to_ i) :: m)

/-- `tr_build_map`, string.rs:6796-6818.  The replacement goes through `expand_tr_spec` as well and
its negation flag is dropped: a leading `^` of the replacement disappears. -/
def buildMap (from_ to_ : List Nat) : Option TrMap :=
  (expandSpec from_).bind fun (fs, neg) =>
    if to_ = [] then some (.delete fs neg)
    else (expandSpec to_).bind fun (ts, _) =>
      if neg then some (.negated fs (ts.getLastD 0))
      else some (.map (insertLoop ts 0 fs []))

/-- what happens to one character: `Keep`, `Drop`, `Repl`, string.rs:6886-6920 and 6946-6972 -/
inductive Out where
  | keep | drop | repl (r : Nat)
deriving DecidableEq, Repr

/-- the `match &map` of `tr_translate` and `tr_translate_bytes` -/
def TrMap.out (m : TrMap) (c : Nat) : Out :=
  match m with
  | .map l => match l.lookup c with | some r => .repl r | none => .keep
  | .delete chars neg => if (if neg then !chars.contains c else chars.contains c) then .drop else .keep
  | .negated fs r => if fs.contains c then .keep else .repl r

/-- the loop of `tr_translate`, string.rs:6945-6993, and of `tr_translate_bytes`, 6875-6932;
`f` is the outcome for a character, `emit` what a replacement or a kept character writes.
`last` is `last_translated`. -/
def trLoop {α β : Type} (f : α → Out) (keep : α → List β) (repl : Nat → List β) (squeeze : Bool) :
    Option Nat → List α → List β × Bool
  | _, [] => ([], false)
  | last, c :: t =>
    match f c with
    | .drop => ((trLoop f keep repl squeeze none t).1, true)
    | .keep =>
      let r := trLoop f keep repl squeeze none t
      (keep c ++ r.1, r.2)
    | .repl x =>
      let r := trLoop f keep repl squeeze (some x) t
      (if squeeze && (some x == last) then r.1 else repl x ++ r.1, true)

/-- `tr_translate`, string.rs:6940-6996 -/
def trChars (s from_ to_ : List Nat) (squeeze : Bool) : Option (List Nat × Bool) :=
  (buildMap from_ to_).map fun m => trLoop m.out (fun c => [c]) (fun r => [r]) squeeze none s

/-- the key of a character in `tr_translate_bytes`, string.rs:6881-6885 -/
def sentinel (ch : List Nat) : Nat :=
  match ch with
  | [b] => if b < 128 then b else 0xFFFF
  | _ => 0xFFFF

/-- `tr_translate_bytes`, string.rs:6866-6935, for ASCII-only specs (so a replacement is
one byte) -/
def trBytes (s : List (List Nat)) (from_ to_ : List Nat) (squeeze : Bool) :
    Option (List Nat × Bool) :=
  (buildMap from_ to_).map fun m =>
    trLoop (fun ch => m.out (sentinel ch)) (fun ch => ch) (fun r => [r]) squeeze none s

/-- deletion by bitmap, string.rs:6645-6663 -/
def asciiDeleteLoop (m : Bitmap) (neg : Bool) : List Nat → List Nat × Bool
  | [] => ([], false)
  | b :: t =>
    let r := asciiDeleteLoop m neg t
    if m.has b ^^ neg then (r.1, true) else (b :: r.1, r.2)

/-- the loop for a negated `from`, string.rs:6680-6700 -/
def asciiNegLoop (m : Bitmap) (lastTo : Nat) (squeeze : Bool) : Option Nat → List Nat → List Nat × Bool
  | _, [] => ([], false)
  | last, b :: t =>
    if !m.has b then
      let r := asciiNegLoop m lastTo squeeze (some lastTo) t
      (if squeeze && (some lastTo == last) then r.1 else lastTo :: r.1, true)
    else
      let r := asciiNegLoop m lastTo squeeze none t
      (b :: r.1, r.2)

/-- `table` and `in_from`, string.rs:6706-6714: one array of 128 entries, `none` when `in_from` is
false -/
def fillTable (to_ : List Nat) : Nat → List Nat → (Nat → Option Nat) → Nat → Option Nat
  | _, [], tb => tb
  | i, c :: t, tb => fillTable to_ (i + 1) t (fun b => if b = c then some (nthTo to_ i) else tb b)

/-- the loop over the bytes, string.rs:6716-6733 -/
def asciiMapLoop (tb : Nat → Option Nat) (squeeze : Bool) : Option Nat → List Nat → List Nat × Bool
  | _, [] => ([], false)
  | last, b :: t =>
    match tb b with
    | some x =>
      let r := asciiMapLoop tb squeeze (some x) t
      (if squeeze && (some x == last) then r.1 else x :: r.1, true)
    | none =>
      let r := asciiMapLoop tb squeeze none t
      (b :: r.1, r.2)

/-- Outcome of the fast path: an `ArgumentError`, not applicable, or the bytes. -/
inductive Fast where
  | err | no | done (r : List Nat × Bool)
deriving Repr

/-- `ascii_tr_translate`, string.rs:6629-6735 -/
def asciiTr (s from_ to_ : List Nat) (squeeze : Bool) : Fast :=
  if !asciiOnly s then .no
  else match expandSpec from_ with
    | none => .err
    | some (fs, neg) =>
      if !asciiOnly fs then .no
      else if to_ = [] then .done (asciiDeleteLoop (Bitmap.ofList fs) neg s)
      else match expandSpec to_ with
        | none => .err
        | some (ts, _) =>
          if !asciiOnly ts then .no
          else if neg then .done (asciiNegLoop (Bitmap.ofList fs) (ts.getLastD 0) squeeze none s)
          else .done (asciiMapLoop (fillTable ts 0 fs fun _ => none) squeeze none s)

/-- `String#tr` (and `tr_s` for `squeeze`) of a UTF-8, US-ASCII or 8-bit receiver,
string.rs:6466-6488 and 6541-6562; the flag is what `tr!` and `tr_s!` turn into `nil` when it is
false (6497-6530, 6571-6605).  `none` is an `ArgumentError`. -/
def tr (s from_ to_ : List Nat) (squeeze : Bool) : Option (List Nat × Bool) :=
  match asciiTr s from_ to_ squeeze with
  | .err => none
  | .done r => some r
  | .no => trChars s from_ to_ squeeze

end Verif.Text
