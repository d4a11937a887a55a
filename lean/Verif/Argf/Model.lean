/-!
# ARGF

The files named in ARGV read as one, or stdin if there are none.  Modelled from
`monoruby/src/builtins/argf.rs`.  Bytes are numbers; every named file exists and
its content does not change; the name `-`, in-place editing, encodings,
positioning (`pos=`, `seek`, `rewind`) and changes of ARGV during the walk are not
modelled.
-/

namespace Verif.Argf

abbrev Bytes := List Nat

/-- `ArgfState`. -/
inductive Phase
  | init | reading | done
deriving DecidableEq, Repr

/-- `ArgfInner`: the files still to open, the unread part of the current stream,
whether that is stdin, and the line counter. -/
structure St where
  phase : Phase
  queue : List Bytes
  stdin : Bytes
  cur : Option Bytes
  isStdin : Bool
  lineno : Nat
deriving DecidableEq, Repr

/-- Before the first read. -/
def St.start (files : List Bytes) (stdin : Bytes) : St := ⟨.init, files, stdin, none, false, 0⟩

/-- Models `force_stream` (argf.rs:199-272): the stream to read from. -/
def force (s : St) : Option Bytes × St :=
  match s.cur with
  | some c => (some c, s)
  | none =>
    if s.phase = .done then (none, s) else
    match s.queue with
    | [] =>
      if s.phase = .init then
        (some s.stdin, { s with phase := .reading, cur := some s.stdin, isStdin := true })
      else (none, { s with phase := .done })
    | f :: q => (some f, { s with phase := .reading, queue := q, cur := some f, isStdin := false })

/-- Models `finish_stream` (argf.rs:277-289). -/
def finish (s : St) : St := { s with cur := none }

/-- Models the loops of `argf_getline_raw` (argf.rs:365-408) and `next_unit`
(argf.rs:691-707): `f` reads from one stream, and gives `none` at its end. -/
def next {α : Type} (f : Bytes → Option (α × Bytes)) : Nat → St → Option α × St
  | 0, s => (none, s)
  | fuel + 1, s =>
    match force s with
    | (none, s) => (none, s)
    | (some c, s) =>
      match f c with
      | some (a, c') => (some a, { s with cur := some c' })
      | none => next f fuel (finish s)

/-- Enough rounds: one for each stream and one to see that there is no more. -/
def St.rounds (s : St) : Nat := s.queue.length + 2

/-- The first line, with its newline (`IoInner::getline` with the default
separator and no limit; `Verif/IoBuf` has the general case). -/
def splitLine : Bytes → Bytes × Bytes
  | [] => ([], [])
  | b :: bs => if b = 10 then ([b], bs) else ((b :: (splitLine bs).1), (splitLine bs).2)

def lineOf (c : Bytes) : Option (Bytes × Bytes) :=
  if c.isEmpty then none else some (splitLine c)

def byteOf : Bytes → Option (Nat × Bytes)
  | [] => none
  | b :: bs => some (b, bs)

/-- `ARGF.gets` (argf.rs:365-424). -/
def gets (s : St) : Option Bytes × St :=
  match next lineOf s.rounds s with
  | (some l, s) => (some l, { s with lineno := s.lineno + 1 })
  | (none, s) => (none, s)

/-- `ARGF.getbyte` (argf.rs:722-724). -/
def getbyte (s : St) : Option Nat × St := next byteOf s.rounds s

/-- `ARGF.readlines` (argf.rs:432-440): `gets` until nil. -/
def readlines : Nat → St → List Bytes × St
  | 0, s => ([], s)
  | fuel + 1, s =>
    match gets s with
    | (none, s) => ([], s)
    | (some l, s) => (l :: (readlines fuel s).1, (readlines fuel s).2)

/-- Models the loop of `ARGF.read` (argf.rs:498-544) without length. -/
def readAll : Nat → St → Bytes → Bool → Option Bytes × St
  | 0, s, _, _ => (none, s)
  | fuel + 1, s, acc, had =>
    match force s with
    | (none, s) => (if had then some acc else none, s)
    | (some c, s) => readAll fuel (finish s) (acc ++ c) true

/-- Models the loop of `ARGF.read(len)` (argf.rs:498-544), `len > 0`. -/
def readLen (len : Nat) : Nat → St → Bytes → Option Bytes × St
  | 0, s, _ => (none, s)
  | fuel + 1, s, acc =>
    if len ≤ acc.length then (some acc, s) else
    match force s with
    | (none, s) => (if acc.isEmpty then none else some acc, s)
    | (some c, s) =>
      let need := len - acc.length
      let chunk := c.take need
      if chunk.length < need then readLen len fuel (finish s) (acc ++ chunk)
      else readLen len fuel { s with cur := some (c.drop need) } (acc ++ chunk)

/-- `ARGF.read(len)` (argf.rs:474-562). -/
def read (len : Option Nat) (s : St) : Option Bytes × St :=
  match len with
  | none => readAll s.rounds s [] false
  | some 0 => (some [], s)
  | some n => readLen n (s.rounds + 1) s []

/-- `ARGF.eof?` (argf.rs:797-803); `none` is the IOError. -/
def eof (s : St) : Option Bool × St :=
  match force s with
  | (none, s) => (none, s)
  | (some c, s) => (some c.isEmpty, s)

/-- `ARGF.skip` (argf.rs:875-879). -/
def skip (s : St) : St := finish s

/-- `ARGF.close` (argf.rs:849-860). -/
def close (s : St) : St := if s.cur.isSome && !s.isStdin then finish s else s

end Verif.Argf
