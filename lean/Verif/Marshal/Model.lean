/-!
# `Marshal.dump` and `Marshal.load` (monoruby/src/builtins/marshal.rs)

All line numbers are of `builtins/marshal.rs` unless another file is named.

A value is an immediate or a reference into a heap of objects.  `dump` writes bytes, with a table of
the symbols and a table of the objects written so far; `load` reads bytes into a new heap, with the
same two tables.

Not modelled: the `proc` and `freeze:` arguments of `load`; objects that run Ruby code while they are
dumped or loaded (`marshal_dump`, `_dump`, `Time`, `Rational`, `Complex`, the tags `U`, `u`, `d`);
exceptions; anonymous classes and singleton methods, which `dump` rejects.
-/

namespace Verif.Marshal

/-- The encodings `marshal_write_encoding_ivar_pair` tells apart (l.1474-1487); `other` has its name. -/
inductive Enc
  | binary
  | utf8
  | usAscii
  | other (name : List UInt8)
deriving DecidableEq, Repr

/-- A symbol: bytes and encoding.  One all of whose bytes are ASCII is interned once, as US-ASCII. -/
structure Sym where
  bytes : List UInt8
  enc : Enc
deriving DecidableEq, Repr

/-- A `Value`: an immediate (`flo` is a Float that fits in a word), a class or module (which `load`
finds by name and does not copy), or a reference to a heap object. -/
inductive Val
  | nil
  | tru
  | fls
  | fix (n : Int)
  | flo (b : UInt64)
  | sym (s : Sym)
  | cls (name : List UInt8)
  | ref (a : Nat)
deriving DecidableEq, Repr

/-- The payload of a heap object. -/
inductive Body
  | str (bytes : List UInt8) (enc : Enc)
  | arr (elems : List Val)
  | hash (pairs : List (Val × Val)) (dflt : Option Val) (byId : Bool)
  | big (n : Int)
  | float (b : UInt64)
  /-- an instance of a user class -/
  | obj
  | struct (members : List (Sym × Val))
  | range (b e : Val) (excl : Bool)
  | regexp (src : List UInt8) (opt : UInt8) (enc : Enc)
deriving DecidableEq, Repr

/-- A heap object.  `cls` is the name of its class, `none` for the built-in class of its payload; `ext`
are the modules it is extended with, nearest first; `ivars` are its instance variables in the order of
the class's table (globals/store/class/instance_var.rs l.34-49). -/
structure Obj where
  body : Body
  cls : Option Sym := none
  ext : List Sym := []
  ivars : List (Sym × Val) := []
deriving DecidableEq, Repr

/-- What a constant path names (`resolve_class_path`, l.1148-1163, and the tests made on the result). -/
inductive Kind
  | module
  /-- a class with the default allocator -/
  | plain
  /-- a class with its own allocator -/
  | native
  | struct (members : List Sym)
deriving DecidableEq, Repr

/-- What surrounds the codec: the constants; `top c` says that `c` is a constant of `Object` itself
(`get_constant`, globals/store/class/constants.rs l.274); which Floats fit in a word; the decimal text
of a Float and its parser; `Encoding::try_from_str` with its default; which bytes are valid UTF-8. -/
structure Env where
  kind : List UInt8 → Option Kind
  top : List UInt8 → Bool
  isFlo : UInt64 → Bool
  txt : UInt64 → List UInt8
  num : List UInt8 → Option UInt64
  encOf : List UInt8 → Enc
  valid : List UInt8 → Bool

/-! ## Names -/

/-- `E` -/
def nE : List UInt8 := [69]
/-- `encoding` -/
def nEncoding : List UInt8 := [101, 110, 99, 111, 100, 105, 110, 103]
/-- `Range` -/
def nRange : List UInt8 := [82, 97, 110, 103, 101]
/-- `excl` -/
def nExcl : List UInt8 := [101, 120, 99, 108]
/-- `begin` -/
def nBegin : List UInt8 := [98, 101, 103, 105, 110]
/-- `end` -/
def nEnd : List UInt8 := [101, 110, 100]
/-- `Hash` -/
def nHash : List UInt8 := [72, 97, 115, 104]

/-- `bytes.iter().all(|&b| b < 0x80)` (l.1428). -/
def ascii (bs : List UInt8) : Bool := bs.all fun b => b < 128

/-- `IdentId::get_id` of an ASCII name. -/
def asciiSym (bs : List UInt8) : Sym := ⟨bs, .usAscii⟩

/-! ## Writing -/

/-- One byte of `to_le_bytes` (l.1217, l.1231). -/
def leByte (n : Int) (i : Nat) : UInt8 := UInt8.ofNat ((n / 256 ^ i) % 256).toNat

/-- The first `k` bytes of `to_le_bytes`. -/
def leBytes (n : Int) (k : Nat) : List UInt8 := (List.range k).map (leByte n)

/-- `marshal_write_fixnum` (l.1209-1244). -/
def wFix (n : Int) : List UInt8 :=
  if n = 0 then [0]
  else if 0 < n ∧ n ≤ 122 then [UInt8.ofNat (n + 5).toNat]
  else if n < 0 ∧ -123 ≤ n then [leByte (n - 5) 0]
  else if 0 < n then
    let len := if n ≤ 0xff then 1 else if n ≤ 0xffff then 2 else if n ≤ 0xffffff then 3 else 4
    UInt8.ofNat len :: leBytes n len
  else
    let len := if -0x100 ≤ n then 1 else if -0x10000 ≤ n then 2 else if -0x1000000 ≤ n then 3 else 4
    UInt8.ofNat (256 - len) :: leBytes n len

/-- `as i32` of a length or an index. -/
def toI32 (k : Nat) : Int :=
  let m : Nat := k % 2 ^ 32
  if m < 2 ^ 31 then (m : Int) else (m : Int) - 2 ^ 32

/-- A length or an index: `marshal_write_fixnum(buf, k as i32)`. -/
def wLen (k : Nat) : List UInt8 := wFix (toI32 k)

/-- The bytes of a magnitude, least significant first, none of them superfluous
(`BigInt::to_bytes_le`, l.1253; never called for 0). -/
def natLE (n : Nat) : List UInt8 :=
  if h : n = 0 then [] else UInt8.ofNat (n % 256) :: natLE (n / 256)
termination_by n
decreasing_by omega

/-- `marshal_write_bignum` (l.1249-1263). -/
def wBig (n : Int) : List UInt8 :=
  let bs := natLE n.natAbs
  108 :: (if n < 0 then 45 else 43) :: wLen ((bs.length + 1) / 2) ++ bs ++
    (if bs.length % 2 ≠ 0 then [0] else [])

/-- `marshal_write_float` (l.1381-1406), the text being the environment's. -/
def wFloat (E : Env) (b : UInt64) : List UInt8 := 102 :: wLen (E.txt b).length ++ E.txt b

/-- `marshal_write_symbol` (l.1421-1436) for an ASCII name. -/
def wSymAscii (s : Sym) (syms : List Sym) : List UInt8 × List Sym :=
  match syms.idxOf? s with
  | some i => (59 :: wLen i, syms)
  | none => (58 :: wLen s.bytes.length ++ s.bytes, syms ++ [s])

/-- `marshal_write_encoding_ivar_pair` (l.1474-1489). -/
def wEncPair (e : Enc) (syms : List Sym) : List UInt8 × List Sym :=
  match e with
  | .other name =>
    let (b, syms) := wSymAscii (asciiSym nEncoding) syms
    (b ++ 34 :: wLen name.length ++ name, syms)
  | e =>
    let (b, syms) := wSymAscii (asciiSym nE) syms
    (b ++ [if e = .utf8 then 84 else 70], syms)

/-- `marshal_write_symbol` (l.1421-1448). -/
def wSym (s : Sym) (syms : List Sym) : List UInt8 × List Sym :=
  match syms.idxOf? s with
  | some i => (59 :: wLen i, syms)
  | none =>
    if ascii s.bytes || s.enc = .binary then
      (58 :: wLen s.bytes.length ++ s.bytes, syms ++ [s])
    else
      let (p, syms) := wEncPair s.enc (syms ++ [s])
      (73 :: 58 :: wLen s.bytes.length ++ s.bytes ++ wLen 1 ++ p, syms)

/-- The writer's tables (l.61-64). -/
structure W where
  syms : List Sym := []
  objs : List Val := []
deriving DecidableEq, Repr

/-- A writer: bytes and new tables, or an error. -/
abbrev Wr := W → Option (List UInt8 × W)

/-- Write some bytes. -/
def lit (bs : List UInt8) : Wr := fun w => some (bs, w)

/-- Write a symbol. -/
def symW (s : Sym) : Wr := fun w =>
  let (bs, syms) := wSym s w.syms
  some (bs, { w with syms := syms })

/-- Write one thing after another. -/
def cat : List Wr → Wr
  | [] => lit []
  | f :: fs => fun w =>
    match f w with
    | none => none
    | some (b, w1) =>
      match cat fs w1 with
      | none => none
      | some (c, w2) => some (b ++ c, w2)

/-- The pairs of an ivar block or a struct (l.1501-1504, l.2049-2053). -/
def wPairs (dv : Val → Wr) (ps : List (Sym × Val)) : List Wr :=
  ps.map fun p => cat [symW p.1, dv p.2]

/-- `marshal_write_ivar_block` (l.1492-1506). -/
def wIvars (dv : Val → Wr) (ps : List (Sym × Val)) : Wr := cat (lit (wLen ps.length) :: wPairs dv ps)

/-- The `e` and `C` wrappers (`marshal_write_extended_and_class`, l.1552-1586). -/
def wHead (o : Obj) : List Wr :=
  o.ext.map (fun m => cat [lit [101], symW m]) ++
    (match o.cls with
      | none => []
      | some c => [cat [lit [67], symW c]])

/-- The `I` wrapper around a container, with its ivar block (l.1877-1899, l.1957-1995). -/
def wrapI (dv : Val → Wr) (o : Obj) (core : Wr) : Wr :=
  if o.ivars = [] then cat (wHead o ++ [core])
  else cat (lit [73] :: wHead o ++ [core, wIvars dv o.ivars])

/-- The encoding pair as a writer. -/
def encW (e : Enc) : Wr := fun w =>
  let (b, syms) := wEncPair e w.syms
  some (b, { w with syms := syms })

/-- A String (l.1813-1838). -/
def wStr (dv : Val → Wr) (o : Obj) (bytes : List UInt8) (enc : Enc) : Wr :=
  let core := lit (34 :: wLen bytes.length ++ bytes)
  if enc = .binary then wrapI dv o core
  else cat (lit [73] :: wHead o ++
    [core, lit (wLen (1 + o.ivars.length)), encW enc] ++ wPairs dv o.ivars)

/-- A Range (l.1926-1952): the class `Range` and three variables, whatever the object's class. -/
def wRange (dv : Val → Wr) (b e : Val) (excl : Bool) : Wr :=
  cat [lit [111], symW (asciiSym nRange), lit (wLen 3), symW (asciiSym nExcl),
    lit [if excl then 84 else 70], symW (asciiSym nBegin), dv b, symW (asciiSym nEnd), dv e]

/-- A Hash without its wrappers (l.1973-1992). -/
def wHashCore (dv : Val → Wr) (ps : List (Val × Val)) (d : Option Val) (byId : Bool) : Wr :=
  cat ((if byId then [lit [67], symW (asciiSym nHash)] else []) ++
    [lit ((if d.isSome then 125 else 123) :: wLen ps.length)] ++
    ps.map (fun p => cat [dv p.1, dv p.2]) ++
    (match d with
      | none => []
      | some v => [dv v]))

/-- The body of a heap object (l.1763-2196), once its slot is taken. -/
def wObj (E : Env) (dv : Val → Wr) (o : Obj) : Wr :=
  match o.body with
  | .str bs e => wStr dv o bs e
  | .arr vs => wrapI dv o (cat (lit (91 :: wLen vs.length) :: vs.map dv))
  | .hash ps d byId => wrapI dv o (wHashCore dv ps d byId)
  | .big n => lit (wBig n)
  | .float b => lit (wFloat E b)
  -- l.1996-2033
  | .obj => match o.cls with
    | none => fun _ => none
    | some c => cat (o.ext.map (fun m => cat [lit [101], symW m]) ++
        [lit [111], symW c, wIvars dv o.ivars])
  -- l.2034-2094
  | .struct ms => match o.cls with
    | none => fun _ => none
    | some c =>
      let core := cat (o.ext.map (fun m => cat [lit [101], symW m]) ++
        [lit [83], symW c, lit (wLen ms.length)] ++ wPairs dv ms)
      if o.ivars = [] then core else cat [lit [73], core, wIvars dv o.ivars]
  | .range b e x => wRange dv b e x
  -- l.2095-2126
  | .regexp src opt enc =>
    cat (lit [73] :: wHead o ++ [lit (47 :: wLen src.length ++ src ++ [opt]),
      lit (wLen (1 + o.ivars.length)), encW enc] ++ wPairs dv o.ivars)

/-- `marshal_emit_link` (l.1597-1607) and the same test of l.1858-1864: a link if the object has a slot,
otherwise a new slot and the body. -/
def withSlot (key : Val) (body : Wr) : Wr := fun w =>
  match w.objs.idxOf? key with
  | some i => some (64 :: wLen i, w)
  | none => body { w with objs := w.objs ++ [key] }

/-- `marshal_dump_value` (l.1757-2200); the first argument bounds the nesting. -/
def dumpV (E : Env) (H : List Obj) : Nat → Val → Wr
  | 0, _ => fun _ => none
  | n + 1, v => match v with
    | .nil => lit [48]
    | .tru => lit [84]
    | .fls => lit [70]
    -- l.1777-1788: a large Fixnum is written as a Bignum, without a slot
    | .fix k => if -0x40000000 ≤ k ∧ k ≤ 0x3fffffff then lit (105 :: wFix k) else lit (wBig k)
    | .flo b => withSlot v (lit (wFloat E b))
    | .sym s => symW s
    -- l.1900-1925
    | .cls name => withSlot v
        (let tag : UInt8 := if E.kind name = some .module then 109 else 99
        if ascii name then lit (tag :: wLen name.length ++ name)
        else cat [lit (73 :: tag :: wLen name.length ++ name ++ wLen 1), symW (asciiSym nE), lit [84]])
    | .ref a => match H[a]? with
      | none => fun _ => none
      | some o => withSlot v (wObj E (dumpV E H n) o)

/-- `Marshal.dump` (l.42-95) of a value, without port.  Each nested object takes a slot first, so
the nesting is bounded by the size of the heap. -/
def dump (E : Env) (H : List Obj) (v : Val) : Option (List UInt8) :=
  match dumpV E H (H.length + 2) v {} with
  | none => none
  | some (bs, _) => some (4 :: 8 :: bs)

/-! ## Reading -/

/-- The outcome of reading: a value, a Ruby exception, or a panic of the interpreter. -/
inductive Res (α : Type)
  | ok (a : α)
  | raise
  | panic
deriving DecidableEq, Repr

/-- `MarshalReader` (l.143-163): what is left of the data and how much is read, the two tables, and the
heap it builds. -/
structure RS where
  inp : List UInt8
  pos : Nat := 0
  syms : List Sym := []
  objs : List Val := []
  heap : List Obj := []
deriving DecidableEq, Repr

/-- A reader. -/
abbrev M (α : Type) := RS → Res (α × RS)

def M.pure {α} (a : α) : M α := fun r => .ok (a, r)

def M.bind {α β} (m : M α) (f : α → M β) : M β := fun r =>
  match m r with
  | .ok (a, r') => f a r'
  | .raise => .raise
  | .panic => .panic

instance : Monad M where
  pure := M.pure
  bind := M.bind

/-- A Ruby exception. -/
def raise {α} : M α := fun _ => .raise

/-- A panic. -/
def panic {α} : M α := fun _ => .panic

/-- `read_byte` (l.178-185). -/
def readByte : M UInt8 := fun r =>
  match r.inp with
  | [] => .raise
  | b :: bs => .ok (b, { r with inp := bs, pos := r.pos + 1 })

/-- `self.pos -= 1` after `read_byte` (l.280, l.578, l.836). -/
def unread (b : UInt8) : M Unit := fun r => .ok ((), { r with inp := b :: r.inp, pos := r.pos - 1 })

/-- `read_bytes` (l.187-194).  `n` is a `usize`.  If `pos + n` overflows, a debug build panics there
and a release build in the slice. -/
def readBytes (n : Nat) : M (List UInt8) := fun r =>
  if 2 ^ 64 ≤ r.pos + n then .panic
  else if r.inp.length < n then .raise
  else .ok (r.inp.take n, { r with inp := r.inp.drop n, pos := r.pos + n })

/-- The value of little-endian bytes. -/
def leNat : List UInt8 → Nat
  | [] => 0
  | b :: bs => b.toNat + 256 * leNat bs

/-- A `u32` read as an `i32`. -/
def asI32 (n : Nat) : Int := if n < 2 ^ 31 then n else (n : Int) - 2 ^ 32

/-- `read_fixnum` (l.204-241). -/
def readFix : M Int := do
  let b ← readByte
  let k := b.toNat
  if k = 0 then pure 0
  else if k < 128 then
    if k ≤ 4 then do
      let bs ← readBytes k
      pure (asI32 (leNat bs))
    else pure ((k : Int) - 5)
  else if 252 ≤ k then do
      let bs ← readBytes (256 - k)
      pure (asI32 (2 ^ 32 - 256 ^ (256 - k) + leNat bs))
  else pure ((k : Int) - 256 + 5)

/-- `as usize` of an `i32`. -/
def toUsize (n : Int) : Nat := if 0 ≤ n then n.toNat else (2 ^ 64 + n).toNat

/-- A length or an index: `self.read_fixnum()? as usize`. -/
def readLen : M Nat := do
  let n ← readFix
  pure (toUsize n)

/-- `Vec::with_capacity(n)` for elements of 8 bytes or more panics when the size overflows.  (That a
smaller size may exhaust the memory is not modelled.) -/
def withCapacity (n : Nat) : M Unit := if 2 ^ 60 ≤ n then panic else pure ()

/-- Read `n` things. -/
def times {α} (m : M α) : Nat → M (List α)
  | 0 => pure []
  | n + 1 => do
    let a ← m
    let as ← times m n
    pure (a :: as)

/-- `intern_symbol_bytes` (l.1412-1419). -/
def intern (E : Env) (bs : List UInt8) (e : Enc) : Sym :=
  if e = .utf8 ∨ e = .usAscii then
    if ascii bs then ⟨bs, .usAscii⟩ else if E.valid bs then ⟨bs, .utf8⟩ else ⟨bs, e⟩
  else ⟨bs, e⟩

/-- `self.symbols.push`. -/
def pushSym (s : Sym) : M Unit := fun r => .ok ((), { r with syms := r.syms ++ [s] })

/-- `read_new_symbol` (l.244-259). -/
def readNewSym (E : Env) : M Sym := do
  let n ← readLen
  let bs ← readBytes n
  let s := intern E bs (if ascii bs then .usAscii else .binary)
  pushSym s
  pure s

/-- `self.symbols.get(idx)` (l.268-274, l.344-351). -/
def getSym : M Sym := do
  let i ← readLen
  fun r => match r.syms[i]? with
    | some s => .ok (s, r)
    | none => .raise

/-- `read_symbol` (l.263-289). -/
def readSymbol (E : Env) (rv : M Val) : M Sym := do
  let tag ← readByte
  match tag.toNat with
  | 58 => readNewSym E
  | 59 => getSym
  | 73 => do
    unread tag
    let v ← rv
    match v with
    | .sym s => pure s
    | _ => raise
  | _ => raise

/-- `self.objects.push`. -/
def pushObj (v : Val) : M Unit := fun r => .ok ((), { r with objs := r.objs ++ [v] })

/-- Allocate an object. -/
def alloc (o : Obj) : M Val := fun r => .ok (.ref r.heap.length, { r with heap := r.heap ++ [o] })

/-- Change an object. -/
def modify (a : Nat) (f : Obj → Obj) : M Unit := fun r =>
  .ok ((), { r with heap := r.heap.modify a f })

/-- `Value::bigint` (value.rs l.1058-1064, l.992-1002): a Fixnum if it fits in 63 bits. -/
def mkInt (n : Int) : M Val :=
  if -(2 ^ 62) ≤ n ∧ n < 2 ^ 62 then pure (.fix n) else alloc { body := .big n }

/-- `Value::float` (value.rs l.1029-1035). -/
def mkFloat (E : Env) (b : UInt64) : M Val :=
  if E.isFlo b then pure (.flo b) else alloc { body := .float b }

/-- `read_bignum` (l.427-441). -/
def readBig : M Val := do
  let sign ← readByte
  let k ← readLen
  let bs ← readBytes (k * 2 % 2 ^ 64)
  let v ← mkInt (if sign = 45 then -(leNat bs : Int) else leNat bs)
  pushObj v
  pure v

/-- `read_float` (l.445-471): the text ends at the first NUL. -/
def readFloat (E : Env) : M Val := do
  let n ← readLen
  let bs ← readBytes n
  match E.num (bs.takeWhile (· ≠ 0)) with
  | none => raise
  | some b => do
    let v ← mkFloat E b
    pushObj v
    pure v

/-- `read_raw_string` (l.475-490) as it is called, with ASCII-8BIT. -/
def readRawStr : M Val := do
  let n ← readLen
  let bs ← readBytes n
  let v ← alloc { body := .str bs .binary }
  pushObj v
  pure v

/-- Symbol and value, repeated. -/
def readPairs (E : Env) (rv : M Val) (n : Nat) : M (List (Sym × Val)) :=
  times (do let s ← readSymbol E rv; let v ← rv; pure (s, v)) n

/-- `set_ivar` (instance_var.rs l.54-60) on an assoc list. -/
def setIvar (l : List (Sym × Val)) (p : Sym × Val) : List (Sym × Val) :=
  if l.any (fun q => q.1 = p.1) then l.map (fun q => if q.1 = p.1 then p else q) else l ++ [p]

/-- `set_ivar` for each pair; immediates are frozen. -/
def setIvars (v : Val) (ps : List (Sym × Val)) : M Unit :=
  if ps = [] then pure ()
  else match v with
    | .ref a => modify a fun o => { o with ivars := ps.foldl setIvar o.ivars }
    | _ => raise

/-- The encoding a loaded name gives (l.829-833, l.838-842). -/
def encOfVal (E : Env) (v : Val) (dflt : Enc) : M Enc := fun r =>
  match v with
  | .ref a => match r.heap[a]? with
    | some { body := .str bs _, .. } => .ok (E.encOf bs, r)
    | _ => .ok (dflt, r)
  | _ => .ok (dflt, r)

/-- One pair of `read_encoding_ivars` (l.812-848), on the encoding and the pairs so far. -/
def readEncPair (E : Env) (rv : M Val) (acc : Enc × List (Sym × Val)) :
    M (Enc × List (Sym × Val)) := do
  let s ← readSymbol E rv
  if s.bytes = nE then do
    let b ← readByte
    if b = 84 then pure (.utf8, acc.2)
    else if b = 70 then pure (.usAscii, acc.2)
    else do
      unread b
      let v ← rv
      let e ← encOfVal E v acc.1
      pure (e, acc.2)
  else if s.bytes = nEncoding then do
    let v ← rv
    let e ← encOfVal E v acc.1
    pure (e, acc.2)
  else do
    let v ← rv
    pure (acc.1, acc.2 ++ [(s, v)])

/-- `n` pairs of `read_encoding_ivars`. -/
def readEncPairs (E : Env) (rv : M Val) : Nat → Enc × List (Sym × Val) → M (Enc × List (Sym × Val))
  | 0, acc => pure acc
  | n + 1, acc => do
    let acc ← readEncPair E rv acc
    readEncPairs E rv n acc

/-- `read_encoding_ivars` (l.806-850). -/
def readEncIvars (E : Env) (rv : M Val) : M (Enc × List (Sym × Val)) := do
  let n ← readLen
  readEncPairs E rv n (.binary, [])

/-- `read_ivar_wrapped` (l.495-594).  `I` before `u` is not modelled.  In the last case the variables
are set while they are read; here they are set after the last one, which differs only if reading fails. -/
def readIvarWrapped (E : Env) (rv : M Val) : M Val := do
  let tag ← readByte
  match tag.toNat with
  | 34 => do
    let n ← readLen
    let bs ← readBytes n
    let (e, ps) ← readEncIvars E rv
    let v ← alloc { body := .str bs e }
    pushObj v
    setIvars v ps
    pure v
  | 58 => do
    let n ← readLen
    let bs ← readBytes n
    let i ← (fun r => .ok (r.syms.length, r) : M Nat)
    pushSym (asciiSym [])
    let (e, _) ← readEncIvars E rv
    let s := intern E bs e
    (fun r => .ok ((), { r with syms := r.syms.set i s }) : M Unit)
    pure (.sym s)
  | 117 => raise
  | _ => do
    unread tag
    let v ← rv
    let n ← readLen
    let ps ← readPairs E rv n
    setIvars v (ps.filter fun p => p.1.bytes ≠ nE ∧ p.1.bytes ≠ nEncoding)
    pure v

/-- `read_array` (l.598-613).  The elements are pushed one by one; here they are set after the last one,
which nothing can see in between. -/
def readArray (rv : M Val) : M Val := do
  let n ← readLen
  withCapacity n
  let v ← alloc { body := .arr [] }
  pushObj v
  let vs ← times rv n
  match v with
  | .ref a => modify a fun o => { o with body := .arr vs }
  | _ => pure ()
  pure v

/-- The comparison of keys of a Hash that is not by identity (value/rvalue/hash.rs l.1289-1345):
immediates by identity, Strings by their bytes.  Simplified: other heap objects by identity. -/
def keyEq (h : List Obj) (a b : Val) : Bool :=
  a = b || match a, b with
    | .ref x, .ref y => match h[x]?, h[y]? with
      | some { body := .str s _, .. }, some { body := .str t _, .. } => s = t
      | _, _ => false
    | _, _ => false

/-- `map.insert` (value/rvalue/hash.rs l.1269-1345). -/
def insert (h : List Obj) (l : List (Val × Val)) (p : Val × Val) : List (Val × Val) :=
  if l.any (fun q => keyEq h q.1 p.1) then
    l.map fun q => if keyEq h q.1 p.1 then (q.1, p.2) else q
  else l ++ [p]

/-- `read_hash_inner` (l.627-651).  The pairs are inserted after the last one is read, which makes no
difference since the bytes of a String do not change.  `set_defalut_value(nil)` is no default. -/
def readHash (rv : M Val) (hasDefault : Bool) : M Val := do
  let n ← readLen
  let v ← alloc { body := .hash [] none false }
  pushObj v
  let ps ← times (do let k ← rv; let x ← rv; pure (k, x)) n
  let d ← if hasDefault then (do let x ← rv; pure (if x = .nil then none else some x)) else pure none
  match v with
  | .ref a => (fun r =>
      .ok ((), { r with heap := r.heap.modify a fun o =>
        { o with body := .hash (ps.foldl (insert r.heap) []) d false } }) : M Unit)
  | _ => pure ()
  pure v

/-- The value of the last pair with this name (l.691-699). -/
def lastOf (ps : List (Sym × Val)) (name : List UInt8) : Val :=
  ps.foldl (fun v p => if p.1.bytes = name then p.2 else v) .nil

/-- `read_user_object` (l.657-750).  Simplified: exceptions are treated as the other classes with an
allocator of their own. -/
def readObject (E : Env) (rv : M Val) : M Val := do
  let c ← readSymbol E rv
  let n ← readLen
  let i ← (fun r => .ok (r.objs.length, r) : M Nat)
  match E.kind c.bytes with
  | none => raise
  | some k => do
    let v ← alloc { body := .obj, cls := some c }
    pushObj v
    withCapacity n
    let ps ← readPairs E rv n
    if c.bytes = nRange then do
      let x := lastOf ps nExcl
      let w ← alloc { body := .range (lastOf ps nBegin) (lastOf ps nEnd) (x ≠ .nil ∧ x ≠ .fls) }
      (fun r => .ok ((), { r with objs := r.objs.set i w }) : M Unit)
      pure w
    else if k = .plain ∨ k = .module then do
      match v with
      | .ref a => modify a fun o => { o with ivars := ps.foldl setIvar o.ivars }
      | _ => pure ()
      pure v
    else raise

/-- `read_struct` (l.1032-1088). -/
def readStruct (E : Env) (rv : M Val) : M Val := do
  let c ← readSymbol E rv
  let n ← readLen
  match E.kind c.bytes with
  | some (.struct names) =>
    if names.length ≠ n then raise
    else do
      let v ← alloc { body := .struct (names.map fun s => (s, .nil)), cls := some c }
      pushObj v
      let ps ← readPairs E rv n
      if ps.map (·.1) = names then do
        match v with
        | .ref a => modify a fun o => { o with body := .struct ps }
        | _ => pure ()
        pure v
      else raise
  | _ => raise

/-- `read_user_class` (l.932-961): the class is looked up as one constant of `Object`.  `change_class`
panics on an immediate (value.rs l.806-813). -/
def readUserClass (E : Env) (rv : M Val) : M Val := do
  let c ← readSymbol E rv
  let v ← rv
  if E.top c.bytes then do
    match v with
    | .ref a => do
      let o ← (fun r => .ok (r.heap[a]?, r) : M (Option Obj))
      match o with
      | some { body := .hash ps d _, .. } =>
        if c.bytes = nHash then modify a fun o => { o with body := .hash ps d true }
        else modify a fun o => { o with cls := some c }
      | _ => modify a fun o => { o with cls := some c }
      pure v
    -- the class of a class can be changed too; such data is not modelled
    | .cls _ => raise
    | _ => panic
  else raise

/-- `read_extended` (l.1003-1021). -/
def readExtended (E : Env) (rv : M Val) : M Val := do
  let m ← readSymbol E rv
  let v ← rv
  match E.kind m.bytes, v with
  | some .module, .ref a => do
    modify a fun o => { o with ext := if m ∈ o.ext then o.ext else m :: o.ext }
    pure v
  | _, _ => raise

/-- `read_regexp` (l.971-995): no slot is taken.  Simplified: every source compiles, and the encoding is
UTF-8. -/
def readRegexp : M Val := do
  let n ← readLen
  let bs ← readBytes n
  let opt ← readByte
  alloc { body := .regexp bs opt .utf8 }

/-- `read_class_ref`, `read_module_ref`, `read_class_or_module_ref` (l.1092-1145). -/
def readClassRef (E : Env) (okMod okCls : Bool) : M Val := do
  let n ← readLen
  let bs ← readBytes n
  match E.kind bs with
  | none => raise
  | some k =>
    if (if k = .module then okMod else okCls) then do
      pushObj (.cls bs)
      pure (.cls bs)
    else raise

/-- `self.objects.get(idx)` (l.357-366). -/
def getObj : M Val := do
  let i ← readLen
  fun r => match r.objs[i]? with
    | some v => .ok (v, r)
    | none => .raise

/-- `read_value_inner` (l.330-423) after the tag. -/
def act (E : Env) (rv : M Val) (tag : Nat) : M Val :=
  match tag with
  | 48 => pure .nil
  | 84 => pure .tru
  | 70 => pure .fls
  | 105 => do
    let n ← readFix
    pure (.fix n)
  | 108 => readBig
  | 102 => readFloat E
  | 58 => do
    let s ← readNewSym E
    pure (.sym s)
  | 59 => do
    let s ← getSym
    pure (.sym s)
  | 34 => readRawStr
  | 73 => readIvarWrapped E rv
  | 91 => readArray rv
  | 123 => readHash rv false
  | 125 => readHash rv true
  | 64 => getObj
  | 111 => readObject E rv
  | 67 => readUserClass E rv
  | 101 => readExtended E rv
  | 47 => readRegexp
  | 83 => readStruct E rv
  | 99 => readClassRef E false true
  | 109 => readClassRef E true false
  | 77 => readClassRef E true true
  -- `u`, `U`, `d` run Ruby code and are not modelled; other tags are rejected
  | _ => raise

/-- `read_value_inner` (l.330-423), one level. -/
def readTag (E : Env) (rv : M Val) : M Val := do
  let tag ← readByte
  act E rv tag.toNat

/-- `read_value` (l.292-311) without proc and `freeze:`.  Every level reads a byte first, so the nesting
is bounded by the length of the data. -/
def readV (E : Env) : Nat → M Val
  | 0 => raise
  | n + 1 => readTag E (readV E n)

/-- `Marshal.load` (l.103-137). -/
def load (E : Env) (data : List UInt8) : Res (Val × List Obj) :=
  match data with
  | 4 :: 8 :: rest =>
    match readV E (rest.length + 1) { inp := rest } with
    | .ok (v, r) => .ok (v, r.heap)
    | .raise => .raise
    | .panic => .panic
  | _ => .raise

end Verif.Marshal
