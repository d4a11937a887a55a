/-!
# The symbol table

A model of `monoruby/src/id_table.rs` and of the ways a program turns a String into a Symbol
and back.
-/

namespace Verif.Symbol

/-- The encodings a String can be tagged with.
Source: monoruby/src/value/rvalue/string.rs:168-218. -/
inductive Enc where
  | ascii8 | utf8 | usAscii
  | utf16le | utf16be | utf32le | utf32be
  | iso8859 (n : UInt8)
  | eucJp
  | sjis (n : UInt8)
  | iso2022Jp
  | other (n : UInt8)
  | namedByte (n : UInt8)
deriving DecidableEq, Repr

/-- `Encoding::is_ascii_compatible`.  Source: monoruby/src/value/rvalue/string.rs:295-305. -/
def Enc.asciiCompatible : Enc → Bool
  | .utf16le | .utf16be | .utf32le | .utf32be | .iso2022Jp | .other _ => false
  | _ => true

/-- `IdentName`: valid UTF-8 text, or raw bytes.  A Rust `String` and a Lean `String` are both
a byte array together with its UTF-8 validity.
Source: monoruby/src/id_table.rs:13-17. -/
inductive Name where
  | utf8 (s : String)
  | bytes (b : ByteArray)
deriving DecidableEq

/-- `IdentName::as_bytes`.  Source: monoruby/src/id_table.rs:28-34. -/
def Name.asBytes : Name → ByteArray
  | .utf8 s => s.toByteArray
  | .bytes b => b

/-- `IdentifierTable`.  The three hash maps are association lists searched from the front, so
an insertion (a cons) shadows what was there.
Simplification: std's `HashMap` is trusted to be a finite map.
Source: monoruby/src/id_table.rs:441-456. -/
structure Table where
  rev : List (String × Nat)
  revBytes : List ((ByteArray × Enc) × Nat)
  table : List Name
  encMap : List (Nat × Enc)

/-- The names `IdentifierTable::new` registers one by one, with the values of the constants it
registers them under.
Source: monoruby/src/id_table.rs:180-264 (constants), 466-546 (registration). -/
def fixedNames : List (String × Nat) :=
  [("initialize", 1), ("Object", 2), ("new", 3), ("name", 4), ("+", 5), ("-", 6), ("*", 7),
   ("/", 8), ("%", 9), ("**", 10), ("<<", 11), (">>", 12), ("|", 13), ("&", 14), ("^", 15),
   ("~", 16), ("-@", 17), ("+@", 18), ("==", 19), ("!=", 20), (">", 21), (">=", 22), ("<", 23),
   ("<=", 24), ("<=>", 25), ("===", 26), ("=~", 27), ("[]", 28), ("[]=", 29), ("...", 30),
   ("to_s", 31), ("to_proc", 32), ("method_missing", 33), ("each", 34), ("map", 35),
   ("/alias_method", 36), ("/enum", 37), ("/name", 38), ("/main", 39), ("float_second", 40),
   ("second", 41), ("float_millisecond", 42), ("millisecond", 43), ("float_microsecond", 44),
   ("microsecond", 45), ("nanosecond", 46), ("Encoding", 47), ("UTF_8", 48), ("ASCII_8BIT", 49),
   ("/encoding", 50), ("to_ary", 51), ("to_a", 52), ("allocate", 53), ("method_added", 54),
   ("hash", 55), ("eql?", 56), ("to_str", 57), ("to_path", 58), ("singleton_method_added", 59),
   ("method_removed", 60), ("method_undefined", 61), ("const_added", 62), ("inherited", 63),
   ("append_features", 64), ("extend_object", 65), ("extended", 66), ("included", 67),
   ("prepended", 68), ("!~", 69), ("!", 70), ("inspect", 71), ("singleton_method_removed", 72),
   ("singleton_method_undefined", 73), ("to_int", 74), ("to_f", 75), ("initialize_copy", 76),
   ("initialize_clone", 77), ("initialize_dup", 78), ("respond_to_missing?", 79)]

/-- `IdentId::SPECIAL_GVARS`.  Source: monoruby/src/id_table.rs:272-310. -/
def specialGvars : List (String × Nat) :=
  [("$?", 80), ("$<", 81), ("$FILENAME", 82), ("$/", 83), ("$-0", 84), ("$\\", 85), ("$,", 86),
   ("$;", 87), ("$.", 88), ("$stdout", 89), ("$stderr", 90), ("$VERBOSE", 91), ("$-v", 92),
   ("$-w", 93), ("$0", 94), ("$PROGRAM_NAME", 95)]

/-- `IdentId::is_special_gvar`.  Source: monoruby/src/id_table.rs:313-316. -/
def isSpecialGvar (id : Nat) : Bool := 80 ≤ id && id ≤ 95

/-- `IdentId::special_gvar_name`; `none` is the index out of bounds.
Source: monoruby/src/id_table.rs:321-324. -/
def specialGvarName (id : Nat) : Option String := (specialGvars[id - 80]?).map (·.1)

namespace Table

/-- `IdentifierTable::set_id`.  Source: monoruby/src/id_table.rs:553-556. -/
def setId (t : Table) (name : String) (id : Nat) : Table :=
  { t with rev := (name, id) :: t.rev, table := t.table.set (id - 1) (.utf8 name) }

/-- `IdentifierTable::new`: a hundred empty names, then the registrations.
Source: monoruby/src/id_table.rs:459-551. -/
def new : Table :=
  let t : Table := ⟨[], [], List.replicate 100 (.utf8 ""), []⟩
  let t := fixedNames.foldl (fun t p => t.setId p.1 p.2) t
  specialGvars.foldl (fun t p => t.setId p.1 p.2) t

/-- The id a new name gets: `IdentId::from(self.table.len() as u32 + 1)`.  `none` is the panic:
the addition overflows `u32` (and 0 is not an id either).
Source: monoruby/src/id_table.rs:125-131, 562, 574, 587. -/
def freshId (t : Table) : Option Nat :=
  let n := t.table.length % 2 ^ 32 + 1
  if n < 2 ^ 32 then some n else none

/-- The lookup done under the read lock by `IdentId::get_id`.
Source: monoruby/src/id_table.rs:352-354. -/
def peek (t : Table) (name : String) : Option Nat := t.rev.lookup name

/-- `IdentifierTable::get_id`, run under the write lock.
Source: monoruby/src/id_table.rs:558-568. -/
def getId (t : Table) (name : String) : Option (Nat × Table) :=
  match t.rev.lookup name with
  | some id => some (id, t)
  | none => do
    let id ← t.freshId
    some (id, { t with rev := (name, id) :: t.rev, table := t.table ++ [.utf8 name] })

/-- `IdentifierTable::get_id_from_string`.  Source: monoruby/src/id_table.rs:570-580. -/
def getIdFromString (t : Table) (name : String) : Option (Nat × Table) :=
  match t.rev.lookup name with
  | some id => some (id, t)
  | none => do
    let id ← t.freshId
    some (id, { t with rev := (name, id) :: t.rev, table := t.table ++ [.utf8 name] })

/-- `IdentifierTable::get_id_from_bytes`.  Source: monoruby/src/id_table.rs:582-595. -/
def getIdFromBytes (t : Table) (b : ByteArray) (e : Enc) : Option (Nat × Table) :=
  match t.revBytes.lookup (b, e) with
  | some id => some (id, t)
  | none => do
    let id ← t.freshId
    some (id, { t with revBytes := ((b, e), id) :: t.revBytes, table := t.table ++ [.bytes b],
                       encMap := (id, e) :: t.encMap })

/-- `IdentifierTable::get_ident_name`; `none` is the index out of bounds.
Source: monoruby/src/id_table.rs:600-602. -/
def name (t : Table) (id : Nat) : Option Name := t.table[id - 1]?

/-- `IdentId::symbol_encoding`.  Source: monoruby/src/id_table.rs:394-396. -/
def encoding (t : Table) (id : Nat) : Option Enc := t.encMap.lookup id

/-- The `Display` of a name, which `add_ivar_prefix` and `add_assign_postfix` format with.
`String::from_utf8_lossy` is the parameter `lossy`.
Source: monoruby/src/id_table.rs:22-27, 66-73. -/
def display (lossy : ByteArray → String) : Name → String
  | .utf8 s => s
  | .bytes b => lossy b

/-- `IdentifierTable::add_ivar_prefix`.  Source: monoruby/src/id_table.rs:609-612. -/
def addIvarPrefix (lossy : ByteArray → String) (t : Table) (id : Nat) : Option (Nat × Table) := do
  let n ← t.name id
  t.getIdFromString ("@" ++ display lossy n)

/-- `IdentifierTable::add_assign_postfix`.  Source: monoruby/src/id_table.rs:619-622. -/
def addAssignPostfix (lossy : ByteArray → String) (t : Table) (id : Nat) :
    Option (Nat × Table) := do
  let n ← t.name id
  t.getIdFromString (display lossy n ++ "=")

/-- `IdentId::all_symbols`.  Source: monoruby/src/id_table.rs:432-437. -/
def allSymbols (t : Table) : List Nat := (List.range (t.table.length % 2 ^ 32)).map (· + 1)

end Table

/-- Lexicographic comparison of bytes (`<[u8] as Ord>::cmp`). -/
def cmpBytes : List UInt8 → List UInt8 → Ordering
  | [], [] => .eq
  | [], _ :: _ => .lt
  | _ :: _, [] => .gt
  | a :: l, b :: m => if a < b then .lt else if b < a then .gt else cmpBytes l m

/-- `IdentId::compare`; `none` is the index out of bounds.
Source: monoruby/src/id_table.rs:401-409. -/
def Table.compare (t : Table) (a b : Nat) : Option Ordering :=
  if a = b then some .eq
  else do
    let l ← t.name a
    let r ← t.name b
    some (cmpBytes l.asBytes.data.toList r.asBytes.data.toList)

/-! ## One lock acquisition at a time -/

/-- What one thread does under one acquisition of the table's lock. -/
inductive Step where
  | peek (name : String)
  | getId (name : String)
  | fromString (name : String)
  | fromBytes (b : ByteArray) (e : Enc)
  | ivarPrefix (id : Nat)
  | assignPostfix (id : Nat)

/-- What a step was asked to intern: a text, or bytes under an encoding. -/
inductive Key where
  | text (s : String)
  | bin (b : ByteArray) (e : Enc)
deriving DecidableEq

/-- One step: what was interned and the Symbol answered (a missed lookup answers nothing), and
the table afterwards.  `none` is a panic. -/
def Table.step (lossy : ByteArray → String) (t : Table) :
    Step → Option (Option (Key × Nat) × Table)
  | .peek s => some ((t.peek s).map (fun i => (.text s, i)), t)
  | .getId s => (t.getId s).map (fun r => (some (.text s, r.1), r.2))
  | .fromString s => (t.getIdFromString s).map (fun r => (some (.text s, r.1), r.2))
  | .fromBytes b e => (t.getIdFromBytes b e).map (fun r => (some (.bin b e, r.1), r.2))
  | .ivarPrefix id => do
    let n ← t.name id
    let r ← t.addIvarPrefix lossy id
    some (some (.text ("@" ++ Table.display lossy n), r.1), r.2)
  | .assignPostfix id => do
    let n ← t.name id
    let r ← t.addAssignPostfix lossy id
    some (some (.text (Table.display lossy n ++ "="), r.1), r.2)

/-- A history of steps: everything answered, oldest first, and the final table. -/
def Table.run (lossy : ByteArray → String) : Table → List Step → Option (List (Key × Nat) × Table)
  | t, [] => some ([], t)
  | t, s :: ss => do
    let (a, t') ← t.step lossy s
    let (as, t'') ← Table.run lossy t' ss
    some (a.toList ++ as, t'')

/-- `IdentId::get_id`: a lookup under the read lock, in table `t₁`; on a miss, an interning
under the write lock, in the table `t₂` other threads have left by then.
Source: monoruby/src/id_table.rs:347-356. -/
def callGetId (t₁ t₂ : Table) (s : String) : Option (Nat × Table) :=
  match t₁.peek s with
  | some id => some (id, t₂)
  | none => t₂.getId s

/-! ## From Strings to Symbols and back -/

/-- A Ruby String: bytes tagged with an encoding. -/
structure RStr where
  bytes : ByteArray
  enc : Enc
deriving DecidableEq

/-- `str::from_utf8`. -/
def fromUtf8 (b : ByteArray) : Option String :=
  if h : b.IsValidUTF8 then some (String.ofByteArray b h) else none

/-- `<[u8]>::is_ascii`. -/
def isAscii (b : ByteArray) : Bool := b.data.toList.all (· < 0x80)

/-- What `String#to_sym` interns.  Source: monoruby/src/builtins/string.rs:5581-5608. -/
def toSymKey (s : RStr) : Key :=
  let canon := if isAscii s.bytes && s.enc.asciiCompatible then Enc.usAscii else s.enc
  if canon = .usAscii ∨ canon = .utf8 then
    match fromUtf8 s.bytes with
    | some u => .text u
    | none => .bin s.bytes .ascii8
  else .bin s.bytes canon

/-- What a symbol literal interns: the name is valid UTF-8 in the parser.
Source: monoruby/src/value.rs:946-952. -/
def literalKey (s : String) (src : Enc) : Key :=
  if isAscii s.toByteArray ∨ src = .utf8 ∨ src = .usAscii then .text s
  else .bin s.toByteArray src

/-- What `Value::try_symbol_or_string` interns for a String argument (`define_method`,
`instance_variable_get`, `const_get` and the other methods that take a name).
Source: monoruby/src/value.rs:2356-2373, 2946-2957. -/
def nameArgKey (s : RStr) : Key :=
  match fromUtf8 s.bytes with
  | some u => .text u
  | none => .bin s.bytes s.enc

/-- What `Marshal.load` interns for a symbol.
Source: monoruby/src/builtins/marshal.rs:1412-1419. -/
def marshalKey (b : ByteArray) (e : Enc) : Key :=
  if e = .utf8 ∨ e = .usAscii then
    match fromUtf8 b with
    | some u => .text u
    | none => .bin b e
  else .bin b e

/-- Intern a key.  Source: as the four functions above call `get_id`, `get_id_from_bytes`. -/
def Table.intern (t : Table) : Key → Option (Nat × Table)
  | .text s => t.getId s
  | .bin b e => t.getIdFromBytes b e

/-- `Symbol#to_s` (and `Symbol#name`); `none` is the index out of bounds.
Source: monoruby/src/builtins/symbol.rs:53-75, 89-110. -/
def Table.toS (t : Table) (id : Nat) : Option RStr := do
  let n ← t.name id
  let dflt := match n with
    | .utf8 s => if isAscii s.toByteArray then Enc.usAscii else .utf8
    | .bytes _ => .ascii8
  some ⟨n.asBytes, (t.encoding id).getD dflt⟩

end Verif.Symbol
