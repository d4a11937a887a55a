/-!
# Model of instance-variable storage

Instance variables are kept per object in slots.  Which slot belongs to which name is decided by a
table held by the object's class.  This file models the slot vector (`MonoVec`), the object's slots,
the class tables, singleton classes, copying, the interpreter's inline caches and the compiled
(JIT) accesses.

Values are an arbitrary type `V`.  Every operation that can panic, or that would read memory that was
never written or lies outside the allocation, returns `none` there.

Not modelled: the write barrier and the garbage collector (area `Gc`), method dispatch, the frozen
classes (`is_always_frozen`), `IO#reopen`'s class change.
-/

namespace Verif.Ivar

/-- A variable name: `IdentId(NonZeroU32)`, /repo/monoruby/src/id_table.rs l.79.  (Zero is not
excluded here; one more possible name only makes the theorems stronger.) -/
abbrev Name := Fin (2 ^ 32)

/-- A memory word of type `Option<Value>`: never written, or holding an optional value (the zero word
is `None`, `Value` being a non-zero integer, value.rs l.28-40). -/
inductive Cell (V : Type) where
  | uninit
  | word (o : Option V)
  deriving Repr, DecidableEq

/-- `MonoVec`/`RawVec`, value/rvalue/ivar_table.rs l.22-26 and l.123-127: an allocation of
`mem.length = cap` words, the first `len` of which are in use. -/
structure MonoVec (V : Type) where
  mem : List (Cell V)
  len : Nat
  deriving Repr, DecidableEq

variable {V : Type}

/-- Doubles `p` until it is not below `n`. -/
def doubleUntil (n : Nat) : Nat → Nat → Nat
  | 0, p => p
  | fuel + 1, p => if n ≤ p then p else doubleUntil n fuel (2 * p)

/-- `usize::next_power_of_two`: the least power of two that is not below `n`. -/
def nextPow2 (n : Nat) : Nat := doubleUntil n n 1

/-- `alloc`, ivar_table.rs l.207-220: panics on capacity 0, else returns uninitialised words. -/
def alloc (cap : Nat) : Option (List (Cell V)) :=
  if cap = 0 then none else some (List.replicate cap .uninit)

namespace MonoVec

/-- `MonoVec::with_capacity` l.42-47 and `RawVec::with_capacity` l.162-171. -/
def withCapacity (cap : Nat) : Option (MonoVec V) :=
  if cap = 0 then some ⟨[], 0⟩
  else match alloc (nextPow2 cap) with
    | none => none
    | some m => some ⟨m, 0⟩

/-- `RawVec::realloc`, l.197-211: keeps the words that fit, the rest is uninitialised; panics on
capacity 0. -/
def realloc (mem : List (Cell V)) (cap : Nat) : Option (List (Cell V)) :=
  if cap = 0 then none
  else some (mem.take cap ++ List.replicate (cap - mem.length) .uninit)

/-- `RawVec::grow`, l.183-193. -/
def grow (mem : List (Cell V)) (minCap : Nat) : Option (List (Cell V)) :=
  if mem.length = 0 then alloc (nextPow2 minCap) else realloc mem (nextPow2 minCap)

/-- `MonoVec::reserve` l.66-68 and `RawVec::reserve` l.176-181. -/
def reserve (v : MonoVec V) (additional : Nat) : Option (MonoVec V) :=
  let newLen := v.len + additional
  if newLen > v.mem.length then
    match grow v.mem newLen with
    | none => none
    | some m => some { v with mem := m }
  else some v

/-- `ptr::write_bytes(ptr.add(at), 0, n)`: writes `n` zero words, undefined outside the allocation. -/
def zeroFill (mem : List (Cell V)) (start n : Nat) : Option (List (Cell V)) :=
  if start + n ≤ mem.length then
    some (mem.take start ++ List.replicate n (.word none) ++ mem.drop (start + n))
  else none

/-- `MonoVec::extend`, l.78-86. -/
def extend (v : MonoVec V) (n : Nat) : Option (MonoVec V) :=
  match reserve v n with
  | none => none
  | some v =>
    match zeroFill v.mem v.len n with
    | none => none
    | some m => some ⟨m, v.len + n⟩

/-- `MonoVec::resize`, l.70-76: only ever grows. -/
def resize (v : MonoVec V) (newLen : Nat) : Option (MonoVec V) :=
  if newLen > v.len then extend v (newLen - v.len) else some v

/-- The derived `Clone` of `MonoVec` and `RawVec::clone`, l.129-137: allocates `cap` words (which
panics for a zero capacity) and copies them all. -/
def clone (v : MonoVec V) : Option (MonoVec V) :=
  if v.mem.length = 0 then none else some v

/-- Reading the word at `i` of the buffer, without a length check (`[rdi + idx*8]`): undefined when
outside the allocation or never written. -/
def rawRead (v : MonoVec V) (i : Nat) : Option (Option V) :=
  match v.mem[i]? with
  | some (.word o) => some o
  | _ => none

/-- Writing the word at `i` of the buffer, without a length check: undefined outside the allocation. -/
def rawWrite (v : MonoVec V) (i : Nat) (o : Option V) : Option (MonoVec V) :=
  if i < v.mem.length then some { v with mem := v.mem.set i (.word o) } else none

/-- `v[i]` through `Deref` l.28-33: panics unless `i < len`. -/
def index (v : MonoVec V) (i : Nat) : Option (Option V) :=
  if i < v.len then v.rawRead i else none

/-- `v[i] = o` through `DerefMut` l.35-39: panics unless `i < len`. -/
def indexSet (v : MonoVec V) (i : Nat) (o : Option V) : Option (MonoVec V) :=
  if i < v.len then v.rawWrite i o else none

end MonoVec

/-- `OBJECT_INLINE_IVAR`, value/rvalue.rs l.70. -/
def inlineSlots : Nat := 6

/-- A heap object, value/rvalue.rs l.560-570: its class, whether its type is `ObjTy::OBJECT` (which
has inline slots), the frozen flag, the inline slots (`ObjKind::object`, an array of six optional
values) and the optional slot vector `var_table`. -/
structure Obj (V : Type) where
  cls : Nat
  isObj : Bool
  frozen : Bool
  inl : List (Option V)
  var : Option (MonoVec V)
  deriving Repr, DecidableEq

namespace Obj

/-- `get_ivar_by_ivarid` on the slot vector, rvalue.rs l.1380-1385. -/
def getVar (o : Obj V) (i : Nat) : Option (Option V) :=
  match o.var with
  | some v => if v.len > i then v.index i else some none
  | none => some none

/-- `RValue::get_ivar_by_ivarid`, rvalue.rs l.1371-1386. -/
def getById (o : Obj V) (i : Nat) : Option (Option V) :=
  if o.isObj then
    if i < inlineSlots then o.inl[i]? else o.getVar (i - inlineSlots)
  else o.getVar i

/-- `set_ivar_by_ivarid` on the slot vector, rvalue.rs l.1420-1433. -/
def setVar (o : Obj V) (i : Nat) (x : V) : Option (Obj V) :=
  match o.var with
  | some v =>
    match (if v.len ≤ i then v.resize (i + 1) else some v) with
    | none => none
    | some v =>
      match v.indexSet i (some x) with
      | none => none
      | some v => some { o with var := some v }
  | none =>
    match MonoVec.withCapacity (i + 1) with
    | none => none
    | some v =>
      match v.resize (i + 1) with
      | none => none
      | some v =>
        match v.indexSet i (some x) with
        | none => none
        | some v => some { o with var := some v }

/-- `RValue::set_ivar_by_ivarid`, rvalue.rs l.1409-1435 (write barrier left out). -/
def setById (o : Obj V) (i : Nat) (x : V) : Option (Obj V) :=
  if o.isObj then
    if i < inlineSlots then
      if i < o.inl.length then some { o with inl := o.inl.set i (some x) } else none
    else o.setVar (i - inlineSlots) x
  else o.setVar i x

/-- `remove_ivar_by_ivarid` on the slot vector, rvalue.rs l.1399-1406. -/
def removeVar (o : Obj V) (i : Nat) : Option (Obj V × Option V) :=
  match o.var with
  | some v =>
    if v.len > i then
      match v.index i, v.indexSet i none with
      | some x, some v' => some ({ o with var := some v' }, x)
      | _, _ => none
    else some (o, none)
  | none => some (o, none)

/-- `RValue::remove_ivar_by_ivarid`, rvalue.rs l.1388-1407. -/
def removeById (o : Obj V) (i : Nat) : Option (Obj V × Option V) :=
  if o.isObj then
    if i < inlineSlots then
      match o.inl[i]? with
      | none => none
      | some x => some ({ o with inl := o.inl.set i none }, x)
    else o.removeVar (i - inlineSlots)
  else o.removeVar i

/-- `RValue::extend_ivar`, rvalue.rs l.1437-1448. -/
def extendIvar (o : Obj V) (heapLen : Nat) : Option (Obj V) :=
  match o.var with
  | some v =>
    match v.resize heapLen with
    | none => none
    | some v => some { o with var := some v }
  | none =>
    match MonoVec.withCapacity heapLen with
    | none => none
    | some v =>
      match v.resize heapLen with
      | none => none
      | some v => some { o with var := some v }

/-- `Option<Box<MonoVec>>::clone`. -/
def cloneVar (v : Option (MonoVec V)) : Option (Option (MonoVec V)) :=
  match v with
  | none => some none
  | some v =>
    match v.clone with
    | none => none
    | some v => some (some v)

/-- `RValue::dup`, rvalue.rs l.1536-1560, and `RValue::clone_value`: the class word is copied
verbatim; `dup` clears the frozen flag. -/
def copy (o : Obj V) : Option (Obj V) :=
  match cloneVar o.var with
  | none => none
  | some v => some { o with var := v, frozen := false }

/-- The slot of a heap-stored variable, compile_shared.rs l.868-872 and x86_64
compile/variables.rs l.18-23 (`ivar - OBJECT_INLINE_IVAR` for `ObjTy::OBJECT`). -/
def heapIdx (isObj : Bool) (id : Nat) : Nat := if isObj then id - inlineSlots else id

/-- Is the variable stored inline?  jitgen/compile/variables.rs l.24 and l.60. -/
def isInline (isObj : Bool) (id : Nat) : Bool := isObj && decide (id < inlineSlots)

/-- `emit_preparation`, x86_64/compile/mod.rs l.2155-2184: the compiled method's prologue. -/
def prologue (o : Obj V) (heapLen : Option Nat) : Option (Obj V) :=
  match heapLen with
  | none => some o
  | some n =>
    match o.var with
    | none => o.extendIvar n
    | some v => if v.mem.length = 0 ∨ v.len < n then o.extendIvar n else some o

/-- `LoadIVarInline`, and `LoadIVarHeap` with `self_ = true`, x86_64/compile/variables.rs l.17-41: no
length check. -/
def jitLoadSelf (o : Obj V) (id : Nat) : Option (Option V) :=
  if isInline o.isObj id then o.inl[id]?
  else match o.var with
    | none => none
    | some v => v.rawRead (heapIdx o.isObj id)

/-- `check_len`, x86_64/compile/variables.rs l.159-172. -/
def checkLen (o : Obj V) (idx : Nat) : Bool :=
  match o.var with
  | none => false
  | some v => v.mem.length ≠ 0 && decide (idx < v.len)

/-- `LoadIVarHeap` with `self_ = false`: an attribute reader inlined at a call site. -/
def jitLoadOther (o : Obj V) (id : Nat) : Option (Option V) :=
  if isInline o.isObj id then o.inl[id]?
  else if o.checkLen (heapIdx o.isObj id) then
    match o.var with
    | none => none
    | some v => v.rawRead (heapIdx o.isObj id)
  else some none

/-- `StoreIVarInline`, and `StoreSelfIVarHeap`, compile_shared.rs l.860-902: no length check. -/
def jitStoreSelf (o : Obj V) (id : Nat) (x : V) : Option (Obj V) :=
  if isInline o.isObj id then
    if id < o.inl.length then some { o with inl := o.inl.set id (some x) } else none
  else match o.var with
    | none => none
    | some v =>
      match v.rawWrite (heapIdx o.isObj id) (some x) with
      | none => none
      | some v => some { o with var := some v }

/-- `StoreIVarHeap`, x86_64/compile/variables.rs l.96-150: checked, with `set_ivar` on failure. -/
def jitStoreOther (o : Obj V) (id : Nat) (x : V) : Option (Obj V) :=
  if isInline o.isObj id then
    if id < o.inl.length then some { o with inl := o.inl.set id (some x) } else none
  else if o.checkLen (heapIdx o.isObj id) then o.jitStoreSelf id x
  else o.setById id x

end Obj

/-- A class's name table (`ivar_names`, an insertion-ordered map; globals/store/class.rs l.314). -/
abbrev Table := List (Name × Nat)

/-- `ClassInfo::get_ivarid`, class.rs l.547-549. -/
def Table.lookup (t : Table) (n : Name) : Option Nat := (t.find? (fun p => p.1 = n)).map (·.2)

/-- `Store::get_ivar_id`, globals/store/class/instance_var.rs l.79-90.  The new id is the table's
length `as u32`. -/
def Table.intern (t : Table) (n : Name) : Table × Nat :=
  match t.lookup n with
  | some id => (t, id)
  | none => (t ++ [(n, t.length % 2 ^ 32)], t.length % 2 ^ 32)

/-- A class: its name table, whether its instances are `ObjTy::OBJECT` (`instance_ty`), and for a
singleton class the real class behind it (`get_real_class`). -/
structure Cls where
  table : Table
  isObj : Bool
  real : Option Nat
  deriving Repr, DecidableEq

/-- An access site with its inline cache, `InstanceVarCache` codegen.rs l.1730-1734; the name is
fixed in the bytecode. -/
structure Site where
  name : Name
  cache : Option (Nat × Nat)
  deriving Repr, DecidableEq

/-- A compiled method: the class of `self` it was compiled for, the slot count its prologue ensures,
and the ids the compiler resolved the variables to. -/
structure Code where
  cls : Nat
  heapLen : Option Nat
  ids : Table
  deriving Repr, DecidableEq

/-- The parts of the runtime's state that matter. -/
structure St (V : Type) where
  classes : List Cls
  heap : List (Obj V)
  sites : List Site
  codes : List Code
  deriving Repr, DecidableEq

/-- What an operation reports. -/
inductive Res (V : Type) where
  | unit
  | opt (o : Option V)
  | val (v : V)
  | frozenErr
  | nameErr
  | vals (vs : List V) (frozen : Bool)
  deriving Repr, DecidableEq

namespace St

/-- The table of class `c`. -/
def table (st : St V) (c : Nat) : Table := ((st.classes[c]?).map (·.table)).getD []

/-- Replaces the table of class `c`. -/
def setTable (st : St V) (c : Nat) (t : Table) : St V :=
  { st with classes := st.classes.modify c (fun k => { k with table := t }) }

/-- `default_alloc_func`, class.rs l.374-380, with `new_object_with_ivar_capacity`, rvalue.rs
l.1846-1856; other types start without a slot vector (e.g. `new_struct_obj` l.1860). -/
def allocObj (k : Cls) (c : Nat) : Option (Obj V) :=
  let spill := k.table.length - inlineSlots
  if k.isObj then
    if spill = 0 then some ⟨c, true, false, List.replicate inlineSlots none, none⟩
    else match MonoVec.withCapacity spill with
      | none => none
      | some v => some ⟨c, true, false, List.replicate inlineSlots none, some v⟩
  else some ⟨c, false, false, [], none⟩

/-- `Store::get_ivar` / `RValue::get_ivar`, rvalue.rs l.1330-1334. -/
def getIvar (st : St V) (o : Obj V) (n : Name) : Option (Option V) :=
  match (st.table o.cls).lookup n with
  | none => some none
  | some id => o.getById id

/-- `Store::get_ivars`, instance_var.rs l.34-52; `hidden` tells which names start with `/`. -/
def getIvars (hidden : Name → Bool) (st : St V) (o : Obj V) : Option (List (Name × V)) :=
  ((st.table o.cls).filter (fun p => !hidden p.1)).foldr
    (fun p acc =>
      match acc, o.getById p.2 with
      | some l, some (some v) => some ((p.1, v) :: l)
      | some l, some none => some l
      | _, _ => none) (some [])

/-- `Store::set_ivar`, instance_var.rs l.54-60. -/
def setIvar (st : St V) (k : Nat) (o : Obj V) (n : Name) (x : V) : Option (St V × Res V) :=
  if o.frozen then some (st, .frozenErr)
  else
    let (t, id) := (st.table o.cls).intern n
    let st := st.setTable o.cls t
    match o.setById id x with
    | none => none
    | some o => some ({ st with heap := st.heap.set k o }, .unit)

/-- `Store::remove_ivar`, instance_var.rs l.65-77. -/
def removeIvar (st : St V) (k : Nat) (o : Obj V) (n : Name) : Option (St V × Res V) :=
  if o.frozen then some (st, .frozenErr)
  else match (st.table o.cls).lookup n with
    | none => some (st, .nameErr)
    | some id =>
      match o.removeById id with
      | none => none
      | some (o, some x) => some ({ st with heap := st.heap.set k o }, .val x)
      | some (o, none) => some ({ st with heap := st.heap.set k o }, .nameErr)

/-- `get_instance_var_with_cache`, codegen.rs l.1736-1753 (`nil` is the default value). -/
def loadCached (nil : V) (st : St V) (s : Nat) (site : Site) (o : Obj V) : Option (St V × Res V) :=
  if site.cache.map (·.1) = some o.cls then
    match o.getById ((site.cache.map (·.2)).getD 0) with
    | none => none
    | some x => some (st, .val (x.getD nil))
  else
    let (t, id) := (st.table o.cls).intern site.name
    let st := st.setTable o.cls t
    let st := { st with sites := st.sites.set s { site with cache := some (o.cls, id) } }
    match o.getById id with
    | none => none
    | some x => some (st, .val (x.getD nil))

/-- `set_instance_var_with_cache`, codegen.rs l.1755-1787. -/
def storeCached (st : St V) (s : Nat) (site : Site) (k : Nat) (o : Obj V) (x : V) :
    Option (St V × Res V) :=
  if o.frozen then some (st, .frozenErr)
  else if site.cache.map (·.1) = some o.cls then
    match o.setById ((site.cache.map (·.2)).getD 0) x with
    | none => none
    | some o => some ({ st with heap := st.heap.set k o }, .unit)
  else
    let (t, id) := (st.table o.cls).intern site.name
    let st := st.setTable o.cls t
    let st := { st with sites := st.sites.set s { site with cache := some (o.cls, id) } }
    match o.setById id x with
    | none => none
    | some o => some ({ st with heap := st.heap.set k o }, .unit)

/-- `get_singleton`, class.rs l.974-1008, on a plain object: a class that is already a singleton is
kept; else `new_singleton_class` l.817-827 copies the class info (`ClassInfo::copy` l.469: the name
table and the instance type are copied) and the object's class word is changed. -/
def singleton (st : St V) (k : Nat) (o : Obj V) : St V :=
  match st.classes[o.cls]? with
  | none => st
  | some c =>
    match c.real with
    | some _ => st
    | none =>
      { st with
        classes := st.classes ++ [⟨c.table, c.isObj, some o.cls⟩],
        heap := st.heap.set k { o with cls := st.classes.length } }

/-- `real_class`, rvalue.rs l.1326 / `get_real_class`. -/
def realClass (st : St V) (o : Obj V) : Nat :=
  match st.classes[o.cls]? with
  | some c => c.real.getD o.cls
  | none => o.cls

/-- `Kernel#dup`, builtins/kernel.rs l.4837-4862 (copy hooks and finalizers left out). -/
def dup (st : St V) (o : Obj V) : Option (St V) :=
  match o.copy with
  | none => none
  | some c => some { st with heap := st.heap ++ [{ c with cls := st.realClass o }] }

/-- `clone_singleton_class`, class.rs l.1907-1920, on the raw copy `c` of `o`: if the receiver has a
singleton class, the copy is attached to the real class first and gets a fresh singleton class then. -/
def cloneAttach (st : St V) (o c : Obj V) : St V :=
  match st.classes[o.cls]? with
  | some ⟨_, _, some real⟩ =>
    ({ st with heap := st.heap ++ [{ c with cls := real }] } : St V).singleton st.heap.length
      { c with cls := real }
  | _ => { st with heap := st.heap ++ [c] }

/-- `Kernel#clone`, builtins/kernel.rs l.4906-4946 and l.4969-4973 (without `freeze:`). -/
def clone (st : St V) (o : Obj V) : Option (St V) :=
  match o.copy with
  | none => none
  | some c =>
    let st' := st.cloneAttach o c
    some { st' with
      heap := st'.heap.modify st.heap.length (fun c => { c with frozen := o.frozen }) }

/-- The compiler's resolution of the accessed names, jitgen/compile.rs l.467-503: every name must be
in the class's table, else the method is left to the interpreter (`IvarIdNotFound`).  The prologue's
slot count is resolved in compile_shared.rs l.663-674. -/
def compile (st : St V) (c : Nat) (k : Cls) (names : List Name) : St V :=
  let ids : Table := names.filterMap (fun n => (k.table.lookup n).map (fun i => (n, i)))
  if names.all (fun n => (k.table.lookup n).isSome) then
    let heapAccessed := ids.any (fun p => !Obj.isInline k.isObj p.2)
    let heapLen :=
      if heapAccessed then
        some (if k.isObj then k.table.length - inlineSlots else k.table.length)
      else none
    { st with codes := st.codes ++ [⟨c, heapLen, ids⟩] }
  else st

end St

/-- One access of a compiled body: the name, and the value for a store. -/
abbrev Access (V : Type) := Name × Option V

/-- A compiled body's accesses to one object, after the class guard.  `self_` says whether the object
is `self` (unchecked accesses) or another receiver (checked accesses).  A store to a frozen object
leaves the compiled code for the interpreter (`guard_frozen`), which raises.  An access the body does
not contain is left out. -/
def runCode (nil : V) (self_ : Bool) (ids : Table) (o : Obj V) :
    List (Access V) → Option (Obj V × List V × Bool)
  | [] => some (o, [], false)
  | (n, none) :: rest =>
    match ids.lookup n with
    | none => runCode nil self_ ids o rest
    | some id =>
      match (if self_ then o.jitLoadSelf id else o.jitLoadOther id) with
      | none => none
      | some x =>
        match runCode nil self_ ids o rest with
        | none => none
        | some (o, vs, e) => some (o, x.getD nil :: vs, e)
  | (n, some v) :: rest =>
    match ids.lookup n with
    | none => runCode nil self_ ids o rest
    | some id =>
      if o.frozen then some (o, [], true)
      else
        match (if self_ then o.jitStoreSelf id v else o.jitStoreOther id v) with
        | none => none
        | some o => runCode nil self_ ids o rest

/-- The operations on the store. -/
inductive Op (V : Type) where
  /-- define a class; does it create plain objects? -/
  | newClass (isObj : Bool)
  /-- an access site for a name -/
  | newSite (n : Name)
  /-- `Class#allocate` -/
  | new (c : Nat)
  /-- `instance_variable_get` -/
  | get (o : Nat) (n : Name)
  /-- `instance_variable_set` -/
  | set (o : Nat) (n : Name) (v : V)
  /-- `remove_instance_variable` -/
  | remove (o : Nat) (n : Name)
  /-- `@n` in interpreted code -/
  | load (s : Nat) (o : Nat)
  /-- `@n = v` in interpreted code -/
  | store (s : Nat) (o : Nat) (v : V)
  /-- `singleton_class`, `def o.m`, `extend` -/
  | singleton (o : Nat)
  | freeze (o : Nat)
  | dup (o : Nat)
  | clone (o : Nat)
  /-- compile a method that accesses the names -/
  | compile (c : Nat) (names : List Name)
  /-- run a compiled body on an object, as `self` or not -/
  | jit (self_ : Bool) (code : Nat) (o : Nat) (as : List (Access V))
  deriving Repr, DecidableEq

/-- One operation.  References to things that do not exist are ignored. -/
def step (nil : V) (st : St V) : Op V → Option (St V × Res V)
  | .newClass b => some ({ st with classes := st.classes ++ [⟨[], b, none⟩] }, .unit)
  | .newSite n => some ({ st with sites := st.sites ++ [⟨n, none⟩] }, .unit)
  | .new c =>
    match st.classes[c]? with
    | none => some (st, .unit)
    | some k =>
      match St.allocObj k c with
      | none => none
      | some o => some ({ st with heap := st.heap ++ [o] }, .unit)
  | .get o n =>
    match st.heap[o]? with
    | none => some (st, .unit)
    | some obj =>
      match st.getIvar obj n with
      | none => none
      | some x => some (st, .opt x)
  | .set o n v =>
    match st.heap[o]? with
    | none => some (st, .unit)
    | some obj => st.setIvar o obj n v
  | .remove o n =>
    match st.heap[o]? with
    | none => some (st, .unit)
    | some obj => st.removeIvar o obj n
  | .load s o =>
    match st.sites[s]?, st.heap[o]? with
    | some site, some obj => st.loadCached nil s site obj
    | _, _ => some (st, .unit)
  | .store s o v =>
    match st.sites[s]?, st.heap[o]? with
    | some site, some obj => st.storeCached s site o obj v
    | _, _ => some (st, .unit)
  | .singleton o =>
    match st.heap[o]? with
    | none => some (st, .unit)
    | some obj => some (st.singleton o obj, .unit)
  | .freeze o =>
    match st.heap[o]? with
    | none => some (st, .unit)
    | some obj => some ({ st with heap := st.heap.set o { obj with frozen := true } }, .unit)
  | .dup o =>
    match st.heap[o]? with
    | none => some (st, .unit)
    | some obj => (st.dup obj).map (fun st => (st, .unit))
  | .clone o =>
    match st.heap[o]? with
    | none => some (st, .unit)
    | some obj => (st.clone obj).map (fun st => (st, .unit))
  | .compile c names =>
    match st.classes[c]? with
    | none => some (st, .unit)
    | some k => some (st.compile c k names, .unit)
  | .jit self_ j o as =>
    match st.codes[j]?, st.heap[o]? with
    | some code, some obj =>
      if code.cls = obj.cls then
        match (if self_ then obj.prologue code.heapLen else some obj) with
        | none => none
        | some obj =>
          match runCode nil self_ code.ids obj as with
          | none => none
          | some (obj, vs, e) => some ({ st with heap := st.heap.set o obj }, .vals vs e)
      else some (st, .unit)
    | _, _ => some (st, .unit)

/-- A history of operations with its reports. -/
def run (nil : V) (st : St V) : List (Op V) → Option (St V × List (Res V))
  | [] => some (st, [])
  | op :: ops =>
    match step nil st op with
    | none => none
    | some (st, r) =>
      match run nil st ops with
      | none => none
      | some (st, rs) => some (st, r :: rs)

/-- Nothing defined yet. -/
def St.init : St V := ⟨[], [], [], []⟩

end Verif.Ivar
