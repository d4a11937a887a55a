/-!
# Operators and their redefinition: the interpreter

Operator syntax on the core classes (`1 + 2`, `:a == :b`, `!x`, `a[0]`, …) does
not go through a method lookup: the interpreter answers it natively as long as
nobody has redefined the operator.  This file models

* the table of tracked `(class, operator)` pairs and what marks one of them as
  redefined (`globals/store/basic_op.rs`, `globals/store/class.rs`);
* the ways a program can change what an operator means: `def` and friends,
  `undef_method`, `remove_method`, `private`, `include`, `prepend`, new
  subclasses and singleton classes;
* how the interpreter answers an operator (`codegen/arch/x86_64/vmgen.rs`,
  `executor/op.rs`, `executor/op/binary_ops.rs`, `codegen/runtime.rs`).

An answer is *which implementation ran*; the values computed by the builtin
implementations are modelled elsewhere (`Verif.IntArith`, `Verif.FixOps`).
-/

namespace Verif.Bop

/-- The operators with a lookup-free answer
(`globals/store/basic_op.rs:31-110`). -/
inductive Op
  | add | sub | mul | div | rem | pow | shl | shr | band | bor | bxor
  | lt | le | gt | ge | eq | ne | teq
  | neg | pos | bitnot | not | index | indexAssign
  deriving DecidableEq, Repr

/-- Classes and modules. -/
abbrev Mod := Nat

def BASIC_OBJECT : Mod := 0
def KERNEL : Mod := 1
def OBJECT : Mod := 2
def COMPARABLE : Mod := 3
def NUMERIC : Mod := 4
def INTEGER : Mod := 5
def FLOAT : Mod := 6
def COMPLEX : Mod := 7
def STRING : Mod := 8
def SYMBOL : Mod := 9
def NIL : Mod := 10
def TRUE : Mod := 11
def FALSE : Mod := 12
def ARRAY : Mod := 13
def HASH : Mod := 14
def ENUMERABLE : Mod := 15
def METHOD : Mod := 16

/-- `BASIC_OP_DEFS` (`globals/store/basic_op.rs:31-110`): every pair whose
redefinition is tracked. -/
def tracked : List (Mod × Op) :=
  [ (INTEGER, .add), (INTEGER, .sub), (INTEGER, .mul), (INTEGER, .div), (INTEGER, .rem),
    (INTEGER, .pow), (INTEGER, .shl), (INTEGER, .shr), (INTEGER, .band), (INTEGER, .bor),
    (INTEGER, .bxor),
    (FLOAT, .add), (FLOAT, .sub), (FLOAT, .mul), (FLOAT, .div), (FLOAT, .rem), (FLOAT, .pow),
    (COMPLEX, .add), (COMPLEX, .sub), (COMPLEX, .mul), (COMPLEX, .rem),
    (INTEGER, .lt), (INTEGER, .le), (INTEGER, .gt), (INTEGER, .ge),
    (FLOAT, .lt), (FLOAT, .le), (FLOAT, .gt), (FLOAT, .ge),
    (INTEGER, .eq), (INTEGER, .ne), (INTEGER, .teq),
    (FLOAT, .eq), (FLOAT, .ne), (FLOAT, .teq),
    (STRING, .eq), (STRING, .ne),
    (SYMBOL, .eq), (SYMBOL, .teq),
    (NIL, .eq), (NIL, .teq), (TRUE, .eq), (TRUE, .teq), (FALSE, .eq), (FALSE, .teq),
    (INTEGER, .neg), (INTEGER, .pos), (INTEGER, .bitnot),
    (FLOAT, .neg), (FLOAT, .pos), (COMPLEX, .neg),
    (INTEGER, .not), (FLOAT, .not), (STRING, .not), (SYMBOL, .not), (COMPLEX, .not),
    (NIL, .not), (TRUE, .not), (FALSE, .not),
    (ARRAY, .index), (HASH, .index), (ARRAY, .indexAssign) ]

/-- What a method table entry leads to: the builtin installed at start-up in
`owner`, or a method written by the program (`def`, `define_method`, `alias`;
the number tells them apart). -/
inductive Impl
  | builtin (owner : Mod) (o : Op)
  | user (n : Nat)
  deriving DecidableEq, Repr

/-- A method table entry (`globals/store/class.rs`, `MethodTableEntry`): no
implementation after `undef_method` (`add_empty_method`, l.2166-2186). -/
structure Entry where
  impl : Option Impl
  priv : Bool
  deriving DecidableEq, Repr

/-- The part of the interpreter's state that decides what an operator does. -/
structure World where
  /-- the method table of each class or module -/
  tbl : Mod → Op → Option Entry
  /-- the method resolution order of each class (with `prepend`ed modules
  before the class itself) -/
  anc : Mod → List Mod
  /-- `BasicOpTable::redefined_set` (the gate `redefined` is "not empty") -/
  redef : List (Mod × Op)
  /-- `Codegen::bop_flags`, the bits tested by the assembly fast paths -/
  flags : List Op

/-- The first entry for `o` along a chain of modules
(`search_method`: `globals/store/class.rs`). -/
def search (tbl : Mod → Op → Option Entry) (o : Op) : List Mod → Option Entry
  | [] => none
  | m :: rest => match tbl m o with
    | some e => some e
    | none => search tbl o rest

/-- `search_method_by_class_id`. -/
def lookup (w : World) (c : Mod) (o : Op) : Option Entry := search w.tbl o (w.anc c)

/-! ## Start-up -/

/-- The operators each core class defines itself (`builtins/numeric/integer.rs:28-117`,
`float.rs:40-114`, `complex.rs:12-57`, `numeric.rs:45`, `string.rs:20-41`,
`symbol.rs:12-14`, `object.rs:26-33`, `array.rs`, `hash.rs`,
`builtins/comparable.rb`, `method.rs:15`).  NilClass, TrueClass and FalseClass
define none of them. -/
def ownOps (m : Mod) : List Op :=
  if m = BASIC_OBJECT then [.eq, .ne, .not]
  else if m = OBJECT then [.teq]
  else if m = COMPARABLE then [.eq, .ne, .lt, .le, .gt, .ge]
  else if m = NUMERIC then [.pos]
  else if m = INTEGER then
    [.add, .sub, .mul, .div, .rem, .pow, .shl, .shr, .band, .bor, .bxor,
      .lt, .le, .gt, .ge, .eq, .ne, .teq, .neg, .bitnot, .index]
  else if m = FLOAT then
    [.add, .sub, .mul, .div, .rem, .pow, .lt, .le, .gt, .ge, .eq, .ne, .teq, .neg]
  else if m = COMPLEX then [.add, .sub, .mul, .div, .rem, .pow, .eq, .ne, .neg]
  else if m = STRING then [.eq, .ne, .teq, .add, .mul, .rem, .shl, .index, .indexAssign, .pos, .neg]
  else if m = SYMBOL then [.eq, .ne, .teq, .index]
  else if m = ARRAY then [.eq, .teq, .index, .indexAssign, .add, .sub, .mul, .shl, .band, .bor]
  else if m = HASH then [.eq, .teq, .index, .indexAssign, .lt, .le, .gt, .ge]
  else if m = METHOD then [.eq, .index, .teq, .shl, .shr]
  else []

/-- Method tables when user code starts. -/
def bootTbl (m : Mod) (o : Op) : Option Entry :=
  if o ∈ ownOps m then some ⟨some (.builtin m o), false⟩ else none

/-- Ancestors when user code starts; a module id not listed has only itself. -/
def bootAnc (c : Mod) : List Mod :=
  if c = BASIC_OBJECT then [BASIC_OBJECT]
  else if c = OBJECT then [OBJECT, KERNEL, BASIC_OBJECT]
  else if c = NUMERIC then [NUMERIC, COMPARABLE, OBJECT, KERNEL, BASIC_OBJECT]
  else if c = INTEGER ∨ c = FLOAT ∨ c = COMPLEX then
    [c, NUMERIC, COMPARABLE, OBJECT, KERNEL, BASIC_OBJECT]
  else if c = STRING ∨ c = SYMBOL then [c, COMPARABLE, OBJECT, KERNEL, BASIC_OBJECT]
  else if c = NIL ∨ c = TRUE ∨ c = FALSE ∨ c = METHOD then [c, OBJECT, KERNEL, BASIC_OBJECT]
  else if c = ARRAY ∨ c = HASH then [c, ENUMERABLE, OBJECT, KERNEL, BASIC_OBJECT]
  else [c]

/-- The world handed to the program (`BasicOpTable::arm`, `executor.rs:617`). -/
def boot : World := ⟨bootTbl, bootAnc, [], []⟩

/-! ## Changing what an operator means -/

/-- The operators with an assembly fast path (`VmBop`, `codegen.rs:1549-1588`). -/
def vmOp : Op → Bool
  | .add | .sub | .eq | .ne | .lt | .le | .gt | .ge | .teq | .pos | .neg => true
  | _ => false

/-- `set_bop_redefine` behind its test `basic_ops.contains`
(`globals/store/class.rs:2436-2445`, `2469-2495`, `codegen.rs:1409`): only a
tracked pair is marked, and only one of Integer sets an assembly bit. -/
def mark (w : World) (c : Mod) (o : Op) : World :=
  if (c, o) ∈ tracked then
    { w with
      redef := (c, o) :: w.redef
      flags := if c = INTEGER ∧ vmOp o = true then o :: w.flags else w.flags }
  else w

/-- Write one method table entry. -/
def setEntry (w : World) (m : Mod) (o : Op) (e : Option Entry) : World :=
  { w with tbl := fun m' o' => if m' = m ∧ o' = o then e else w.tbl m' o' }

/-- `insert_method` (`globals/store/class.rs:2429-2446`), refinements apart. -/
def insertMethod (w : World) (m : Mod) (o : Op) (e : Entry) : World :=
  mark (setEntry w m o (some e)) m o

/-- Put `m` right after `c` in a chain. -/
def insertAfter (c m : Mod) : List Mod → List Mod
  | [] => []
  | x :: rest => if x = c then x :: m :: rest else x :: insertAfter c m rest

/-- Put `m` right before `c` in a chain. -/
def insertBefore (c m : Mod) : List Mod → List Mod
  | [] => []
  | x :: rest => if x = c then m :: x :: rest else x :: insertBefore c m rest

/-- What a program can do to the meaning of operators. -/
inductive Act
  /-- `def`, `define_method`, `alias`, `alias_method`, `attr_*` -/
  | define (m : Mod) (o : Op) (n : Nat)
  /-- `undef_method`, `undef` -/
  | undef (m : Mod) (o : Op)
  /-- `remove_method` -/
  | remove (m : Mod) (o : Op)
  /-- `private :op` / `public :op` -/
  | visibility (m : Mod) (o : Op) (priv : Bool)
  /-- `c.include(m)` -/
  | incl (c m : Mod)
  /-- `c.prepend(m)` -/
  | prep (c m : Mod)
  /-- a new subclass of `parent`, or the singleton class of one of its objects -/
  | derive (c parent : Mod)
  deriving Repr

/-- One action (`globals/store/class.rs`: `add_method_inner` l.2124,
`add_empty_method` l.2166, `remove_method` l.2193,
`change_method_visibility_for_class` l.2345; `value/rvalue/module.rs:46-240`).
`include` and `prepend` change the chain of every class having `c` among its
ancestors and touch no redefinition state.  A visibility change of an entry the
class owns only rewrites the flag; otherwise a shadowing entry is inserted
(unless the visibility is already the requested one). -/
def act (w : World) : Act → World
  | .define m o n => insertMethod w m o ⟨some (.user n), false⟩
  | .undef m o => insertMethod w m o ⟨none, false⟩
  | .remove m o => setEntry (mark w m o) m o none
  | .visibility m o p =>
    match w.tbl m o with
    | some e => setEntry w m o (some { e with priv := p })
    | none =>
      match lookup w m o with
      | some e => if e.priv = p then w else insertMethod w m o { e with priv := p }
      | none => w
  | .incl c m =>
    { w with anc := fun k => if m ∈ w.anc k then w.anc k else insertAfter c m (w.anc k) }
  | .prep c m =>
    { w with anc := fun k => if m ∈ w.anc k then w.anc k else insertBefore c m (w.anc k) }
  | .derive c parent =>
    { w with anc := fun k => if k = c then c :: w.anc parent else w.anc k }

/-- A whole program's worth of actions. -/
def acts (w : World) : List Act → World
  | [] => w
  | a :: rest => acts (act w a) rest

/-! ## Answering an operator -/

/-- What `Value::unpack` distinguishes (`value/rvalue.rs:2320`, `value.rs`). -/
inductive Tag
  | fixnum | bignum | float | complex | string | symbol | nil | true_ | false_ | array | hash
  | other
  deriving DecidableEq, Repr

/-- A value: its type tag and its class (a subclass or singleton class for a
heap value). -/
structure Val where
  tag : Tag
  cls : Mod
  deriving DecidableEq, Repr

/-- The core class of a tag. -/
def coreClass : Tag → Mod
  | .fixnum | .bignum => INTEGER
  | .float => FLOAT
  | .complex => COMPLEX
  | .string => STRING
  | .symbol => SYMBOL
  | .nil => NIL
  | .true_ => TRUE
  | .false_ => FALSE
  | .array => ARRAY
  | .hash => HASH
  | .other => OBJECT

/-- Which implementation answered. -/
inductive Run
  | impl (i : Impl)
  /-- the negation of another answer -/
  | negated (r : Run)
  | noMethod
  deriving DecidableEq, Repr

/-- Outcome of a lookup at a call site; `fcall` is "the receiver is written
`self`", which may reach a private method (`executor.rs`, `find_method` l.3000). -/
def resolve (fcall : Bool) : Option Entry → Run
  | none => .noMethod
  | some ⟨none, _⟩ => .noMethod
  | some ⟨some i, p⟩ => if p = true ∧ fcall = false then .noMethod else .impl i

/-- Which receivers the unguarded helper of an operator answers by itself
(`executor/op/binary_ops.rs:184-800`, `executor/op.rs:57-130`, `240-325`,
`489-540`, `866-990`); the others reach its `invoke_method` arm.  `Complex#-@`
is native for the usual real and imaginary parts. -/
def rawNative : Op → Tag → Bool
  | .add, t | .sub, t | .mul, t | .rem, t | .neg, t =>
    t = .fixnum || t = .bignum || t = .float || t = .complex
  | .div, t | .pow, t | .lt, t | .le, t | .gt, t | .ge, t | .pos, t =>
    t = .fixnum || t = .bignum || t = .float
  | .shl, t | .shr, t | .band, t | .bor, t | .bxor, t | .bitnot, t => t = .fixnum || t = .bignum
  | .eq, t =>
    t = .nil || t = .fixnum || t = .bignum || t = .float || t = .true_ || t = .false_
      || t = .symbol || t = .string
  | .teq, t =>
    t = .nil || t = .fixnum || t = .bignum || t = .float || t = .true_ || t = .false_ || t = .symbol
  | .not, t =>
    t = .fixnum || t = .bignum || t = .float || t = .string || t = .symbol || t = .complex
      || t = .true_ || t = .false_ || t = .nil
  | .ne, _ | .index, _ | .indexAssign, _ => false

/-- The native answer: what the core class of the tag did at start-up. -/
def native (t : Tag) (o : Op) : Run := resolve true (lookup boot (coreClass t) o)

/-- The guarded entry of an operator (`bop_entry!` `executor/op/binary_ops.rs:291-308`,
`binop_values!` l.184-207, `int_binop_values!` l.600, `cmp_values!` `executor/op.rs:57`,
`eq_values_vis` l.213, `cmp_teq_values_impl` l.489, `neg_value` l.840 …): if the
pair of the receiver's *exact* class is marked, dispatch; otherwise the helper
decides by the type tag.  `==` dispatches a marked operator without looking at
its visibility (`invoke_method_inner`). -/
def guarded (w : World) (fcall : Bool) (v : Val) (o : Op) : Run :=
  if (v.cls, o) ∈ w.redef then resolve (fcall || o = .eq) (lookup w v.cls o)
  else if rawNative o v.tag = true then native v.tag o
  else resolve fcall (lookup w v.cls o)

/-- The builtins of `!=` that count as "the default": marked `is_basic_op` at
definition (Integer, Float, String) or `BasicObject#!=`
(`custom_neq`, `globals/store.rs:1244-1268`). -/
def defaultNeq : Option Entry → Bool
  | none => true
  | some ⟨some (.builtin m .ne), _⟩ =>
    m = INTEGER || m = FLOAT || m = STRING || m = BASIC_OBJECT
  | some _ => false

/-- What running an implementation amounts to: the builtin `!=` of Symbol and
Complex compares natively (`builtins/symbol.rs:279`, `numeric/complex.rs:108`),
i.e. it is the negation of that class's builtin `==`; the one of Comparable
(`builtins/comparable.rb:18-27`) asks `<=>` and stands for itself. -/
def runImpl : Run → Run
  | .impl (.builtin m .ne) =>
    if m = COMPARABLE then .impl (.builtin COMPARABLE .ne) else .negated (.impl (.builtin m .eq))
  | r => r

/-- `ne_values_vis` (`executor/op.rs:335-357`). -/
def neValues (w : World) (fcall : Bool) (v : Val) : Run :=
  if defaultNeq (lookup w v.cls .ne) = true then .negated (guarded w fcall v .eq)
  else runImpl (resolve fcall (lookup w v.cls .ne))

/-- `get_index` (`codegen/runtime.rs:1622-1762`): by exact class.  A `Method`
is called without any test. -/
def getIndex (w : World) (fcall : Bool) (v : Val) : Run :=
  if (v.cls, Op.index) ∈ w.redef then resolve fcall (lookup w v.cls .index)
  else if v.cls = ARRAY ∨ v.cls = HASH ∨ v.cls = METHOD then
    .impl (.builtin v.cls .index)
  else resolve fcall (lookup w v.cls .index)

/-- `set_index` (`codegen/runtime.rs:1765-1800`): only an Array with a fixnum
index is answered inline. -/
def setIndex (w : World) (fcall : Bool) (v idx : Val) : Run :=
  if v.cls = ARRAY ∧ idx.tag = .fixnum ∧ (v.cls, Op.indexAssign) ∉ w.redef then
    .impl (.builtin ARRAY .indexAssign)
  else resolve fcall (lookup w v.cls .indexAssign)

/-- Operators without a second operand. -/
def unary : Op → Bool
  | .neg | .pos | .bitnot | .not => true
  | _ => false

/-- The assembly fast path (`codegen/arch/x86_64/vmgen.rs`: `vm_cmp_opt!` l.17-45,
`vm_bop_guard` l.449, `vm_neg` l.1376, `vm_pos` l.1405, `vm_binops_opt` l.1440):
fixnum operands, the operator's own bit clear, and (for `+`, `-`, `-@`) no
overflow, which `fits` stands for. -/
def asmHit (w : World) (o : Op) (v r : Val) (fits : Bool) : Bool :=
  vmOp o && v.tag = .fixnum && (unary o || r.tag = .fixnum) && fits && !(w.flags.contains o)

/-- What the assembly computes. -/
def asmRun (o : Op) : Run :=
  match o with
  | .ne => .negated (.impl (.builtin INTEGER .eq))
  | o => native .fixnum o

/-- The interpreter's answer to `v o r`. -/
def evalOp (w : World) (fcall : Bool) (v r : Val) (fits : Bool) (o : Op) : Run :=
  if asmHit w o v r fits = true then asmRun o
  else match o with
    | .ne => neValues w fcall v
    | .index => getIndex w fcall v
    | .indexAssign => setIndex w fcall v r
    | o => guarded w fcall v o

/-! ## What Ruby says -/

/-- `v o r` calls the method the ordinary lookup finds.  The builtin `!=` is the
negation of whatever `==` answers. -/
def rubyOp (w : World) (fcall : Bool) (v : Val) (o : Op) : Run :=
  match resolve fcall (lookup w v.cls o) with
  | .impl (.builtin _ .ne) => .negated (resolve true (lookup w v.cls .eq))
  | r => r

end Verif.Bop
