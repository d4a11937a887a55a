import Verif.Bop.Model

/-!
# Operators and their redefinition: compiled code

Compiled code does not test, each time an operator runs, whether the operator
has been redefined: it inlines the builtin and remembers which pairs it relied
on.  Redefining a pair then has to unlink every body that relied on it and to
convert the frames already running such a body.  This file models that
bookkeeping: `globals/store/iseq.rs:320,914-960,1036`, `globals/store.rs:1320`,
`globals/store/class.rs:2480-2540`, `codegen.rs:1409,1595-1760`,
`codegen/compiler.rs:265`, `codegen/jitgen/compile/binary_op.rs:146-180`,
`codegen/patch.rs`.

What is left out: everything in a body other than its inlined operators and its
calls (class-version guards, recompilation, register state); bodies specialised
for a class of `self` (one body per code unit here).
-/

namespace Verif.Bop

/-- A tracked `(class, operator)`. -/
abbrev Pair := Mod × Op

/-- The two backends differ in how compiled code calls compiled code. -/
inductive Arch
  /-- `call` to the callee's patch point, a fixed address
  (`arch/x86_64/compile/method_call.rs:300-340`) -/
  | x86_64
  /-- indirect through a slot that eviction clears (`globals/store/iseq.rs:1036-1070`) -/
  | aarch64
  deriving DecidableEq, Repr

/-- A compiled body: the pairs it inlines without a test (its own and those of
the methods and blocks inlined into it, `jitgen.rs:666,738`). -/
structure Body where
  inl : List Pair
  deriving DecidableEq, Repr

/-- A frame: interpreted, or running a compiled body. -/
inductive Frame
  | vm
  | jit (b : Body)
  deriving DecidableEq, Repr

/-- Code units (methods and blocks), fibers. -/
abbrev Unit' := Nat
abbrev Fib := Nat

/-- The state of the bookkeeping. -/
structure JState where
  /-- pairs redefined so far (`globally_redefined_set`) -/
  redef : List Pair
  /-- what an ordinary call of the unit enters (`entry_label`) -/
  entry : Unit' → Option Body
  /-- what the unit's loops enter (`LoopStart`'s jit entry) -/
  loop : Unit' → Option Body
  /-- where a compiled caller's direct call lands (patch point or slot) -/
  slot : Unit' → Option Body
  /-- `bop_deps` (`globals/store/iseq.rs:320`) -/
  deps : Unit' → List Pair
  /-- `bop_eviction_pending` (`codegen.rs:852`) -/
  pending : Bool
  /-- the fiber that is running -/
  cur : Fib
  /-- frames of every fiber, innermost first -/
  stack : Fib → List Frame

/-- Nothing compiled, nothing running. -/
def jinit : JState := ⟨[], fun _ => none, fun _ => none, fun _ => none, fun _ => [], false, 0, fun _ => []⟩

/-- How a pair is redefined. -/
inductive How
  /-- `def`, `define_method`, `alias`: `check_bop_redefine` follows
  (`executor.rs:2709-2775`) -/
  | byDef
  /-- `remove_method`, `undef_method`, `undef`: nothing follows
  (`builtins/module.rs:2291,2325`, `codegen/runtime.rs:2047`) -/
  | byRemoval
  deriving DecidableEq, Repr

/-- What can happen. -/
inductive JAct
  /-- a method body is compiled -/
  | compile (u : Unit') (inl : List Pair)
  /-- a loop body is compiled -/
  | compileLoop (u : Unit') (inl : List Pair)
  /-- an ordinary call -/
  | call (u : Unit')
  /-- a call from compiled code straight to compiled code -/
  | callDirect (u : Unit')
  /-- an interpreted frame of `u` enters compiled loop code -/
  | enterLoop (u : Unit')
  | ret
  /-- a guard fails: the innermost frame continues interpreted -/
  | deopt
  | resume (f : Fib)
  | redefine (p : Pair) (how : How)
  /-- a definition that replaces no tracked pair -/
  | defineOther
  deriving Repr

def setAt {α : Type} (f : Nat → α) (k : Nat) (v : α) : Nat → α := fun j => if j = k then v else f j

/-- The frame an entry point gives. -/
def enter : Option Body → Frame
  | some b => .jit b
  | none => .vm

/-- `chain_deopt` (`codegen.rs:1680-1760`): every frame on the chain of the
running fiber continues interpreted; the chain ends at the fiber's first frame
(`executor/frame.rs:89,260`). -/
def chainDeopt (s : JState) : JState :=
  { s with stack := setAt s.stack s.cur ((s.stack s.cur).map fun _ => .vm) }

/-- `check_bop_redefine` (`codegen.rs:1595-1618`). -/
def checkBop (s : JState) : JState :=
  if s.pending = true then chainDeopt { s with pending := false } else s

/-- `evict_jit_code_for_bop` (`globals/store.rs:1320`) and the re-entry of
stale units (`globals/store/class.rs:2505-2540`): units depending on the pair
lose their entries and their dependencies; on aarch64 the slot of direct calls
is cleared too (`drop_jit_code`, `globals/store/iseq.rs:1036-1070`). -/
def evict (arch : Arch) (s : JState) (p : Pair) : JState :=
  { s with
    entry := fun u => if p ∈ s.deps u then none else s.entry u
    loop := fun u => if p ∈ s.deps u then none else s.loop u
    slot := fun u => if p ∈ s.deps u ∧ arch = .aarch64 then none else s.slot u
    deps := fun u => if p ∈ s.deps u then [] else s.deps u }

/-- The pairs the compiler may inline now (`basic_op_assumable`,
`codegen/jitgen/compile/binary_op.rs:146-172`): tracked and not redefined. -/
def assumable (s : JState) (inl : List Pair) : List Pair :=
  inl.filter fun p => p ∈ tracked ∧ p ∉ s.redef

/-- One step. -/
def jact (arch : Arch) (s : JState) : JAct → JState
  | .compile u inl =>
    let b : Body := ⟨assumable s inl⟩
    { s with
      entry := setAt s.entry u (some b)
      slot := setAt s.slot u (some b)
      deps := setAt s.deps u (b.inl ++ s.deps u) }
  | .compileLoop u inl =>
    let b : Body := ⟨assumable s inl⟩
    { s with
      loop := setAt s.loop u (some b)
      deps := setAt s.deps u (b.inl ++ s.deps u) }
  | .call u => { s with stack := setAt s.stack s.cur (enter (s.entry u) :: s.stack s.cur) }
  | .callDirect u =>
    let e := enter ((s.slot u).or (s.entry u))
    { s with stack := setAt s.stack s.cur (e :: s.stack s.cur) }
  | .enterLoop u =>
    match s.stack s.cur with
    | .vm :: rest => { s with stack := setAt s.stack s.cur (enter (s.loop u) :: rest) }
    | _ => s
  | .ret => { s with stack := setAt s.stack s.cur (s.stack s.cur).tail }
  | .deopt =>
    match s.stack s.cur with
    | _ :: rest => { s with stack := setAt s.stack s.cur (.vm :: rest) }
    | [] => s
  | .resume f => { s with cur := f }
  | .redefine p how =>
    if p ∈ tracked then
      let s := { evict arch s p with redef := p :: s.redef, pending := true }
      match how with
      | .byDef => checkBop s
      | .byRemoval => s
    else s
  | .defineOther => checkBop s

def jrun (arch : Arch) (s : JState) : List JAct → JState
  | [] => s
  | a :: rest => jrun arch (jact arch s a) rest

/-- The operators the innermost frame computes natively although the program
has redefined them. -/
def stale (s : JState) : List Pair :=
  match s.stack s.cur with
  | .jit b :: _ => b.inl.filter fun p => p ∈ s.redef
  | _ => []

end Verif.Bop
