/-!
# ObjectSpace.define_finalizer

Modelled from `monoruby/src/builtins/kernel.rs`, `monoruby/src/executor/op.rs`
and `monoruby/src/globals.rs`.  Objects are numbered in the order of their
creation; each is at an address.  The garbage collector frees objects, and a new
object may be put at an address that was freed.
-/

namespace Verif.Exit.Fin

/-- `fin` is the table `finalizers` (globals.rs:335-341): addresses with
callables.  It keeps the callables alive but not the objects (globals.rs:419-430).
Callables are numbers; `==` on them is equality. -/
structure World where
  n : Nat
  addr : Nat → Nat
  live : Nat → Bool
  fin : List (Nat × Nat)

def World.init : World := ⟨0, fun _ => 0, fun _ => false, []⟩

inductive Op
  /-- an object is created at address `a` -/
  | alloc (a : Nat)
  /-- an object is freed -/
  | free (o : Nat)
  /-- `ObjectSpace.define_finalizer(o, c)` -/
  | define (o c : Nat)
  /-- `ObjectSpace.undefine_finalizer(o)` -/
  | undefine (o : Nat)
  /-- `o.clone` or `o.dup`, the copy at address `a` -/
  | clone (o a : Nat)
deriving DecidableEq, Repr

/-- No live object is at `a`. -/
def World.vacant (w : World) (a : Nat) : Bool :=
  (List.range w.n).all fun o => !w.live o || w.addr o != a

/-- What can happen: only live objects are used, and new ones are put where no
live one is. -/
def Op.valid (w : World) : Op → Bool
  | .alloc a => w.vacant a
  | .free o => w.live o
  | .define o _ => w.live o
  | .undefine o => w.live o
  | .clone o a => w.live o && w.vacant a

/-- A new object at `a`. -/
def World.new (w : World) (a : Nat) : World :=
  { w with
    n := w.n + 1
    addr := fun o => if o = w.n then a else w.addr o
    live := fun o => if o = w.n then true else w.live o }

/-- Models `register_finalizer` (kernel.rs:5037-5052), `unregister_finalizer`
(kernel.rs:5056-5073; the check for frozen objects is not modelled) and
`copy_finalizers` (kernel.rs:4884-4896). -/
def step (w : World) (op : Op) : World :=
  if op.valid w then
    match op with
    | .alloc a => w.new a
    | .free o => { w with live := fun x => if x = o then false else w.live x }
    | .define o c =>
      if w.fin.any (fun e => e.1 == w.addr o && e.2 == c) then w
      else { w with fin := w.fin ++ [(w.addr o, c)] }
    | .undefine o => { w with fin := w.fin.filter fun e => e.1 != w.addr o }
    | .clone o a =>
      { w.new a with
        fin := w.fin ++ (w.fin.filter fun e => e.1 == w.addr o).map fun e => (a, e.2) }
  else w

def run (w : World) (ops : List Op) : World := ops.foldl step w

/-- Models the end of the program (op.rs:639-646): the calls of finalizers, in
this order, each with the address of its object.  An error in one does not stop
the others (op.rs:652-667).  Finalizers that define finalizers are not
modelled. -/
def atExit : Nat → List (Nat × Nat) → List (Nat × Nat)
  | 0, _ => []
  | fuel + 1, fin =>
    match fin.getLast? with
    | none => []
    | some e => e :: atExit fuel fin.dropLast

end Verif.Exit.Fin
