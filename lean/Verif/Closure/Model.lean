/-!
# Local variables, blocks and closures: frames on the stack and frames moved to the heap

Models, at the pinned commit (paths under `/repo/monoruby/src`),

* `executor/frame.rs` 246-257 (`get_block`), 285-297 (`traverse_cfp`), 306-321
  (`is_frame_on_stack`), 476 (`outer`), 610-616 (`yield_home`), 669-707 (`move_frame_to_heap`),
* `executor.rs` 1578-1629 (`defer_unwind`, `finish_ensure`, `discard_deferred_unwind`), 3390-3475
  (`invoke_block`), 3594-3656 (`invoke_proc_with_block`), 3747-3811 (`resolve_block_target`,
  `get_block_data_at`), 3985-4041 (`generate_proc_inner`, `generate_lambda`), 4053-4080
  (`materialize_escaped_block_handlers`), 4082-4091 (`generate_binding`), 4534-4577
  (`BlockHandler`),
* `value/rvalue.rs` 2300-2308 (`new_binding`), `globals.rs` 1280-1289 (`new_binding_frame`),
* `codegen/runtime.rs` 547-562 (`get_yield_data`), 564-642 (`block_arg`), 2299-2373
  (`err_method_return`), 2376-2391 (`lfp_reachable_within_barrier`), 2445-2448 (`ensure_end`),
  `codegen/runtime/args.rs` 104-123 (`set_frame_block`),
* `codegen/jit_module.rs` 131-170 (`handle_error`, a `return` that leaves a block),
* `codegen/arch/x86_64/vmgen/variables.rs` 303-365 (`vm_load_dvar`, `vm_store_dvar`),
  `codegen/arch/x86_64/vmgen.rs` 1017-1038 (`vm_lambda`), 1194-1249 (`vm_block_arg_proxy`,
  `vm_block_arg`), `codegen/arch/x86_64/jit_module.rs` 443-507 (`set_block_outer`,
  `set_method_outer`, `set_lfp`, `push_frame`, `pop_frame`), 545-585 (`get_proc_data`,
  `resolve_invalidated_outer`), `codegen/arch/x86_64/invoker.rs` 551-590 (`invoker_frame_setup`),
  `codegen/arch/aarch64/invoker.rs` 256-315 (`a64_block_frame_setup`),
* `bytecodegen/method_call/arguments.rs` 273-279, 360-399 (what is passed for `&expr`).

An execution is a list of operations, each done by the running frame.  Not modelled: what the
values are (numbers here), registers other than locals, `self`, `$~`, fibers and threads (a single
control stack), the machine code of the JIT, garbage collection of heap frames.
-/

namespace Verif.Closure

/-- A frame pointer (`Lfp`): a frame in the stack, named by the position of its control frame
counted from the bottom, or a frame in the heap. -/
inductive Ref where
  | stk (i : Nat)
  | heap (h : Nat)
deriving DecidableEq, Repr

/-- What the block slot of a frame holds (`BlockHandler`, `executor.rs` 4534-4577): nothing, an
Integer, or a `Proc` with its code and its outer frame.  A block literal is passed as the Integer
`(code << 16) + number of control frames to walk`. -/
inductive Blk where
  | none
  | word (n : Nat)
  | clo (fid : Nat) (r : Ref)
deriving DecidableEq, Repr

/-- A local frame: local variables, outer frame, block, and the bit `invalidated` of its `Meta`
(set in a stack frame whose contents were moved to the heap).  `env` is not in the code: it is the
number of the call that made the frame, and no operation looks at it except to bound a loop. -/
structure Frame where
  slots : Nat → Nat
  outer : Option Ref
  blk : Blk
  inv : Bool
  env : Nat

/-- A control frame: its `lfp` slot, the stack storage of its local frame, and, for a builtin
method, the `ProcData` it holds in a Rust variable while it iterates. -/
structure Act where
  lfp : Ref
  cell : Frame
  cache : Option (Nat × Ref)

/-- The machine: control stack (bottom first), heap frames, the `Proc` objects and the `Binding`
objects handed to the program, and the number of calls made so far. -/
structure St where
  acts : List Act
  heap : List Frame
  hand : List (Nat × Ref)
  binds : List Ref
  next : Nat

/-- What the program sees of an operation; `code` is the code of the block that is entered. -/
inductive Obs where
  | unit
  | val (v : Nat)
  | code (fid : Nat)
  | nil
  | noBlock
  | typeErr
  | bad
deriving DecidableEq, Repr

/-- The operations of a program. -/
inductive Op where
  /-- read variable `i`, `d` scopes out -/
  | get (d i : Nat)
  /-- assign variable `i`, `d` scopes out -/
  | set (d i v : Nat)
  /-- call a method, with a block literal or without a block -/
  | call (lit : Option Nat)
  /-- call a method passing on the own block: `f(&b)` in the method with the parameter `&b` -/
  | callFwd
  /-- call a method with an Integer as block: `f(&5)` -/
  | callInt (n : Nat)
  /-- call a method with a `Proc` object as block: `f(&pr)` -/
  | callProc (k : Nat)
  /-- `yield` -/
  | yield
  /-- `-> { … }` -/
  | lambda (fid : Nat)
  /-- read the block parameter of the method `d` scopes out -/
  | blockArg (d : Nat)
  /-- builtin methods that keep their block as a `Proc`: `proc`, `define_method`, … -/
  | genProc
  /-- a builtin method looks up its block before iterating -/
  | cache
  /-- a builtin method calls the block it has looked up -/
  | invoke
  /-- `Proc#call` runs the body of a `Proc`, handing it the block it was itself given or none -/
  | procBody (k : Nat) (fwd : Bool)
  /-- `binding` -/
  | binding
  /-- `b.eval(…)` enters its code -/
  | evalIn (b : Nat)
  /-- the running frame ends -/
  | ret
deriving DecidableEq, Repr

/-- The frame a pointer points at, tombstone or not. -/
def St.frame (σ : St) : Ref → Option Frame
  | .stk i => (σ.acts[i]?).map (·.cell)
  | .heap h => σ.heap[h]?

/-- Overwrite the frame a pointer points at. -/
def St.setFrame (σ : St) (r : Ref) (f : Frame) : St :=
  match r with
  | .stk i => { σ with acts := σ.acts.modify i (fun a => { a with cell := f }) }
  | .heap h => { σ with heap := σ.heap.set h f }

/-- The running frame's `lfp` (`r14`, always reloaded from the control frame: `pop_frame`,
`restore_lfp`, `codegen/arch/x86_64/jit_module.rs` 492-507). -/
def St.top (σ : St) : Option Ref := (σ.acts[σ.acts.length - 1]?).map (·.lfp)

/-- `vm_load_dvar` / `vm_store_dvar` (`vmgen/variables.rs` 303-365): follow `d` outer pointers as
they are, without looking at the tombstone bit. -/
def St.walk (σ : St) : Nat → Ref → Option Ref
  | 0, r => some r
  | d + 1, r =>
    match σ.frame r with
    | some f => match f.outer with
      | some o => σ.walk d o
      | none => none
    | none => none

/-- A frame is pushed: `push_frame`, `set_lfp`, and `set_block_outer` or `set_method_outer`
(`codegen/arch/x86_64/jit_module.rs` 443-490).  Its variables start as nil, 0 here. -/
def St.push (σ : St) (outer : Option Ref) (blk : Blk) : St :=
  { σ with
    acts := σ.acts ++ [{ lfp := .stk σ.acts.length,
                         cell := { slots := fun _ => 0, outer, blk, inv := false, env := σ.next },
                         cache := none }]
    next := σ.next + 1 }

/-- First half of `move_frame_to_heap` (`executor/frame.rs` 679-700): copy the frame, redirect the
control frame's `lfp`, leave a tombstone in the stack. -/
def St.promote (σ : St) (i : Nat) (c : Frame) : St :=
  { σ with
    heap := σ.heap ++ [c]
    acts := σ.acts.modify i
      (fun a => { a with lfp := .heap σ.heap.length, cell := { c with inv := true } }) }

/-- `heap_lfp.set_outer(Some(outer))` (`executor/frame.rs` 703). -/
def St.setOuter (σ : St) (h : Nat) (o : Ref) : St :=
  { σ with heap := σ.heap.modify h (fun f => { f with outer := some o }) }

/-- `f.set_block(…)` (`executor.rs` 4073). -/
def St.setBlk (σ : St) (h : Nat) (b : Blk) : St :=
  { σ with heap := σ.heap.modify h (fun f => { f with blk := b }) }

/-- `move_frame_to_heap` (`executor/frame.rs` 669-707).  The first argument bounds the recursion;
the number of control frames is enough. -/
def St.move : Nat → St → Ref → St × Ref
  | _, σ, .heap h => (σ, .heap h)
  | 0, σ, r => (σ, r)
  | n + 1, σ, .stk i =>
    match σ.acts[i]? with
    | none => (σ, .stk i)
    | some a =>
      match a.cell.inv with
      | true => (σ, a.lfp)
      | false =>
        match a.cell.outer with
        | none => (σ.promote i a.cell, .heap σ.heap.length)
        | some o =>
          let m := St.move n (σ.promote i a.cell) o
          (m.1.setOuter σ.heap.length m.2, .heap σ.heap.length)

/-- The control frame whose `lfp` is `r`, searched from the top: the loops of
`materialize_escaped_block_handlers` (`executor.rs` 4068-4078), `block_arg` (`runtime.rs` 622-632)
and `traverse_cfp` (`frame.rs` 288-296). -/
def findOwner (acts : List Act) (r : Ref) : Nat → Option Nat
  | 0 => none
  | k + 1 =>
    match acts[k]? with
    | some a => if a.lfp = r then some k else findOwner acts r k
    | none => findOwner acts r k

/-- `try_proxy` and the walk of `resolve_block_target` (`executor.rs` 3754-3760, 4546-4553), started
from control frame `c`: the code, and the frame it belongs to. -/
def St.proxy (σ : St) (c n : Nat) : Option (Nat × Ref) :=
  if n % 65536 ≤ c then
    (σ.acts[c - n % 65536]?).map (fun a => (n / 65536, a.lfp))
  else none

mutual
/-- `materialize_escaped_block_handlers` (`executor.rs` 4053-4080), started at heap frame `h`. -/
def St.mat : Nat → St → Nat → St
  | 0, σ, _ => σ
  | n + 1, σ, h =>
    match σ.heap[h]? with
    | none => σ
    | some f =>
      let σ1 := match f.blk with
        | .word w =>
          match findOwner σ.acts (.heap h) σ.acts.length with
          | some c =>
            match St.genProc n σ c w with
            | (σ', some (fid, r)) => σ'.setBlk h (.clo fid r)
            | (σ', none) => σ'
          | none => σ
        | _ => σ
      match f.outer with
      | some (.heap h') => St.mat n σ1 h'
      | _ => σ1

/-- `generate_proc_inner` on an Integer handler (`executor.rs` 3985-4006): resolve it from control
frame `c`, move its frame to the heap, materialize what escapes with it. -/
def St.genProc : Nat → St → Nat → Nat → St × Option (Nat × Ref)
  | 0, σ, _, _ => (σ, none)
  | n + 1, σ, c, w =>
    match σ.proxy c w with
    | none => (σ, none)
    | some (fid, r) =>
      let m := σ.move σ.acts.length r
      match m.2 with
      | .heap h => (St.mat n m.1 h, some (fid, .heap h))
      | .stk _ => (m.1, none)
end

/-- Enough recursion for `mat` and `genProc`: two levels per call made so far. -/
def St.fuel (σ : St) : Nat := 2 * σ.next + 3

/-- `yield_home` (`executor/frame.rs` 610-616): follow the outer pointers to the end. -/
def St.home (σ : St) : Nat → Ref → Option Ref
  | 0, _ => none
  | n + 1, r =>
    match σ.frame r with
    | some f => match f.outer with
      | some o => σ.home n o
      | none => some r
    | none => none

/-- `resolve_invalidated_outer` (`codegen/arch/x86_64/jit_module.rs` 567-585). -/
def St.forward (σ : St) (r : Ref) : Ref :=
  match r with
  | .stk i =>
    match σ.acts[i]? with
    | some a => if a.cell.inv then a.lfp else r
    | none => r
  | .heap h => .heap h

/-- The block given to the running frame itself (`lfp.block()` in a builtin method). -/
def St.ownBlk (σ : St) : Option Blk :=
  match σ.top with
  | some r => (σ.frame r).map (·.blk)
  | none => none

/-- The block `yield` calls: `get_yield_data` (`runtime.rs` 547-562), that is `get_block`
(`frame.rs` 246-257: the block slot of `yield_home`; an Integer is increased by the number of
control frames between the running one and that frame's) and `resolve_block_target`. -/
def St.yieldTarget (σ : St) (r : Ref) : Option (Nat × Ref) :=
  match σ.home (σ.next + 1) r with
  | none => none
  | some hr =>
    match σ.frame hr with
    | none => none
    | some f =>
      match f.blk with
      | .none => none
      | .clo fid o => some (fid, o)
      | .word w =>
        match findOwner σ.acts hr σ.acts.length with
        | some k => σ.proxy (σ.acts.length - 1) (w + (σ.acts.length - 1 - k))
        | none => none

/-- Add a `Proc` to those the program holds. -/
def St.give (σ : St) (p : Nat × Ref) : St := { σ with hand := σ.hand ++ [p] }

/-- `delegate` (`executor.rs` 4563-4568, `vm_block_arg_proxy`): a handler passed one frame up. -/
def Blk.delegate : Blk → Blk
  | .word n => .word (n + 1)
  | b => b

/-- Set the `ProcData` of the running builtin method. -/
def St.setCache (σ : St) (c : Nat × Ref) : St :=
  { σ with acts := σ.acts.modify (σ.acts.length - 1) (fun a => { a with cache := some c }) }

/-- Assignment through a frame pointer. -/
def St.write (σ : St) (r : Ref) (i v : Nat) : St :=
  match σ.frame r with
  | some f => σ.setFrame r { f with slots := fun j => if j = i then v else f.slots j }
  | none => σ

/-- `block_arg` (`runtime.rs` 564-642) for the frame `r` that owns the parameter. -/
def St.blockArgAt (σ : St) (r : Ref) : St × Obs :=
  match σ.frame r with
  | none => (σ, .bad)
  | some f =>
    match f.blk with
    | .none => (σ, .nil)
    | .clo fid o => (σ.give (fid, o), .unit)
    | .word w =>
      match findOwner σ.acts r σ.acts.length with
      | none => (σ, .bad)
      | some c =>
        match σ.genProc σ.fuel c w with
        | (σ', some p) => (σ'.give p, .unit)
        | (σ', none) => (σ', .bad)

/-- Push the control frame of an `eval`: its local frame is made in the heap
(`new_binding_frame`, `globals.rs` 1280-1289; `call_invoker_with_binding`,
`codegen/arch/x86_64/jit_module.rs` 640-652).  Simplified: the next `eval` on the same `Binding`
is again made a child of the frame captured by the `Binding`, not of the previous `eval`. -/
def St.pushEval (σ : St) (o : Ref) : St :=
  let f : Frame := { slots := fun _ => 0, outer := some o, blk := .none, inv := false,
                     env := σ.next }
  { σ with
    acts := σ.acts ++ [{ lfp := .heap σ.heap.length, cell := { f with inv := true },
                         cache := none }]
    heap := σ.heap ++ [f]
    next := σ.next + 1 }

/-- One operation.  `fw` says whether the block invoker forwards a tombstone: true in the x86-64
back end (`invoker.rs` 567), false in the aarch64 one (`aarch64/invoker.rs` 259-315, "TODO"). -/
def step (fw : Bool) (σ : St) (op : Op) : St × Obs :=
  match σ.top with
  | none => (σ, .bad)
  | some r =>
    match op with
    | .get d i =>
      match σ.walk d r with
      | some q => match σ.frame q with
        | some f => (σ, .val (f.slots i))
        | none => (σ, .bad)
      | none => (σ, .bad)
    | .set d i v =>
      match σ.walk d r with
      | some q => (σ.write q i v, .unit)
      | none => (σ, .bad)
    | .call none => (σ.push none .none, .unit)
    | .call (some fid) => (σ.push none (.word (fid * 65536 + 1)), .unit)
    | .callFwd =>
      match σ.ownBlk with
      | some b => (σ.push none b.delegate, .unit)
      | none => (σ, .bad)
    | .callInt n => (σ.push none (.word n), .unit)
    | .callProc k =>
      match σ.hand[k]? with
      | some (fid, o) => (σ.push none (.clo fid o), .unit)
      | none => (σ, .bad)
    | .yield =>
      match σ.yieldTarget r with
      | some (fid, o) => (σ.push (some o) .none, .code fid)
      | none => (σ, .noBlock)
    | .lambda fid =>
      let m := σ.move σ.acts.length r
      match m.2 with
      | .heap h => ((m.1.mat σ.fuel h).give (fid, .heap h), .unit)
      | .stk _ => (m.1, .bad)
    | .blockArg d =>
      match σ.walk d r with
      | some q => σ.blockArgAt q
      | none => (σ, .bad)
    | .genProc =>
      match σ.ownBlk with
      | some (.clo fid o) => (σ.give (fid, o), .unit)
      | some (.word w) =>
        match σ.genProc σ.fuel (σ.acts.length - 1) w with
        | (σ', some p) => (σ'.give p, .unit)
        | (σ', none) => (σ', .bad)
      | some .none => (σ, .noBlock)
      | none => (σ, .bad)
    | .cache =>
      match σ.ownBlk with
      | some (.clo fid o) => (σ.setCache (fid, o), .unit)
      | some (.word w) =>
        match σ.proxy (σ.acts.length - 1) w with
        | some p => (σ.setCache p, .unit)
        | none => (σ, .bad)
      | some .none => (σ, .noBlock)
      | none => (σ, .bad)
    | .invoke =>
      match σ.acts[σ.acts.length - 1]? with
      | some a =>
        match a.cache with
        | some (fid, o) => (σ.push (some (if fw then σ.forward o else o)) .none, .code fid)
        | none => (σ, .bad)
      | none => (σ, .bad)
    | .procBody k fwd =>
      match σ.hand[k]?, σ.ownBlk with
      | some (fid, o), some b => (σ.push (some o) (if fwd then b.delegate else .none), .code fid)
      | _, _ => (σ, .bad)
    | .binding =>
      let m := σ.move σ.acts.length r
      ({ m.1 with binds := m.1.binds ++ [m.2] }, .unit)
    | .evalIn b =>
      match σ.binds[b]? with
      | some o => (σ.pushEval o, .unit)
      | none => (σ, .bad)
    | .ret =>
      if σ.acts.length ≤ 1 then (σ, .bad) else ({ σ with acts := σ.acts.dropLast }, .unit)

/-- The machine at the start: the frame of the main program. -/
def St.init : St :=
  { acts := [{ lfp := .stk 0,
               cell := { slots := fun _ => 0, outer := none, blk := .none, inv := false, env := 0 },
               cache := none }]
    heap := [], hand := [], binds := [], next := 1 }

/-- A run: the observations of a list of operations, and the machine after it. -/
def run (fw : Bool) (σ : St) : List Op → St × List Obs
  | [] => (σ, [])
  | op :: ops =>
    let s := step fw σ op
    let t := run fw s.1 ops
    (t.1, s.2 :: t.2)

/-! ## A `return` written in a block -/

/-- How the unwinding of a `return` written in a block ends: at control frame `i`, whose call
returns; outside every frame; or swallowed by the `ensure` clause of control frame `i`, which goes
on as after a normal end. -/
inductive Out where
  | returned (i : Nat)
  | escaped
  | swallowed (i : Nat)
  | localJump
deriving DecidableEq, Repr

/-- Run a clause in the running frame. -/
def St.clause (fw : Bool) (σ : St) (ops : List Op) : St := (run fw σ ops).1

/-- Run the `ensure` clause of control frame `k`, if it has one. -/
def St.after (fw : Bool) (ens : Nat → Option (List Op)) (σ : St) (k : Nat) : St :=
  match ens k with
  | some ops => σ.clause fw ops
  | none => σ

/-- `handle_error` for `MethodReturn(_, target)` in control frame `k - 1` and below
(`codegen/jit_module.rs` 136-170), with `defer_unwind` / `finish_ensure` (`executor.rs`
1578-1615): a frame with an `ensure` clause runs it; at its end the deferred `return` is found
again by comparing the `lfp` of then and now; a frame whose `lfp` is the target returns.  `ens i`
is the clause of control frame `i`, run to its end by operations that leave it running again.
Simplified: one `ensure` per frame. -/
def unwind (fw : Bool) (ens : Nat → Option (List Op)) (σ : St) (target : Ref) : Nat → St × Out
  | 0 => (σ, .escaped)
  | k + 1 =>
    match σ.acts[k]? with
    | none => (σ, .escaped)
    | some a =>
      let σ1 := σ.after fw ens k
      let now := (σ1.acts[k]?).map (·.lfp)
      if (ens k).isSome ∧ now ≠ some a.lfp then (σ1, .swallowed k)
      else if now = some target then ({ σ1 with acts := σ1.acts.take k }, .returned k)
      else unwind fw ens { σ1 with acts := σ1.acts.take k } target k

/-- `err_method_return` (`runtime.rs` 2299-2373) in a block: the target is the frame at the end of
the outer chain; when it is not on the stack, `LocalJumpError`.  Simplified: no lambda, no
`define_method`, no class body on the way. -/
def nonlocalReturn (fw : Bool) (ens : Nat → Option (List Op)) (σ : St) : St × Out :=
  match σ.top with
  | none => (σ, .localJump)
  | some r =>
    match σ.home (σ.next + 1) r with
    | none => (σ, .localJump)
    | some t =>
      match findOwner σ.acts t σ.acts.length with
      | none => (σ, .localJump)
      | some _ => unwind fw ens σ t σ.acts.length

end Verif.Closure
