/-!
# Fiber: resume, yield, transfer, raise and kill

/repo/monoruby/src/value/rvalue/fiber.rs, /repo/monoruby/src/builtins/fiber.rs, `yield_fiber` and
`fiber_on_terminate` of /repo/monoruby/src/executor.rs, and the links that the switching code of
/repo/monoruby/src/codegen/arch/x86_64/invoker.rs writes.

Simplifications for the whole file: one thread (`check_same_thread` passes); fibers are numbers, the root
fiber is 0; stacks and registers are left out, a switch is the change of `cur`; what is handed over
(arguments, a result or an exception) is an abstract value; the fibers inside enumerators are left out.
-/

namespace Verif.Fiber

abbrev Id := Nat

/-- `fiber_state`, executor.rs:1962-1968: a running fiber counts as suspended, here `started`. -/
inductive St where
  | created
  | started
  | terminated
  deriving DecidableEq

/-- The fields of an executor that matter.  executor.rs:195-200, 365-390 -/
structure F where
  st : St := .created
  /-- `parent_fiber` -/
  parent : Option Id := none
  /-- `resuming_fiber` -/
  resuming : Option Id := none
  /-- `return_to` -/
  returnTo : Option Id := none
  yielding : Bool := false
  transferred : Bool := false
  /-- the fiber whose `resume`, `transfer` or injection this fiber is inside of (the `self` of the call
  that `receive_switch_back` will be run for); none while suspended in `Fiber.yield` -/
  waiting : Option Id := none

structure S (P : Type) where
  cur : Id
  fs : Id → F
  /-- what the current fiber was given at the last switch -/
  got : Option P

inductive Err where
  | terminated | current | doubleResume | resuming | transferred | yielding | notResumed | unborn
  /-- the exception is raised in the fiber that made the call -/
  | here
  /-- the root fiber cannot be killed; its end is the thread's -/
  | root
  /-- a switch to a fiber that cannot run any more -/
  | crash
  deriving DecidableEq

variable {P : Type}

def upd (fs : Id → F) (i : Id) (g : F → F) : Id → F := fun j => if j = i then g (fs j) else fs j

/-- `receive_switch_back` on the side of `v`, called for the child `c`.
fiber.rs:571-588 -/
def receive (fs : Id → F) (v c : Id) : Id → F :=
  let fs := upd fs v fun x => { x with resuming := none, waiting := none }
  if (fs c).st = .started ∧ (fs c).parent = some v then
    upd fs c fun x => { x with parent := none, yielding := true }
  else fs

/-- Control arrives at `v`, which was suspended. -/
def arrive (s : S P) (v : Id) (p : P) : Except Err (S P) :=
  if (s.fs v).st = .terminated then .error .crash
  else match (s.fs v).waiting with
    | some c => .ok { cur := v, fs := receive s.fs v c, got := some p }
    | none => .ok { s with cur := v, got := some p }

/-- `check_resumable`.  fiber.rs:202-230 -/
def checkResumable (s : S P) (f : Id) : Option Err :=
  if (s.fs f).st = .terminated then some .terminated
  else if f = s.cur then some .current
  else if (s.fs f).parent.isSome then some .doubleResume
  else if (s.fs f).resuming.isSome then some .resuming
  else if (s.fs f).transferred then some .transferred
  else none

/-- A resume-style switch to a fiber that was suspended: `resume_fiber`, and `inject_error` for a yielding
fiber; the switching code writes `parent_fiber`.  fiber.rs:521-533, 334-349, x86_64/invoker.rs:343-371 -/
def switchResume (s : S P) (f : Id) (p : P) : Except Err (S P) :=
  let fs := upd s.fs s.cur fun x => { x with resuming := some f, waiting := some f }
  let fs := upd fs f fun x => { x with returnTo := some s.cur, yielding := false, parent := some s.cur }
  arrive { s with fs := fs } f p

/-- `check_not_across_resume`: whether `f` is among the parents; `n` bounds the walk.  fiber.rs:546-554 -/
def across (fs : Id → F) (f : Id) : Nat → Option Id → Bool
  | 0, _ => false
  | _ + 1, none => false
  | n + 1, some q => q == f || across fs f n (fs q).parent

/-- `Fiber#resume`.  fiber.rs:189-199, 437-470, 521-522 -/
def resume (n : Nat) (s : S P) (f : Id) (p : P) : Except Err (S P) :=
  match checkResumable s f with
  | some e => .error e
  | none =>
    if (s.fs f).st = .created then
      let fs := upd s.fs s.cur fun x => { x with resuming := some f, waiting := some f }
      let fs := upd fs f fun x => { x with st := .started, returnTo := some s.cur, parent := some s.cur }
      .ok { cur := f, fs := fs, got := some p }
    else if across s.fs f n (s.fs s.cur).parent then .error .doubleResume
    else switchResume s f p

/-- The deepest fiber of the chain of `resuming` from `i`; `n` bounds the walk (there is no bound in the
code: the chain is finite as long as it has no cycle).  fiber.rs:274-280 -/
def deepest (fs : Id → F) : Nat → Id → Id
  | 0, i => i
  | n + 1, i => match (fs i).resuming with
    | some j => deepest fs n j
    | none => i

/-- `return_to` of a transfer.  fiber.rs:271-282 -/
def returnTarget (n : Nat) (s : S P) (f : Id) : Id :=
  match (s.fs f).parent with
  | some q => q
  | none => deepest s.fs n 0

/-- `Fiber#transfer`.  fiber.rs:240-302 -/
def transfer (n : Nat) (s : S P) (f : Id) (p : P) : Except Err (S P) :=
  if (s.fs f).resuming.isSome then .error .resuming
  else if (s.fs f).yielding then .error .yielding
  else if (s.fs f).st = .terminated then .error .terminated
  else
    let s := { s with fs := upd s.fs f fun x => { x with transferred := true } }
    if f = s.cur then .ok { s with got := some p }
    else
      let rt := returnTarget n s f
      let fs := upd s.fs s.cur fun x => { x with waiting := some f }
      if (s.fs f).st = .created then
        .ok { cur := f, got := some p,
              fs := upd fs f fun x => { x with st := .started, returnTo := some rt } }
      else
        arrive { s with fs := upd fs f fun x => { x with returnTo := some rt, yielding := false } } f p

/-- `Fiber.yield`: to `parent_fiber`.  builtins/fiber.rs:249-271, executor.rs:2063-2087 -/
def yield (s : S P) (p : P) : Except Err (S P) :=
  match (s.fs s.cur).parent with
  | none => .error .notResumed
  | some q => arrive s q p

/-- The body of the current fiber ends, with a result or an exception: `fiber_on_terminate`.
executor.rs:2105-2118 -/
def finish (s : S P) (p : P) : Except Err (S P) :=
  if s.cur = 0 then .error .root
  else
    let t := (s.fs s.cur).returnTo.or (s.fs s.cur).parent
    match t with
    | none => .error .crash
    | some t => arrive { s with fs := upd s.fs s.cur fun x => { x with st := .terminated } } t p

/-- `inject_error`.  fiber.rs:323-375 -/
def inject (n : Nat) (s : S P) (f : Id) (p : P) : Except Err (S P) :=
  if (s.fs f).yielding then switchResume s f p
  else
    let rt := returnTarget n s f
    let fs := upd s.fs s.cur fun x => { x with waiting := some f }
    arrive { s with fs := upd fs f fun x => { x with returnTo := some rt } } f p

/-- `Fiber#raise`.  builtins/fiber.rs:475-496 -/
def raise (n : Nat) (s : S P) (f : Id) (p : P) : Except Err (S P) :=
  if f = s.cur then .error .here
  else match (s.fs f).st with
    | .created => .error .unborn
    | .terminated => .error .terminated
    | .started => if (s.fs f).resuming.isSome then .error .here else inject n s f p

/-- `Fiber#kill`; the flag `killed` (which swallows the exception at the end) is left out.
builtins/fiber.rs:386-423 -/
def kill (n : Nat) (s : S P) (f : Id) (p : P) : Except Err (S P) :=
  if f = 0 then .error .root
  else if (s.fs f).st = .terminated then .error .terminated
  else if f = s.cur then .error .here
  else if (s.fs f).resuming.isSome then .error .here
  else if (s.fs f).st = .created then
    .ok { s with fs := upd s.fs f fun x => { x with st := .terminated } }
  else inject n s f p

inductive Op (P : Type) where
  | resume (f : Id) (p : P)
  | transfer (f : Id) (p : P)
  | yield (p : P)
  | finish (p : P)
  | raise (f : Id) (p : P)
  | kill (f : Id) (p : P)

def step (n : Nat) (s : S P) : Op P → Except Err (S P)
  | .resume f p => Fiber.resume n s f p
  | .transfer f p => Fiber.transfer n s f p
  | .yield p => Fiber.yield s p
  | .finish p => Fiber.finish s p
  | .raise f p => Fiber.raise n s f p
  | .kill f p => Fiber.kill n s f p

/-- A failed operation raises in the current fiber and changes nothing; what it raised is recorded. -/
def next (n : Nat) (s : S P) (o : Op P) : S P × Option Err :=
  match step n s o with
  | .ok s' => (s', none)
  | .error e => (s, some e)

/-- A program, seen as the switching operations that its fibers perform one after the other. -/
def run (n : Nat) : S P → List (Op P) → S P × List (Option Err)
  | s, [] => (s, [])
  | s, o :: os =>
    let r := next n s o
    let rs := run n r.1 os
    (rs.1, r.2 :: rs.2)

/-- At the start the root runs and no other fiber has been started. -/
def init : S P :=
  { cur := 0, fs := fun i => if i = 0 then { st := .started } else {}, got := none }

end Verif.Fiber
