/-!
# The causes of exceptions

`raise`, `raise cause:`, `Fiber#raise` and `Thread#raise` record in the raised
exception which exception led to it.  Modelled from
`monoruby/src/builtins/kernel.rs`, `monoruby/src/executor.rs`,
`monoruby/src/builtins/fiber.rs`, `monoruby/src/builtins/thread.rs` and
`monoruby/src/globals/error.rs`.

Exceptions are numbered in the order of their creation.
-/

namespace Verif.Cause

/-- The exceptions that exist (`0 … n-1`), the cause recorded in each (the
hidden variable `/cause`; it is never set to nil) and the exceptions on their
way to another fiber or thread, each with its explicit cause. -/
structure State where
  n : Nat
  cause : Nat → Option Nat
  pending : List (Nat × Option (Option Nat))

/-- A program before its first exception. -/
def State.init : State := ⟨0, fun _ => none, []⟩

/-- A new exception has no cause.  (Models `Value::new_exception`.) -/
def State.alloc (s : State) : State := { s with n := s.n + 1 }

/-- `set_ivar(v, "/cause", c)`. -/
def State.set (s : State) (v c : Nat) : State :=
  { s with cause := fun x => if x = v then some c else s.cause x }

/-- Models `cause_chain_contains` (kernel.rs:1177-1189): the `loop`, for at
most `fuel` rounds.  `none`: it is still going on. -/
def contains (cause : Nat → Option Nat) : Nat → Nat → Nat → Option Bool
  | 0, _, _ => none
  | fuel + 1, cur, target =>
    if cur = target then some true else
    match cause cur with
    | some next => contains cause fuel next target
    | none => some false

/-- What is given to `raise`. -/
inductive What
  /-- a message: the exception is created when it is rescued, so that it is not
  known when the cause is checked -/
  | str
  /-- a class, or an exception with another message: a new object -/
  | cls
  /-- an exception that exists -/
  | obj (x : Nat)
deriving DecidableEq, Repr

/-- Models `apply_cause` (kernel.rs:1150-1174).  The keyword `cause:` is absent,
`nil` or an exception (anything else is a TypeError, not modelled).  `.error`
is the ArgumentError "circular causes". -/
def applyCause (fuel : Nat) (s : State) (raised : Option Nat) (kw : Option (Option Nat)) :
    Option (Except Unit (Option (Option Nat))) :=
  match kw, raised with
  | some (some c), some r =>
    if c = r then some (.ok (some none)) else
    match contains s.cause fuel c r with
    | none => none
    | some true => some (.error ())
    | some false => some (.ok kw)
  | _, _ => some (.ok kw)

/-- Models `chain_cause` (executor.rs:1834-1865), where `active` is `$!`. -/
def chainCause (fuel : Nat) (s : State) (v : Nat) (explicit : Option (Option Nat))
    (active : Option Nat) : Option State :=
  match explicit with
  | some (some c) => some (s.set v c)
  | some none => some s
  | none =>
    match s.cause v, active with
    | none, some a =>
      if a = v then some s else
      match contains s.cause fuel a v with
      | none => none
      | some true => some s
      | some false => some (s.set v a)
    | _, _ => some s

/-- One operation. -/
inductive Op
  /-- `raise what, cause: kw` while `$!` is `active`, and the rescue (or ensure)
  that follows.  An error raised by a builtin is `.str` without keyword. -/
  | raise (what : What) (kw : Option (Option Nat)) (active : Option Nat)
  /-- `e.dup`, `e.clone`: the variables are copied -/
  | copy (x : Nat)
  /-- `fiber.raise` or `thread.raise` while `$!` of the caller is `active` -/
  | send (what : What) (kw : Option (Option Nat)) (active : Option Nat)
  /-- the `i`-th exception on its way arrives and is rescued -/
  | deliver (i : Nat)
deriving DecidableEq, Repr

def What.ids : What → List Nat
  | .obj x => [x]
  | _ => []

def optIds : Option (Option Nat) → List Nat
  | some (some c) => [c]
  | _ => []

/-- The exceptions named by an operation. -/
def Op.ids : Op → List Nat
  | .raise w kw a => w.ids ++ optIds kw ++ a.toList
  | .copy x => [x]
  | .send w kw a => w.ids ++ optIds kw ++ a.toList
  | .deliver _ => []

/-- The exception that `raise` works with, and whether `apply_cause` and
`original` know it.  (Models the cases of `make_exception_error`,
kernel.rs:1064-1142; `#exception` defined by the user and the backtrace argument are not modelled.) -/
def target (s : State) : What → State × Nat × Option Nat
  | .str => (s.alloc, s.n, none)
  | .cls => (s.alloc, s.n, some s.n)
  | .obj x => (s, x, some x)

/-- Models `Kernel#raise` (kernel.rs:990-1012) followed by `take_ex_obj`
(executor.rs:1650-1825) in the nearest rescue; no Ruby code runs in between. -/
def raiseOp (fuel : Nat) (s : State) (w : What) (kw : Option (Option Nat)) (active : Option Nat) :
    Option State :=
  match applyCause fuel (target s w).1 (target s w).2.2 kw with
  | none => none
  -- the ArgumentError is raised instead
  | some (.error _) => chainCause fuel (target s w).1.alloc (target s w).1.n none active
  | some (.ok ex) => chainCause fuel (target s w).1 (target s w).2.1 ex active

/-- The explicit cause of `Fiber#raise` (fiber.rs:464-473) and `Thread#raise`
(thread.rs:288-298): without keyword it is the `$!` of the caller, unless that
is the raised exception itself. -/
def pin (original : Option Nat) (ex : Option (Option Nat)) (active : Option Nat) :
    Option (Option Nat) :=
  match ex, active with
  | some c, _ => some c
  | none, some a => if original = some a then some none else some (some a)
  | none, none => some none

/-- Models `Fiber#raise` / `Thread#raise` up to the point where the error is
handed over. -/
def sendOp (fuel : Nat) (s : State) (w : What) (kw : Option (Option Nat)) (active : Option Nat) :
    Option State :=
  match applyCause fuel (target s w).1 (target s w).2.2 kw with
  | none => none
  | some (.error _) => chainCause fuel (target s w).1.alloc (target s w).1.n none active
  | some (.ok ex) =>
    some { (target s w).1 with
      pending := (target s w).1.pending ++ [((target s w).2.1, pin (target s w).2.2 ex active)] }

/-- One operation.  `none`: the program hangs (within `fuel` rounds of a loop).
An operation on exceptions that do not exist does nothing. -/
def step (fuel : Nat) (s : State) (op : Op) : Option State :=
  if op.ids.all (· < s.n) then
    match op with
    | .raise w kw a => raiseOp fuel s w kw a
    | .copy x => some { s.alloc with cause := fun y => if y = s.n then s.cause x else s.cause y }
    | .send w kw a => sendOp fuel s w kw a
    | .deliver i =>
      match s.pending[i]? with
      | none => some s
      | some (v, ex) => chainCause fuel { s with pending := s.pending.eraseIdx i } v ex none
  else some s

/-- A program. -/
def run (fuel : Nat) : State → List Op → Option State
  | s, [] => some s
  | s, op :: ops =>
    match step fuel s op with
    | none => none
    | some s => run fuel s ops

/-- Models `show_cause_chain` (error.rs:262-291), the report of an uncaught
exception: the exceptions that are printed, in this order.  `seen` is the list
`seen` (the loop ends because every round adds an exception to it; `fuel` is the number of exceptions). -/
def report (cause : Nat → Option Nat) : Nat → Nat → List Nat → List Nat
  | 0, _, _ => []
  | fuel + 1, cur, seen =>
    match cause cur with
    | none => []
    | some c => if c ∈ seen then [] else c :: report cause fuel c (c :: seen)

end Verif.Cause
