/-!
# catch and throw; what runs at exit

/repo/monoruby/src/builtins/kernel.rs, /repo/monoruby/src/executor.rs, /repo/monoruby/src/executor/op.rs,
/repo/monoruby/src/globals.rs
-/

namespace Verif.Exit

/-! ### catch and throw -/

/-- Programs.  Tags and values are numbers; `emit` stands for any effect; `rescue` is `rescue StandardError`;
`fiber` runs a body in a new Fiber that is resumed once.  Clauses stand in methods of their own (for
several in one method, and for the other ways out of a block, see C83). -/
inductive Prog where
  | val (v : Nat)
  | emit (n : Nat)
  | raise
  | seq (a b : Prog)
  | catch' (tag : Nat) (body : Prog)
  | throw (tag v : Nat)
  | ensure (body fin : Prog)
  | rescue (body handler : Prog)
  | fiber (body : Prog)

/-- How a program ends: a value, a `MonorubyErrKind::Throw`, an `UncaughtThrowError`, another error. -/
inductive Res where
  | val (v : Nat)
  | thrown (tag v : Nat)
  | uncaught (tag v : Nat)
  | raised
  deriving DecidableEq

/-- The executor: the tags of the catches that run, the last one first, and what was emitted. -/
structure St where
  tags : List Nat
  out : List Nat
  deriving DecidableEq

/-- `catch_`: kernel.rs:4252-4278.  `throw_`: kernel.rs:4285-4311.  `push_catch_tag`, `pop_catch_tag`,
`is_catch_tag_active`: executor.rs:691-701.  A handler does not see a Throw, `ensure` does:
codegen/jit_module.rs:172-180, 294-300.  A Fiber has its own executor: value/rvalue/fiber.rs:104. -/
def eval : Prog → St → St × Res
  | .val v, s => (s, .val v)
  | .emit n, s => ({ s with out := s.out ++ [n] }, .val 0)
  | .raise, s => (s, .raised)
  | .seq a b, s =>
    match eval a s with
    | (s, .val _) => eval b s
    | r => r
  | .catch' tag body, s =>
    match eval body { s with tags := tag :: s.tags } with
    | (s, r) =>
      let s := { s with tags := s.tags.tail }
      match r with
      | .thrown t v => if tag = t then (s, .val v) else (s, r)
      | r => (s, r)
  | .throw tag v, s => if s.tags.contains tag then (s, .thrown tag v) else (s, .uncaught tag v)
  | .ensure body fin, s =>
    match eval body s with
    | (s, r) =>
      match eval fin s with
      | (s, .val _) => (s, r)
      | r => r
  | .rescue body handler, s =>
    match eval body s with
    | (s, .raised) => eval handler s
    | (s, .uncaught _ _) => eval handler s
    | r => r
  | .fiber body, s =>
    match eval body { s with tags := [] } with
    | (s', r) => ({ s' with tags := s.tags }, r)

/-! ### At exit -/

inductive Outcome where
  | ok
  | exit (status : Int)
  | raise
  deriving DecidableEq

/-- An `at_exit` handler: its name, the handlers it registers when it runs, and how it ends. -/
inductive Handler where
  | mk (id : Nat) (kids : List Handler) (out : Outcome)

/-- What is known after the loop. -/
structure Done where
  ran : List Nat
  override : Option Int
  failed : Bool
  deriving DecidableEq

/-- The loop of `run_exit_handlers`; the handlers that are registered, the last one first; `at_exit` puts one in
front.  executor/op.rs:620-640, builtins/kernel.rs:4987-4995 -/
def loop : Nat → List Handler → Done → Done
  | 0, _, d => d
  | _, [], d => d
  | n + 1, .mk id kids out :: rest, d =>
    let stack := kids.foldl (fun s k => k :: s) rest
    let d := { d with ran := d.ran ++ [id] }
    match out with
    | .ok => loop n stack d
    | .exit st => loop n stack { d with override := some st }
    | .raise => loop n stack { d with failed := true }

mutual
def Handler.size : Handler → Nat
  | .mk _ kids _ => 1 + sizes kids
def sizes : List Handler → Nat
  | [] => 0
  | h :: t => h.size + sizes t
end

/-- How the script ended. -/
inductive Script where
  | ok
  | exit (status : Int)
  | error
  deriving DecidableEq

/-- `run_exit_handlers` and the end of `run_with_prelude`: the handlers in the order of registration, the
handler of `trap(:EXIT)`; which handlers ran and the status of the process.  Finalizers are left out, and so is
an uncaught SignalException.  executor/op.rs:609-651, globals.rs:935, 987-1006, main.rs:7-32 -/
def finish (script : Script) (handlers : List Handler) (trap : Option Handler) : List Nat × Int :=
  let stack := match trap with
    | some h => h :: handlers.reverse
    | none => handlers.reverse
  let d := loop (sizes stack) stack { ran := [], override := none, failed := false }
  let handlerStatus := d.override.or (if d.failed then some 1 else none)
  (d.ran, match handlerStatus with
    | some st => st
    | none => match script with
      | .ok => 0
      | .exit st => st
      | .error => 1)

end Verif.Exit
