import Verif.Closure.Model

/-!
# What Ruby says about variables, blocks and closures

Every call, of a method or of a block, makes one environment, which never moves and never goes
away.  A block or a `Proc` is code together with the environment it was written in.
-/

namespace Verif.Closure

/-- The environment of one call: its variables, the environment around it (for a block), and the
block given to the call. -/
structure Env where
  slots : Nat → Nat
  parent : Option Nat
  blk : Option (Nat × Nat)

/-- A call in progress, and the block it is iterating with. -/
structure Call where
  env : Nat
  cache : Option (Nat × Nat)

/-- Environments made so far, calls in progress (oldest first), `Proc`s and `Binding`s the program
holds. -/
structure World where
  envs : List Env
  calls : List Call
  hand : List (Nat × Nat)
  binds : List Nat

namespace World

/-- The environment of the running call. -/
def top (w : World) : Option Nat := (w.calls[w.calls.length - 1]?).map (·.env)

/-- The environment `d` scopes out. -/
def scope (w : World) : Nat → Nat → Option Nat
  | 0, e => some e
  | d + 1, e =>
    match w.envs[e]? with
    | some v => match v.parent with
      | some p => w.scope d p
      | none => none
    | none => none

/-- The environment of the method around `e`. -/
def method (w : World) : Nat → Nat → Option Nat
  | 0, _ => none
  | n + 1, e =>
    match w.envs[e]? with
    | some v => match v.parent with
      | some p => w.method n p
      | none => some e
    | none => none

/-- A new call. -/
def enter (w : World) (parent : Option Nat) (blk : Option (Nat × Nat)) : World :=
  { w with
    envs := w.envs ++ [{ slots := fun _ => 0, parent, blk }]
    calls := w.calls ++ [{ env := w.envs.length, cache := none }] }

/-- The block given to the running call. -/
def given (w : World) : Option (Option (Nat × Nat)) :=
  match w.top with
  | some e => (w.envs[e]?).map (·.blk)
  | none => none

/-- The block given to the method around `e`. -/
def yields (w : World) (e : Nat) : Option (Nat × Nat) :=
  match w.method (w.envs.length + 1) e with
  | some m => match w.envs[m]? with
    | some v => v.blk
    | none => none
  | none => none

/-- Add a `Proc` to those the program holds. -/
def give (w : World) (p : Nat × Nat) : World := { w with hand := w.hand ++ [p] }

/-- Assign a variable of environment `q`. -/
def assign (w : World) (q i x : Nat) : World :=
  { w with
    envs := w.envs.modify q (fun v => { v with slots := fun j => if j = i then x else v.slots j }) }

/-- The running call will iterate with block `p`. -/
def iterate (w : World) (p : Nat × Nat) : World :=
  { w with calls := w.calls.modify (w.calls.length - 1) (fun a => { a with cache := some p }) }

/-- One operation. -/
def step (w : World) (op : Op) : World × Obs :=
  match w.top with
  | none => (w, .bad)
  | some e =>
    match op with
    | .get d i =>
      match w.scope d e with
      | some q => match w.envs[q]? with
        | some v => (w, .val (v.slots i))
        | none => (w, .bad)
      | none => (w, .bad)
    | .set d i x =>
      match w.scope d e with
      | some q =>
        (w.assign q i x, .unit)
      | none => (w, .bad)
    | .call none => (w.enter none none, .unit)
    | .call (some fid) => (w.enter none (some (fid, e)), .unit)
    | .callFwd =>
      match w.given with
      | some b => (w.enter none b, .unit)
      | none => (w, .bad)
    | .callInt _ => (w, .typeErr)
    | .callProc k =>
      match w.hand[k]? with
      | some p => (w.enter none (some p), .unit)
      | none => (w, .bad)
    | .yield =>
      match w.yields e with
      | some (fid, o) => (w.enter (some o) none, .code fid)
      | none => (w, .noBlock)
    | .lambda fid => (w.give (fid, e), .unit)
    | .blockArg d =>
      match w.scope d e with
      | some q => match w.envs[q]? with
        | some v => match v.blk with
          | some p => (w.give p, .unit)
          | none => (w, .nil)
        | none => (w, .bad)
      | none => (w, .bad)
    | .genProc =>
      match w.given with
      | some (some p) => (w.give p, .unit)
      | some none => (w, .noBlock)
      | none => (w, .bad)
    | .cache =>
      match w.given with
      | some (some p) =>
        (w.iterate p, .unit)
      | some none => (w, .noBlock)
      | none => (w, .bad)
    | .invoke =>
      match w.calls[w.calls.length - 1]? with
      | some a => match a.cache with
        | some (fid, o) => (w.enter (some o) none, .code fid)
        | none => (w, .bad)
      | none => (w, .bad)
    | .procBody k fwd =>
      match w.hand[k]?, w.given with
      | some (fid, o), some b => (w.enter (some o) (if fwd then b else none), .code fid)
      | _, _ => (w, .bad)
    | .binding => ({ w with binds := w.binds ++ [e] }, .unit)
    | .evalIn b =>
      match w.binds[b]? with
      | some o => (w.enter (some o) none, .unit)
      | none => (w, .bad)
    | .ret =>
      if w.calls.length ≤ 1 then (w, .bad) else ({ w with calls := w.calls.dropLast }, .unit)

/-- At the start: the environment of the main program. -/
def init : World :=
  { envs := [{ slots := fun _ => 0, parent := none, blk := none }]
    calls := [{ env := 0, cache := none }], hand := [], binds := [] }

/-- A run. -/
def run (w : World) : List Op → World × List Obs
  | [] => (w, [])
  | op :: ops =>
    let s := w.step op
    let t := run s.1 ops
    (t.1, s.2 :: t.2)

/-- No method around `e` up to the outermost has been given a block. -/
def Blockless (w : World) (e : Nat) : Prop :=
  ∀ d q v, w.scope d e = some q → w.envs[q]? = some v → v.blk = none

/-- Run the `ensure` clause of call `k`, if it has one. -/
def after (ens : Nat → Option (List Op)) (w : World) (k : Nat) : World :=
  match ens k with
  | some ops => (w.run ops).1
  | none => w

/-- The running call and those below it end one after the other, each running its `ensure` clause,
until the call with environment `m` has ended: what a `return` to that call does. -/
def unwind (ens : Nat → Option (List Op)) (w : World) (m : Nat) : Nat → World × Out
  | 0 => (w, .escaped)
  | k + 1 =>
    let w1 := w.after ens k
    if (w1.calls[k]?).map (·.env) = some m then
      ({ w1 with calls := w1.calls.take k }, .returned k)
    else unwind ens { w1 with calls := w1.calls.take k } m k

/-- `return` in a block returns from the method around it, if that is in progress. -/
def nonlocalReturn (ens : Nat → Option (List Op)) (w : World) : World × Out :=
  match w.top with
  | none => (w, .localJump)
  | some e =>
    match w.method (w.envs.length + 1) e with
    | none => (w, .localJump)
    | some m =>
      if w.calls.any (fun c => c.env == m) then w.unwind ens m w.calls.length else (w, .localJump)

end World

end Verif.Closure
