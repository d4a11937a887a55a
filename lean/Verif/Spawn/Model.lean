/-!
# Redirections of spawn

What `child_exec` (`monoruby/src/builtins/spawn.rs`) does to the descriptors between
fork and exec.  `close_others` reaches all descriptors.  How the options are parsed is not modelled.
-/

namespace Verif.Spawn

/-- The descriptors: the open file, and whether it is closed on exec. -/
abbrev T := Nat → Option (Nat × Bool)

def upd (t : T) (fd : Nat) (e : Option (Nat × Bool)) : T := fun x => if x = fd then e else t x

/-- `RedirectTarget` (spawn.rs:22-34). -/
inductive Target
  | fd (n : Nat)
  | file (f : Nat)
  | close
  | child (n : Nat)
deriving DecidableEq, Repr

/-- `Redirect` (spawn.rs:16-20). -/
structure Redirect where
  fds : List Nat
  target : Target
deriving DecidableEq, Repr

/-- The loops of spawn.rs:487-498, 505-509 and 519-523: dup2 of `s` to each of the
descriptors; for `s` itself the flag is cleared (`clear`) or nothing is done.
`none` if `s` is not open. -/
def dupLoop (clear : Bool) (s : Nat) : T → List Nat → Option T
  | t, [] => some t
  | t, c :: cs =>
    if s = c then
      if clear then dupLoop clear s (upd t c ((t c).map fun e => (e.1, false))) cs
      else dupLoop clear s t cs
    else
      match t s with
      | none => none
      | some e => dupLoop clear s (upd t c (some (e.1, false))) cs

/-- One redirection (spawn.rs:485-527); `free` chooses the descriptor that open(2)
gives, `none` if it fails. -/
def apply (free : T → Option Nat) (t : T) (r : Redirect) : Option T :=
  match r.target with
  | .fd s => dupLoop true s t r.fds
  | .file f =>
    match free t with
    | none => none
    | some n =>
      match dupLoop false n (upd t n (some (f, false))) r.fds with
      | none => none
      | some t => some (if r.fds.contains n then t else upd t n none)
  | .close => some (r.fds.foldl (fun t c => upd t c none) t)
  | .child n => dupLoop false n t r.fds

def run (free : T → Option Nat) : T → List Redirect → Option T
  | t, [] => some t
  | t, r :: rs =>
    match apply free t r with
    | none => none
    | some t => run free t rs

/-- `close_others` (spawn.rs:528-543), then what is open after exec. -/
def afterExec (closeOthers : Bool) (rs : List Redirect) (t : T) (fd : Nat) : Option Nat :=
  if closeOthers && decide (3 ≤ fd) && !(rs.any fun r => r.fds.contains fd) then none
  else
    match t fd with
    | some (o, false) => some o
    | _ => none

end Verif.Spawn
