/-!
# Finding the program

The candidates for the program of spawn and exec, and the walk over them in the child
(`monoruby/src/builtins/spawn.rs`).
-/

namespace Verif.Spawn.Path

abbrev Str := List Char

/-- `str::split(':')`. -/
def splitColon : Str → List Str
  | [] => [[]]
  | c :: cs =>
    if c = ':' then [] :: splitColon cs
    else
      match splitColon cs with
      | [] => [[c]]
      | w :: ws => (c :: w) :: ws

/-- spawn.rs:307-323; the case of the shell is left out. -/
def candidates (path prog : Str) : List Str :=
  if prog.isEmpty then []
  else if prog.contains '/' then [prog]
  else ((splitColon path).filter fun d => !d.isEmpty).map fun d => d ++ '/' :: prog

/-- What execve does with a file: it runs, or it fails with an errno. -/
inductive Outcome
  | runs
  | noexec
  | noent
  | other (errno : Nat)
deriving DecidableEq, Repr

inductive Result
  | ran (file : Str)
  | ranBySh (file : Str)
  | noent
  | failed (errno : Nat)
deriving DecidableEq, Repr

/-- spawn.rs:552-580; `n` is the number of candidates. -/
def walk (ex : Str → Outcome) (n : Nat) : List Str → Result
  | [] => .noent
  | c :: cs =>
    match ex c with
    | .runs => .ran c
    | .noexec => .ranBySh c
    | .noent => walk ex n cs
    | .other e => if n = 1 then .failed e else walk ex n cs

def start (ex : Str → Outcome) (path prog : Str) : Result :=
  walk ex (candidates path prog).length (candidates path prog)

end Verif.Spawn.Path
