/-!
# `case` over integer literals

A `case` whose `when` clauses list at least eight literals, all of them
integers from 0 to 2047, is compiled to a jump table
(`bytecodegen/statement.rs:279-345`, `bytecodegen/encode.rs:219-244`,
`globals/store.rs:2159-2177`, `codegen/jitgen/compile.rs:1060-1083`,
`codegen/arch/x86_64/compile/mod.rs:2059-2083`).
-/

namespace Verif.Bop

/-- The subject of a `case`: an Integer, or something else, given by which
literals accept it (`literal === subject`). -/
inductive Subj
  | int (k : Int)
  | other (accepted : Int → Bool)

/-- The `when` clauses: each branch lists its literals. -/
abbrev Whens := List (List Int)

/-- `check_opt` (`bytecodegen/statement.rs:279-304`): at least eight literals,
all within 0..2047. -/
def checkOpt (ws : Whens) : Bool :=
  8 ≤ ws.flatten.length && ws.flatten.all fun i => 0 ≤ i && i < 2048

/-- The smallest and largest literal (`min`, `max` in `check_opt`). -/
def minLit (ws : Whens) : Int := ws.flatten.foldl min 2048
def maxLit (ws : Whens) : Int := ws.flatten.foldl max 0

/-- The pairs `(literal - min, branch)` in source order
(`bytecodegen/statement.rs:309-326`); branches are numbered from `n`. -/
def tableEntries (mn : Int) : Nat → Whens → List (Nat × Nat)
  | _, [] => []
  | n, w :: rest => w.map (fun i => ((i - mn).toNat, n)) ++ tableEntries mn (n + 1) rest

/-- Where a branch table sends control: branch number, or `none` for `else`.
Built by writing the entries in order into a table filled with `else`
(`bytecodegen/encode.rs:226-232`). -/
def buildTable (size : Nat) (es : List (Nat × Nat)) : List (Option Nat) :=
  es.foldl (fun t e => t.set e.1 (some e.2)) (List.replicate size none)

/-- The table of a `case`. -/
def branchTable (ws : Whens) : List (Option Nat) :=
  buildTable (maxLit ws - minLit ws + 1).toNat (tableEntries (minLit ws) 0 ws)

/-- `OptCaseInfo::find` (`globals/store.rs:2167-2176`). -/
def optCase (ws : Whens) : Subj → Option Nat
  | .int k =>
    if 0 ≤ k ∧ k < 65536 then
      if minLit ws ≤ k ∧ k ≤ maxLit ws then (branchTable ws).getD (k - minLit ws).toNat none
      else none
    else none
  | .other _ => none

/-- The compiled version (`emit_opt_case`,
`codegen/arch/x86_64/compile/mod.rs:2062-2083`) for a fixnum subject; any other
subject leaves compiled code for the interpreter. -/
def optCaseJit (ws : Whens) (k : Int) : Option Nat :=
  if k > maxLit ws then none
  else if k - minLit ws < 0 then none
  else (branchTable ws).getD (k - minLit ws).toNat none

/-- What `case` means: the first branch with a literal accepting the subject. -/
def accepts (i : Int) : Subj → Bool
  | .int k => i == k
  | .other f => f i

def firstMatch (s : Subj) : Nat → Whens → Option Nat
  | _, [] => none
  | n, w :: rest => if w.any (accepts · s) then some n else firstMatch s (n + 1) rest

end Verif.Bop
