import Mathlib.Logic.Function.Basic

/-!
# `Array#shuffle` and `Array#sample`: `monoruby/src/builtins/array.rs` l.4284-4640

The numbers drawn are an input; that each is below the bound asked for, and how they come from
the generator, is C18.
-/

namespace Verif.Sample

variable {α : Type}

/-- `slice::swap`; `none` is the index panic -/
def swapAt (l : List α) (i j : Nat) : Option (List α) :=
  match l[i]?, l[j]? with
  | some a, some b => some ((l.set i b).set j a)
  | _, _ => none

/-- the loop of `shuffle_inner`, array.rs:4411-4426, with `i` the value before `i -= 1`.  The check
that the array has kept its length is not modelled: nothing here changes it. -/
def shuffleLoop : Nat → List Nat → List α → Option (List α)
  | 0, _, l => some l
  | 1, _, l => some l
  | _ + 2, [], _ => none
  | i + 2, d :: ds, l =>
    match swapAt l (i + 1) d with
    | none => none
    | some l' => shuffleLoop (i + 1) ds l'

/-- `Array#shuffle`, array.rs:4405-4427 -/
def shuffle (l : List α) (ds : List Nat) : Option (List α) := shuffleLoop l.length ds l

/-- the elements at positions; `none` is the index panic -/
def pick (a : List α) : List Nat → Option (List α)
  | [] => some []
  | i :: is =>
    match a[i]?, pick a is with
    | some x, some xs => some (x :: xs)
    | _, _ => none

/-- the case of two, array.rs:4533-4540 -/
def idx2 (i j : Nat) : List Nat := [i, if i ≤ j then j + 1 else j]

/-- the case of three, array.rs:4541-4561 -/
def idx3 (i j k : Nat) : List Nat :=
  let j' := if i ≤ j then j + 1 else j
  let lo := if i ≤ j then i else j'
  let hi := if i ≤ j then j' else i
  let k' := if lo ≤ k then (if hi ≤ k + 1 then k + 2 else k + 1) else k
  [i, j', k']

/-- `while j < i && k >= sorted[j]`, array.rs:4590-4594: the final `k` -/
def lift : List Nat → Nat → Nat
  | [], k => k
  | s :: ss, k => if s ≤ k then lift ss (k + 1) else k

/-- the sorted list after the insertion, array.rs:4595-4596 -/
def ins : List Nat → Nat → List Nat
  | [], k => [k]
  | s :: ss, k => if s ≤ k then s :: ins ss (k + 1) else k :: s :: ss

/-- four to ten, array.rs:4579-4600 -/
def idxSorted : List Nat → List Nat → List Nat
  | _, [] => []
  | sorted, d :: ds => lift sorted d :: idxSorted (ins sorted d) ds

/-- array.rs:4566-4574 -/
def memoThreshold (len : Nat) : Nat :=
  if len < 2560 then len / 128
  else if len < 5120 then len / 64
  else if len < 10240 then len / 32
  else len / 16

/-- the loop over the picks with the map of swaps, array.rs:4622-4627: the positions taken -/
def idxMemo : Nat → (Nat → Option Nat) → List Nat → List Nat
  | _, _, [] => []
  | i, swaps, j :: js =>
    let fromI := (swaps i).getD i
    let fromJ := (swaps j).getD j
    fromJ :: idxMemo (i + 1) (Function.update swaps j (some fromI)) js

/-- `rand_upto(len - i) + i` for i = 0, 1, … -/
def offsets : Nat → List Nat → List Nat
  | _, [] => []
  | i, d :: ds => (d + i) :: offsets (i + 1) ds

/-- the copy branch, array.rs:4633-4636 -/
def copyLoop : Nat → Nat → List Nat → List α → Option (List α)
  | 0, _, _, l => some l
  | _ + 1, _, [], _ => none
  | n + 1, i, d :: ds, l =>
    match swapAt l i (d + i) with
    | none => none
    | some l' => copyLoop n (i + 1) ds l'

/-- `Array#sample(n)`, `sample_inner`, array.rs:4490-4640.  `ary` is the receiver before the draws
`ds` and `ary2` after them (a user-defined `rand` may change it). -/
def sample (ary ary2 : List α) (n : Nat) (ds : List Nat) : Option (List α) :=
  let n := min n ary.length
  if n ≤ 10 then
    if ary2.length < ary.length ∧ ds.any (fun r => decide (ary2.length ≤ r)) then some []
    else
      match min n ary2.length with
      | 0 => some []
      | 1 => pick ary2 (ds.take 1)
      | 2 => pick ary2 (idx2 (ds.getD 0 0) (ds.getD 1 0))
      | 3 => pick ary2 (idx3 (ds.getD 0 0) (ds.getD 1 0) (ds.getD 2 0))
      | m => pick ary2 (idxSorted [] (ds.take m))
  else if n ≤ memoThreshold ary.length / 2 then
    let picks := offsets 0 ds
    if ary2.length ≤ picks.foldl max 0 then some []
    else pick ary2 (idxMemo 0 (fun _ => none) (picks.take (min n ary2.length)))
  else
    match copyLoop n 0 ds ary with
    | none => none
    | some l => some (l.take n)

end Verif.Sample
