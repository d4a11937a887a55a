/-!
# Model of `flatten` (`/repo/monoruby/src/builtins/array.rs` l.4168-4245)

Arrays are numbered: `h` has the elements of each.  Elements that are no arrays are not converted (`to_ary` is not
modelled).
-/

namespace Verif.Arr

/-- An element. -/
inductive Elem (α : Type) where
  | atom (x : α)
  | ref (id : Nat)
  deriving DecidableEq

/-- The result. -/
inductive FRes (α : Type) where
  | ok (l : List (Elem α))
  /-- ArgumentError: tried to flatten recursive array -/
  | recursive
  /-- the bound on the depth of the model was reached; does not occur -/
  | stuck
  deriving DecidableEq

variable {α : Type}

/-- `for v in ary.iter()` (l.4181-4197), with `step` for an array among the elements. -/
def flatList (step : Nat → FRes α) : List (Elem α) → FRes α
  | [] => .ok []
  | .atom x :: es => match flatList step es with
    | .ok l => .ok (.atom x :: l)
    | r => r
  | .ref j :: es => match step j with
    | .ok l => match flatList step es with
      | .ok l' => .ok (l ++ l')
      | r => r
    | r => r

/-- `flatten_inner` (l.4168-4200); the first argument bounds the depth.  Errors end it at once: of two, the first counts;
with one kind of error the order in `flatList` does not matter. -/
def flattenInner (h : List (List (Elem α))) : Nat → Option Nat → List Nat → Nat → FRes α
  | 0, _, _, _ => .stuck
  | n + 1, lv, seen, id =>
    if id ∈ seen then .recursive
    else if lv = some 0 then .ok (h.getD id [])
    else flatList (flattenInner h n (lv.map (· - 1)) (id :: seen)) (h.getD id [])

/-- `flatten(level)` (l.4210-4230). -/
def flatten (h : List (List (Elem α))) (lv : Option Nat) (id : Nat) : FRes α :=
  flattenInner h (h.length + 1) lv [] id

end Verif.Arr
