import Verif.Marshal.Model

/-! # What a copy is

Nothing here refers to `dump` or `load`. -/

namespace Verif.Marshal

/-- Rename the objects a value refers to. -/
def Val.map (f : Nat → Nat) : Val → Val
  | .ref a => .ref (f a)
  | v => v

/-- Rename the objects a payload refers to. -/
def Body.map (f : Nat → Nat) : Body → Body
  | .arr vs => .arr (vs.map (Val.map f))
  | .hash ps d byId => .hash (ps.map fun p => (p.1.map f, p.2.map f)) (d.map (Val.map f)) byId
  | .struct ms => .struct (ms.map fun p => (p.1, p.2.map f))
  | .range b e x => .range (b.map f) (e.map f) x
  | b => b

/-- Rename the objects an object refers to. -/
def Obj.map (f : Nat → Nat) (o : Obj) : Obj :=
  { o with body := o.body.map f, ivars := o.ivars.map fun p => (p.1, p.2.map f) }

/-- The values a payload holds. -/
def Body.vals : Body → List Val
  | .arr vs => vs
  | .hash ps d _ => ps.map (·.1) ++ ps.map (·.2) ++ d.toList
  | .struct ms => ms.map (·.2)
  | .range b e _ => [b, e]
  | _ => []

/-- The values an object holds. -/
def Obj.vals (o : Obj) : List Val := o.body.vals ++ o.ivars.map (·.2)

/-- The objects one can get to from a value. -/
inductive Reach (H : List Obj) : Val → Nat → Prop
  | here (a : Nat) : Reach H (.ref a) a
  | step {a b : Nat} {o : Obj} {v : Val} : H[a]? = some o → v ∈ o.vals → Reach H v b → Reach H (.ref a) b

/-- `v'` in `H'` is a deep copy of `v` in `H`: the objects reachable from `v` correspond one to one to
objects of `H'` with the same class, payload, modules and variables, up to that correspondence.  So
sharing and cycles are the same. -/
def Copy (H : List Obj) (v : Val) (H' : List Obj) (v' : Val) : Prop :=
  ∃ f : Nat → Nat,
    (∀ a b, Reach H v a → Reach H v b → f a = f b → a = b) ∧
    v' = v.map f ∧
    ∀ a, Reach H v a → ∃ o, H[a]? = some o ∧ H'[f a]? = some (o.map f)

end Verif.Marshal
