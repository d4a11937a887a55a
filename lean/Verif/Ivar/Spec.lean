import Verif.Ivar.Model

/-!
# What instance variables are supposed to be

An object is a finite map from names to values and a frozen flag.  Classes, slots, caches and compiled
code play no part.
-/

namespace Verif.Ivar

variable {V : Type}

/-- An object as the programmer sees it. -/
structure AObj (V : Type) where
  frozen : Bool
  vars : Name → Option V

/-- The objects, and the name of each access site. -/
structure ASt (V : Type) where
  objs : List (AObj V)
  names : List Name

/-- The object with `n` bound to `x` (or unbound). -/
def AObj.upd (o : AObj V) (n : Name) (x : Option V) : AObj V :=
  { o with vars := fun m => if m = n then x else o.vars m }

/-- A sequence of reads and writes by name; a write to a frozen object raises and ends it. -/
def specAccesses (nil : V) (o : AObj V) : List (Access V) → AObj V × List V × Bool
  | [] => (o, [], false)
  | (n, none) :: rest =>
    let (o', vs, e) := specAccesses nil o rest
    (o', (o.vars n).getD nil :: vs, e)
  | (n, some v) :: rest =>
    if o.frozen then (o, [], true) else specAccesses nil (o.upd n (some v)) rest

/-- A write by name. -/
def specSet (a : ASt V) (k : Nat) (o : AObj V) (n : Name) (v : V) : ASt V × Res V :=
  if o.frozen then (a, .frozenErr)
  else ({ a with objs := a.objs.set k (o.upd n (some v)) }, .unit)

/-- One operation on the abstract objects. -/
def specStep (nil : V) (a : ASt V) : Op V → ASt V × Res V
  | .newClass _ => (a, .unit)
  | .newSite n => ({ a with names := a.names ++ [n] }, .unit)
  | .new _ => ({ a with objs := a.objs ++ [⟨false, fun _ => none⟩] }, .unit)
  | .get o n =>
    match a.objs[o]? with
    | none => (a, .unit)
    | some obj => (a, .opt (obj.vars n))
  | .set o n v =>
    match a.objs[o]? with
    | none => (a, .unit)
    | some obj => specSet a o obj n v
  | .remove o n =>
    match a.objs[o]? with
    | none => (a, .unit)
    | some obj =>
      if obj.frozen then (a, .frozenErr)
      else match obj.vars n with
        | none => (a, .nameErr)
        | some v => ({ a with objs := a.objs.set o (obj.upd n none) }, .val v)
  | .load s o =>
    match a.names[s]?, a.objs[o]? with
    | some n, some obj => (a, .val ((obj.vars n).getD nil))
    | _, _ => (a, .unit)
  | .store s o v =>
    match a.names[s]?, a.objs[o]? with
    | some n, some obj => specSet a o obj n v
    | _, _ => (a, .unit)
  | .singleton _ => (a, .unit)
  | .freeze o =>
    match a.objs[o]? with
    | none => (a, .unit)
    | some obj => ({ a with objs := a.objs.set o { obj with frozen := true } }, .unit)
  | .dup o =>
    match a.objs[o]? with
    | none => (a, .unit)
    | some obj => ({ a with objs := a.objs ++ [{ obj with frozen := false }] }, .unit)
  | .clone o =>
    match a.objs[o]? with
    | none => (a, .unit)
    | some obj => ({ a with objs := a.objs ++ [obj] }, .unit)
  | .compile _ _ => (a, .unit)
  | .jit _ _ o as =>
    match a.objs[o]? with
    | none => (a, .unit)
    | some obj =>
      ({ a with objs := a.objs.set o (specAccesses nil obj as).1 },
        .vals (specAccesses nil obj as).2.1 (specAccesses nil obj as).2.2)

/-- A history on the abstract objects. -/
def specRun (nil : V) (a : ASt V) : List (Op V) → ASt V × List (Res V)
  | [] => (a, [])
  | op :: ops =>
    let (a', r) := specStep nil a op
    let (a'', rs) := specRun nil a' ops
    (a'', r :: rs)

/-- No objects. -/
def ASt.init : ASt V := ⟨[], []⟩

/-- Is the copy of this object described by the same slots in its real class?  True of every object
without a singleton class; for an object with one, every variable that is set must have the same slot
in the real class's table. -/
def copyOk (st : St V) (obj : Obj V) : Prop :=
  ∀ n id, (st.table obj.cls).lookup n = some id → obj.getById id ≠ some none →
    (st.table (st.realClass obj)).lookup n = some id

/-- The operations the history theorem speaks about: references exist, `allocate` is called on a real
class, a compiled body runs after its class guard and contains the accesses, and copies are taken of
objects whose variables sit in the same slots of the real class. -/
def okOp (st : St V) : Op V → Prop
  | .newClass _ => True
  | .newSite _ => True
  | .new c => ∃ k, st.classes[c]? = some k ∧ k.real = none
  | .get o _ => o < st.heap.length
  | .set o _ _ => o < st.heap.length
  | .remove o _ => o < st.heap.length
  | .load s o => s < st.sites.length ∧ o < st.heap.length
  | .store s o _ => s < st.sites.length ∧ o < st.heap.length
  | .singleton o => o < st.heap.length
  | .freeze o => o < st.heap.length
  | .dup o => ∃ obj, st.heap[o]? = some obj ∧ copyOk st obj
  | .clone o => ∃ obj, st.heap[o]? = some obj ∧ copyOk st obj
  | .compile c _ => c < st.classes.length
  | .jit _ j o as => ∃ code obj, st.codes[j]? = some code ∧ st.heap[o]? = some obj ∧
      code.cls = obj.cls ∧ ∀ a ∈ as, (code.ids.lookup a.1).isSome

/-- Every operation of the history is one of those, in the state it is applied to. -/
def okRun (nil : V) (st : St V) : List (Op V) → Prop
  | [] => True
  | op :: ops => okOp st op ∧ ∀ st' r, step nil st op = some (st', r) → okRun nil st' ops

end Verif.Ivar
