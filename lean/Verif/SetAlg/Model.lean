import Mathlib.Logic.Function.Basic

/-!
# Set

`monoruby/src/builtins/set.rs`.

A Set is a Hash whose keys are the elements.  `V` are the objects, equal exactly when they are the
same object; `cls v` stands for the class of `v` under `eql?` (with a `hash` that agrees; the tables
themselves are the subject of `Verif.Hash` and `Verif.Rubymap`).  The elements are in the order of
insertion.  Not modelled: subclasses, frozen receivers, the copy a table makes of a String key,
blocks that raise or change the set they walk.
-/

namespace Verif.SetAlg

variable {V K : Type} [DecidableEq V] [DecidableEq K]

/-- a Set: how it compares and what it has -/
structure S (V : Type) where
  ident : Bool
  elems : List V
deriving DecidableEq

/-- when two objects are one element: the key comparison of the Hash below,
value/rvalue/hash.rs:1608-1631 -/
def same (cls : V → K) (ident : Bool) (a b : V) : Bool :=
  if ident then a = b else cls a = cls b

/-- `contains_key`: `===`, `include?`, `member?`, set.rs:259-264 -/
def has (cls : V → K) (s : S V) (v : V) : Bool := s.elems.any (same cls s.ident · v)

/-- `insert`: `<<`, `add`, set.rs:220-227.  An element that is there stays, with its place. -/
def ins (cls : V → K) (s : S V) (v : V) : S V :=
  if has cls s v then s else { s with elems := s.elems ++ [v] }

/-- `remove`: `delete`, set.rs:312-318 -/
def del (cls : V → K) (s : S V) (v : V) : S V :=
  { s with elems := s.elems.filter fun e => !same cls s.ident e v }

/-- the loops that insert each of a list -/
def insAll (cls : V → K) (s : S V) (vs : List V) : S V := vs.foldl (ins cls) s

/-- `set_from_iter`, `Set[]`, set.rs:119-130, 207-210 -/
def ofList (cls : V → K) (vs : List V) : S V := insAll cls ⟨false, []⟩ vs

/-- `add?`, set.rs:236-248 -/
def addQ (cls : V → K) (s : S V) (v : V) : Option (S V) :=
  if has cls s v then none else some (ins cls s v)

/-- `delete?`, set.rs:327-337 -/
def deleteQ (cls : V → K) (s : S V) (v : V) : Option (S V) :=
  if has cls s v then some (del cls s v) else none

/-- `dup`, `clone`, set.rs:409-417: a plain set of the elements, made to compare by identity
afterwards -/
def dup (cls : V → K) (s : S V) : S V := ⟨s.ident, (ofList cls s.elems).elems⟩

/-- the argument of an operation: a Set, or something else that `enum_to_vec` (set.rs:143-160)
turns into a list -/
inductive Arg (V : Type) where
  | set (s : S V)
  | enum (vs : List V)

/-- `enum_to_vec`, set.rs:143-160 -/
def Arg.list : Arg V → List V
  | .set s => s.elems
  | .enum vs => vs

/-- `merge`, set.rs:426-438 -/
def merge (cls : V → K) (s : S V) (args : List (Arg V)) : S V :=
  args.foldl (fun s a => insAll cls s a.list) s

/-- `subtract`, set.rs:447-455 -/
def subtract (cls : V → K) (s : S V) (a : Arg V) : S V := a.list.foldl (del cls) s

/-- `replace`, set.rs:464-486 -/
def replace (cls : V → K) (s : S V) : Arg V → S V
  | .set t => insAll cls ⟨t.ident, []⟩ t.elems
  | .enum vs => insAll cls ⟨s.ident, []⟩ vs

/-- `&`, set.rs:496-524 -/
def inter (cls : V → K) (s : S V) (a : Arg V) : S V :=
  let other := insAll cls ⟨s.ident, []⟩ a.list
  insAll cls ⟨false, []⟩ (s.elems.filter (has cls other))

/-- `|`, set.rs:535-550 -/
def union (cls : V → K) (s : S V) (a : Arg V) : S V :=
  insAll cls (insAll cls ⟨s.ident, []⟩ s.elems) a.list

/-- `-`, set.rs:560-581 -/
def diff (cls : V → K) (s : S V) (a : Arg V) : S V :=
  let other := insAll cls ⟨s.ident, []⟩ a.list
  insAll cls ⟨s.ident, []⟩ (s.elems.filter fun k => !has cls other k)

/-- `^`, set.rs:590-621 -/
def symdiff (cls : V → K) (s : S V) (a : Arg V) : S V :=
  let other := insAll cls ⟨s.ident, []⟩ a.list
  let r := insAll cls ⟨s.ident, []⟩ (s.elems.filter fun k => !has cls other k)
  insAll cls r (other.elems.filter fun k => !has cls s k)

/-- `==`, `eql?`, set.rs:631-654, the argument being a Set -/
def eq (cls : V → K) (s t : S V) : Bool :=
  s.ident = t.ident && s.elems.length = t.elems.length && s.elems.all (has cls t)

/-- `subset?`, set.rs:664-681 -/
def subset (cls : V → K) (s t : S V) : Bool :=
  if s.elems.length > t.elems.length then false else s.elems.all (has cls t)

/-- `superset?`, set.rs:691-708 -/
def superset (cls : V → K) (s t : S V) : Bool :=
  if s.elems.length < t.elems.length then false else t.elems.all (has cls s)

/-- `proper_subset?`, set.rs:718-740 -/
def properSubset (cls : V → K) (s t : S V) : Bool :=
  if s.elems.length ≥ t.elems.length then false else s.elems.all (has cls t)

/-- `proper_superset?`, set.rs:750-772 -/
def properSuperset (cls : V → K) (s t : S V) : Bool :=
  if s.elems.length ≤ t.elems.length then false else t.elems.all (has cls s)

/-- `<=>`, set.rs:781-815 -/
def cmp (cls : V → K) (s t : S V) : Option Int :=
  let sub := s.elems.all (has cls t)
  let sup := t.elems.all (has cls s)
  if sub && sup then some 0 else if sub then some (-1) else if sup then some 1 else none

/-- `disjoint?`, set.rs:824-857 -/
def disjoint (cls : V → K) (s : S V) : Arg V → Bool
  | .set t =>
    if s.elems.length ≤ t.elems.length then !s.elems.any (has cls t) else !t.elems.any (has cls s)
  | .enum vs => !vs.any (has cls s)

/-- `intersect?`, set.rs:866-899 -/
def intersect (cls : V → K) (s : S V) : Arg V → Bool
  | .set t =>
    if s.elems.length ≤ t.elems.length then s.elems.any (has cls t) else t.elems.any (has cls s)
  | .enum vs => vs.any (has cls s)

/-- `delete_if`, set.rs:909-932 -/
def deleteIf (cls : V → K) (s : S V) (p : V → Bool) : S V := (s.elems.filter p).foldl (del cls) s

/-- `keep_if`, set.rs:942-965 -/
def keepIf (cls : V → K) (s : S V) (p : V → Bool) : S V :=
  (s.elems.filter fun v => !p v).foldl (del cls) s

/-- `select!`, set.rs:977-1003; `none` is `nil`, with the set as it was -/
def selectB (cls : V → K) (s : S V) (p : V → Bool) : Option (S V) :=
  if (s.elems.filter fun v => !p v) = [] then none else some (keepIf cls s p)

/-- `reject!`, set.rs:1013-1039 -/
def rejectB (cls : V → K) (s : S V) (p : V → Bool) : Option (S V) :=
  if s.elems.filter p = [] then none else some (deleteIf cls s p)

/-- `collect!`, set.rs:1051-1085 -/
def collectB (cls : V → K) (s : S V) (f : V → V) : S V := insAll cls ⟨false, []⟩ (s.elems.map f)

/-- `classify`, set.rs:1202-1239: `f` gives the class under `eql?` of what the block returned -/
def classifyStep {C : Type} [DecidableEq C] (cls : V → K) (f : V → C) (h : List (C × S V)) (k : V) :
    List (C × S V) :=
  if h.any (·.1 = f k) then h.map fun e => if e.1 = f k then (e.1, ins cls e.2 k) else e
  else h ++ [(f k, ins cls ⟨false, []⟩ k)]

/-- `classify`, set.rs:1202-1239 -/
def classify {C : Type} [DecidableEq C] (cls : V → K) (f : V → C) (s : S V) : List (C × S V) :=
  s.elems.foldl (classifyStep cls f) []

/-- `divide` with a block of one parameter, set.rs:1368-1405: the groups, by `f`, the *identity* of
what the block returned (the Set made of them merges equal groups, of which there are none) -/
def divide {I : Type} [DecidableEq I] (cls : V → K) (f : V → I) (s : S V) : List (S V) :=
  (classify cls f s).map Prod.snd

/-- `flatten_set_into`, set.rs:1103-1126: `inner v` are the elements when `v` is a Set; `none` is the
ArgumentError.  `fuel` bounds the depth. -/
def flattenInto (cls : V → K) (inner : V → Option (List V)) : Nat → List V → S V → List V → Option (S V)
  | 0, _, _, _ => none
  | _ + 1, _, acc, [] => some acc
  | n + 1, seen, acc, v :: vs =>
    match inner v with
    | none => flattenInto cls inner n seen (ins cls acc v) vs
    | some es =>
      if v ∈ seen then none
      else (flattenInto cls inner n (v :: seen) acc es).bind fun acc => flattenInto cls inner n seen acc vs

/-- `hash`, set.rs:1425-1446: `h` is what the seeded hasher gives for an element -/
def hash (h : V → Nat) (s : S V) : Nat := s.elems.foldl (fun c k => c ^^^ h k) 0x5e75e75e75e7

/-! ## elements that change -/

/-- A Set of objects that can change: each with the hash it had when it was inserted
(value/rvalue/hash.rs; the table keeps hashes, rubymap/src/map/core.rs) -/
abbrev Stored (V : Type) := List (V × Nat)

/-- `include?` when the objects have the contents `now`: same hash and `eql?` -/
def hasNow (hashOf : K → Nat) (now : V → K) (s : Stored V) (q : K) : Bool :=
  s.any fun e => e.2 = hashOf q && now e.1 = q

/-- `reset`, set.rs:1412-1416 -/
def reset (s : Stored V) : Stored V := s

end Verif.SetAlg
