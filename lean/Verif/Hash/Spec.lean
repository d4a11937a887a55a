import Verif.Hash.Model

/-!
# What a Hash is supposed to do

A Hash is a list of pairs in insertion order, a comparison mode and a default value.  A
traversal is the list of keys it has yet to visit.
-/

namespace Verif.Hash

variable {K V : Type} [DecidableEq K]

/-- Are two keys the same key in this mode? -/
def same (env : Env K V) (ident : Bool) (a b : K) : Bool :=
  if ident then decide (a = b) else env.eqb a b

/-- The value last stored under `k`. -/
def lookup (env : Env K V) (ident : Bool) (k : K) (l : List (K × V)) : Option V :=
  (l.find? (fun p => same env ident k p.1)).map (·.2)

/-- Is `k` a key? -/
def present (env : Env K V) (ident : Bool) (k : K) (l : List (K × V)) : Bool :=
  l.any (fun p => same env ident k p.1)

/-- Store: an existing key keeps its place, a new one goes to the end. -/
def put (env : Env K V) (ident : Bool) (k : K) (v : V) (l : List (K × V)) : List (K × V) :=
  if present env ident k l then l.map (fun p => if same env ident k p.1 then (p.1, v) else p)
  else l ++ [(k, v)]

/-- Delete. -/
def del (env : Env K V) (ident : Bool) (k : K) (l : List (K × V)) : List (K × V) :=
  l.filter (fun p => !same env ident k p.1)

/-- A traversal: the keys at its start, those handed to the block so far, those yet to
come, and the one the block was last called with. -/
structure ACur (K : Type) where
  start : List K
  seen : List K
  todo : List K
  last : Option K

/-- The abstract state. -/
structure ASys (K V : Type) where
  pairs : List (K × V)
  ident : Bool
  dflt : Option V
  curs : List (ACur K)

/-- Is the key still in the Hash? -/
def still (l : List (K × V)) (k : K) : Bool := decide (k ∈ l.map (·.1))

/-- One step of the specification. -/
def aStep (env : Env K V) (a : ASys K V) : Op K V → ASys K V × Out K V
  | .get k => (a, .val ((lookup env a.ident k a.pairs).or a.dflt))
  | .has k => (a, .bool (present env a.ident k a.pairs))
  | .size => (a, .num a.pairs.length)
  | .toA => (a, .list a.pairs)
  | .put k v =>
    if a.curs ≠ [] ∧ present env a.ident k a.pairs = false then (a, .raised .add)
    else ({ a with pairs := put env a.ident k v a.pairs }, .done)
  | .del k => ({ a with pairs := del env a.ident k a.pairs }, .val (lookup env a.ident k a.pairs))
  | .shift => ({ a with pairs := a.pairs.tail }, .pair a.pairs.head?)
  | .clear =>
    if a.curs ≠ [] then (a, .raised .modify) else ({ a with pairs := [] }, .done)
  | .setDefault d => ({ a with dflt := d }, .done)
  | .compareByIdentity =>
    if a.curs ≠ [] then (a, .raised .modify) else ({ a with ident := true }, .done)
  | .resetMode b =>
    if a.curs ≠ [] then (a, .raised .modify) else ({ a with pairs := [], ident := b }, .done)
  | .rehash => if a.curs ≠ [] then (a, .raised .modify) else (a, .done)
  | .dup => ({ a with curs := [] }, .done)
  | .iterBegin =>
    let ks := a.pairs.map (·.1)
    ({ a with curs := ⟨ks, [], ks, none⟩ :: a.curs }, .done)
  | .iterNext j =>
    match a.curs[j]? with
    | none => (a, .done)
    | some c =>
      match c.todo.dropWhile (fun k => !still a.pairs k) with
      | [] => ({ a with curs := a.curs.set j ⟨c.start, c.seen, [], none⟩ }, .pair none)
      | k :: rest =>
        ({ a with curs := a.curs.set j ⟨c.start, c.seen ++ [k], rest, some k⟩ },
          .pair (a.pairs.find? (fun p => decide (p.1 = k))))
  | .iterSet j v =>
    match a.curs[j]? with
    | some ⟨_, _, _, some k⟩ =>
      ({ a with pairs := a.pairs.map (fun p => if p.1 = k then (p.1, v) else p) }, .done)
    | _ => (a, .done)
  | .iterEnd j =>
    match a.curs[j]? with
    | none => (a, .done)
    | some _ => ({ a with curs := a.curs.eraseIdx j }, .done)

/-- A history of the specification. -/
def aRun (env : Env K V) : ASys K V → List (Op K V) → ASys K V × List (Out K V)
  | a, [] => (a, [])
  | a, op :: ops =>
    let r := aStep env a op
    let q := aRun env r.1 ops
    (q.1, r.2 :: q.2)

/-- The program leaves the innermost traversal first, unless at most three are running. -/
def Nested (a : ASys K V) : Op K V → Prop
  | .iterEnd j => j = 0 ∨ a.curs.length ≤ 3
  | _ => True

/-- `Nested` throughout a history. -/
def NestedAll (env : Env K V) : ASys K V → List (Op K V) → Prop
  | _, [] => True
  | a, op :: ops => Nested a op ∧ NestedAll env (aStep env a op).1 ops

/-- The contract of `eql?` and `hash`; for an immediate, `eql?` is identity. -/
structure Contract (env : Env K V) : Prop where
  refl : ∀ a, env.eqb a a = true
  symm : ∀ a b, env.eqb a b = true → env.eqb b a = true
  trans : ∀ a b c, env.eqb a b = true → env.eqb b c = true → env.eqb a c = true
  hash : ∀ a b, env.eqb a b = true → env.hash a = env.hash b
  packed : ∀ a b, env.packed a = true → env.eqb a b = true → a = b

/-- An empty Hash. -/
def aNew : ASys K V := ⟨[], false, none, []⟩

end Verif.Hash
