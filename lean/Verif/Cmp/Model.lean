/-!
# Comparable

Model of `monoruby/builtins/comparable.rb` (all of it) and of the dispatch of `!=` in
`monoruby/src/executor/op.rs:335-356`.

The class that includes Comparable is a type of objects with its `<=>` given from outside: it may
give `nil`, a number, something else, or raise.  Numbers given by `<=>` are Integers (a Float given
by `<=>` is not modelled).
-/

namespace Verif.Cmp

/-- The kinds of exception that matter here: comparable.rb:5-7 rescues the first two. -/
inductive Exc where
  | argument
  | noMethod
  | type
  | user
deriving DecidableEq, Repr

/-- What `a <=> b` can do: comparable.rb:8-14 tells these apart. -/
inductive R where
  | nil
  | num (i : Int)
  | other
  | raises (e : Exc)
deriving DecidableEq, Repr

/-- A call's outcome. -/
inductive Out (α : Type) where
  | ok (a : α)
  | err (e : Exc)
deriving DecidableEq, Repr

/-- `res.nil?` raises, a number is given to `f`, anything else raises
(comparable.rb:20-26, and the same text in each operator, 30-72). -/
def onNum (r : R) (f : Int → Bool) : Out Bool :=
  match r with
  | .nil => .err .argument
  | .num i => .ok (f i)
  | .other => .err .argument
  | .raises e => .err e

variable {V : Type}

/-- `Comparable#==` (comparable.rb:2-16); `same` is `equal?`. -/
def eq (cmp : V → V → R) (same : V → V → Bool) (a b : V) : Out Bool :=
  if same a b then .ok true
  else match cmp a b with
    | .raises .noMethod => .ok false
    | .raises .argument => .ok false
    | .raises e => .err e
    | .nil => .ok false
    | .num i => .ok (i == 0)
    | .other => .err .argument

/-- `Comparable#!=` (comparable.rb:18-27). -/
def ne (cmp : V → V → R) (a b : V) : Out Bool := onNum (cmp a b) (fun i => i != 0)

/-- `Comparable#>=` (comparable.rb:29-38). -/
def ge (cmp : V → V → R) (a b : V) : Out Bool := onNum (cmp a b) (fun i => decide (0 ≤ i))

/-- `Comparable#>` (comparable.rb:40-49). -/
def gt (cmp : V → V → R) (a b : V) : Out Bool := onNum (cmp a b) (fun i => decide (0 < i))

/-- `Comparable#<=` (comparable.rb:51-60). -/
def le (cmp : V → V → R) (a b : V) : Out Bool := onNum (cmp a b) (fun i => decide (i ≤ 0))

/-- `Comparable#<` (comparable.rb:62-71). -/
def lt (cmp : V → V → R) (a b : V) : Out Bool := onNum (cmp a b) (fun i => decide (i < 0))

/-- `(x <=> y) op 0` written out in Ruby, as clamp and between? do (comparable.rb:95,97,104): `nil`
and most other objects have no such operator, so a NoMethodError comes. -/
def rawNum (r : R) (f : Int → Bool) : Out Bool :=
  match r with
  | .nil => .err .noMethod
  | .num i => .ok (f i)
  | .other => .err .noMethod
  | .raises e => .err e

/-- The arguments of `clamp`: none, one object, a Range, two objects (`none` is `nil`). -/
inductive ClampArg (V : Type) where
  | none
  | one (v : Option V)
  | range (b e : Option V) (excl : Bool)
  | two (lo hi : Option V)

/-- The check of the bounds against each other (comparable.rb:88-93); `cmp > 0` on an object that is
not a number raises NoMethodError. -/
def boundsOk (cmp : V → V → R) (lo hi : Option V) : Out Unit :=
  match lo, hi with
  | some l, some h =>
    match cmp l h with
    | .nil => .err .argument
    | .num i => if 0 < i then .err .argument else .ok ()
    | .other => .err .noMethod
    | .raises e => .err e
  | _, _ => .ok ()

/-- The upper bound's turn (comparable.rb:97-101). -/
def clampHi (cmp : V → V → R) (a : V) (hi : Option V) : Out V :=
  match hi with
  | none => .ok a
  | some h =>
    match rawNum (cmp a h) (fun i => decide (0 < i)) with
    | .ok true => .ok h
    | .ok false => .ok a
    | .err e => .err e

/-- The lower bound's turn (comparable.rb:95-101). -/
def clampLo (cmp : V → V → R) (a : V) (lo hi : Option V) : Out V :=
  match lo with
  | none => clampHi cmp a hi
  | some l =>
    match rawNum (cmp a l) (fun i => decide (i < 0)) with
    | .ok true => .ok l
    | .ok false => clampHi cmp a hi
    | .err e => .err e

/-- With both bounds in hand (comparable.rb:88-101). -/
def clampWith (cmp : V → V → R) (a : V) (lo hi : Option V) : Out V :=
  match boundsOk cmp lo hi with
  | .err e => .err e
  | .ok () => clampLo cmp a lo hi

/-- `Comparable#clamp` (comparable.rb:73-102). -/
def clamp (cmp : V → V → R) (a : V) (arg : ClampArg V) : Out V :=
  match arg with
  | .none => clampWith cmp a none none
  | .one v => clampWith cmp a v none
  | .two l h => clampWith cmp a l h
  | .range b e excl =>
    match e with
    | some h => if excl then .err .argument else clampWith cmp a b (some h)
    | none => clampWith cmp a b none

/-- `Comparable#between?` (comparable.rb:103-105). -/
def between (cmp : V → V → R) (a lo hi : V) : Out Bool :=
  match rawNum (cmp lo a) (fun i => decide (i ≤ 0)) with
  | .err e => .err e
  | .ok false => .ok false
  | .ok true => rawNum (cmp a hi) (fun i => decide (i ≤ 0))

/-- Where a class gets its `==` from. -/
inductive EqFrom (V : Type) where
  /-- Comparable's. -/
  | comparable
  /-- its own. -/
  | own (f : V → V → Out Bool)

/-- `a == b` by the class's method. -/
def eqOf (cmp : V → V → R) (same : V → V → Bool) (from_ : EqFrom V) (a b : V) : Out Bool :=
  match from_ with
  | .comparable => eq cmp same a b
  | .own f => f a b

/-- `a != b` of an object whose class has no `!=` of its own (op.rs:335-356): where Comparable is
among the ancestors the `!=` found is Comparable's, which is neither a basic operation nor
`BasicObject#!=` (store.rs:1243-1264), so it is called; else `==` is negated. -/
def neOf (cmp : V → V → R) (same : V → V → Bool) (includesComparable : Bool) (from_ : EqFrom V)
    (a b : V) : Out Bool :=
  if includesComparable then ne cmp a b
  else match eqOf cmp same from_ a b with
    | .ok r => .ok (!r)
    | .err e => .err e

end Verif.Cmp
