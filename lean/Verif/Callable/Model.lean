/-!
# Composition and currying of callables

/repo/monoruby/builtins/proc.rb, builtins/method.rb, src/builtins/proc.rs:64-250,
src/globals/store/function.rs:1419-1445.

`V` are values, `S` Symbols.  Simplifications for the whole file: blocks given to a call are not
modelled (they are handed on), and what a callable does is a function of its arguments.
-/

namespace Verif.Callable

variable {V S : Type}

/-- The arguments of a call. -/
structure Args (V S : Type) where
  pos : List V
  kw : List (S × V) := []

inductive Kind where
  | proc
  | lambda
  | method
  /-- an object with `call` -/
  | other
  deriving DecidableEq

structure Fn (V S : Type) where
  kind : Kind
  call : Args V S → V

def Kind.isLambda : Kind → Bool
  | .proc => false
  | _ => true

/-- What `|*a, &b|` followed by `f.call(*a, &b)` hands on: the keywords have become a Hash at the end.
`hash` makes the Hash.  builtins/proc.rb:8, 10, 20, 22; the packing of keywords into `*a` is
src/codegen/runtime/args.rs (Verif/Args) -/
def viaRest (hash : List (S × V) → V) (a : Args V S) : Args V S :=
  ⟨a.pos ++ (if a.kw.isEmpty then [] else [hash a.kw]), []⟩

/-- `f >> g` for a Proc or a Method `f`; `none` for a `g` without `call` (TypeError).
builtins/proc.rb:2-12, builtins/method.rb:2-8 -/
def right (hash : List (S × V) → V) (f : Fn V S) (g : Option (Fn V S)) : Option (Fn V S) :=
  g.map fun g => {
    kind := if f.kind.isLambda then .lambda else .proc
    call := fun a => g.call ⟨[f.call (viaRest hash a)], []⟩ }

/-- `f << g`.  builtins/proc.rb:14-24, builtins/method.rb:10-20 -/
def left (hash : List (S × V) → V) (f : Fn V S) (g : Option (Fn V S)) : Option (Fn V S) :=
  g.map fun g => {
    kind := if g.kind = .proc then .proc else .lambda
    call := fun a => f.call ⟨[g.call (viaRest hash a)], []⟩ }

/-! ## arity and curry -/

/-- The parameters of a Proc: required positional ones, optional ones, whether there is a `*rest`, the number
of required keywords and whether there are other keywords or `**rest`. -/
structure Params where
  req : Nat
  opt : Nat := 0
  rest : Bool := false
  reqKw : Nat := 0
  otherKw : Bool := false
  lambda : Bool

/-- `Proc#arity`.  src/globals/store/function.rs:1419-1445 -/
def arity (p : Params) : Int :=
  let req : Int := p.req + (if p.reqKw > 0 then 1 else 0)
  let varying :=
    if !p.lambda then p.rest
    else decide (p.opt > 0) || p.rest || ((decide (p.reqKw > 0) || p.otherKw) && !decide (p.reqKw > 0))
  if varying then -(req + 1) else req

/-- A Proc after `curry`: the original one, or one that collects arguments. -/
inductive Curry (V : Type) where
  | orig
  | collecting (got : List V) (n : Nat)
  deriving DecidableEq

/-- `curry` and `curry(n)`; `none` is ArgumentError.  src/builtins/proc.rs:172-212 -/
def curry (p : Params) (given : Option Int) : Option (Curry V) :=
  let n : Int := given.getD (arity p)
  let n := if n < 0 then -n - 1 else n
  if p.lambda && (decide (n < p.req) || (!p.rest && decide (n > p.req + p.opt))) then none
  else if n ≤ 0 then some .orig
  else some (.collecting [] n.toNat)

/-- The outcome of calling a curried Proc: another one, or the original called with these arguments. -/
inductive Res (V : Type) where
  | more (c : Curry V)
  | called (args : List V)
  deriving DecidableEq

/-- Calling it.  src/builtins/proc.rs:219-250 -/
def call (c : Curry V) (args : List V) : Res V :=
  match c with
  | .orig => .called args
  | .collecting got n =>
    let all := got ++ args
    if all.length ≥ n then .called all else .more (.collecting all n)

/-- Calling it again and again until the original is called; the calls left over are returned. -/
def calls (c : Curry V) : List (List V) → Res V × List (List V)
  | [] => (.more c, [])
  | a :: rest => match call c a with
    | .called args => (.called args, rest)
    | .more c' => calls c' rest

end Verif.Callable
