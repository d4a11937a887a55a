import Mathlib.Logic.Function.Basic

/-!
# Lazy enumerators

`monoruby/builtins/lazy.rb`.  A chain is nested block calls on one stack: each stage walks the stage
before it with a block, and `break` unwinds to the stage that broke, whose body ends, so that the
whole walk ends.  The model: a stage is handed one value and the rest of the chain (`next`), and
answers whether the walk is over.

Simplifications: every source yield has one value (`__lazy_pack` is then the identity); blocks
return and do not raise; `zip` is with Arrays.  `S` is everything blocks can change.
-/

namespace Verif.Lazy

/-- the constructors of values that stages use: `nil`, Arrays and Integers -/
structure Mk (V : Type) where
  nil : V
  arr : List V → V
  int : Int → V

/-- a stage of a chain with its blocks, which read and change `S` -/
inductive Stage (V S : Type) where
  /-- `map`, lazy.rb:102-106 -/
  | map (f : V → S → V × S)
  /-- `flat_map`, lazy.rb:109-122; `inr` when the block's value is an Array (or lazy) -/
  | flatMap (f : V → S → (V ⊕ List V) × S)
  /-- `select`, lazy.rb:125-131 -/
  | select (f : V → S → Bool × S)
  /-- `reject`, lazy.rb:135-141 -/
  | reject (f : V → S → Bool × S)
  /-- `filter_map`, lazy.rb:143-149; `none` for a falsy value -/
  | filterMap (f : V → S → Option V × S)
  /-- `grep` with `pattern ===` and its block (the identity if there is none), lazy.rb:151-161 -/
  | grep (p : V → S → Bool × S) (f : V → S → V × S)
  /-- `grep_v`, lazy.rb:163-170 -/
  | grepV (p : V → S → Bool × S) (f : V → S → V × S)
  /-- `compact`, lazy.rb:172-177 -/
  | compact
  /-- `uniq` with its block (the identity if there is none), lazy.rb:179-192 -/
  | uniq (f : V → S → V × S)
  /-- `take`, lazy.rb:194-219 -/
  | take (n : Nat)
  /-- `take_while`, lazy.rb:221-230 -/
  | takeWhile (f : V → S → Bool × S)
  /-- `drop`, lazy.rb:232-252 -/
  | drop (n : Nat)
  /-- `drop_while`, lazy.rb:254-267 -/
  | dropWhile (f : V → S → Bool × S)
  /-- `with_index` with a block, lazy.rb:273-289 -/
  | eachIndex (off : Int) (f : V → Int → S → S)
  /-- `with_index` without a block, lazy.rb:273-289 -/
  | withIndex (off : Int)
  /-- `zip` with Arrays, lazy.rb:291-327 -/
  | zip (ls : List (List V))

/-- the local variables of a stage's body: `taken`, `seen` (of `drop`) and `i` are counters, `seen`
of `uniq` is a Hash, `dropping` is a flag -/
structure Loc (V : Type) where
  n : Nat
  seen : List V
  dropping : Bool

/-- the locals when a walk begins -/
def Loc.init {V : Type} : Loc V := ⟨0, [], true⟩

variable {V S : Type} [DecidableEq V] (mk : Mk V)

/-- walking values with a block until it breaks: `each` -/
def eachAll {R : Type} (next : R → V → S → R × S × Bool) : List V → R → S → R × S × Bool
  | [], r, s => (r, s, false)
  | v :: vs, r, s =>
    match next r v s with
    | (r', s', true) => (r', s', true)
    | (r', s', false) => eachAll next vs r' s'

/-- `y << v` from a stage with locals `l` -/
def emit {R : Type} (next : R → V → S → R × S × Bool) (l : Loc V) (r : R) (v : V) (s : S) :
    (Loc V × R) × S × Bool :=
  match next r v s with
  | (r', s', b) => ((l, r'), s', b)

/-- nothing goes on -/
def skip {R : Type} (l : Loc V) (r : R) (s : S) : (Loc V × R) × S × Bool := ((l, r), s, false)

/-- one value through one stage -/
def step {R : Type} (next : R → V → S → R × S × Bool) :
    Stage V S → Loc V × R → V → S → (Loc V × R) × S × Bool
  | .map f, (l, r), v, s => emit next l r (f v s).1 (f v s).2
  | .flatMap f, (l, r), v, s =>
    match f v s with
    | (.inl w, s') => emit next l r w s'
    | (.inr ws, s') =>
      match eachAll next ws r s' with
      | (r', s'', b) => ((l, r'), s'', b)
  | .select f, (l, r), v, s => if (f v s).1 then emit next l r v (f v s).2 else skip l r (f v s).2
  | .reject f, (l, r), v, s => if (f v s).1 then skip l r (f v s).2 else emit next l r v (f v s).2
  | .filterMap f, (l, r), v, s =>
    match f v s with
    | (some w, s') => emit next l r w s'
    | (none, s') => skip l r s'
  | .grep p f, (l, r), v, s =>
    if (p v s).1 then emit next l r (f v (p v s).2).1 (f v (p v s).2).2 else skip l r (p v s).2
  | .grepV p f, (l, r), v, s =>
    if (p v s).1 then skip l r (p v s).2 else emit next l r (f v (p v s).2).1 (f v (p v s).2).2
  | .compact, (l, r), v, s => if v = mk.nil then skip l r s else emit next l r v s
  | .uniq f, (l, r), v, s =>
    if (f v s).1 ∈ l.seen then skip l r (f v s).2
    else emit next { l with seen := (f v s).1 :: l.seen } r v (f v s).2
  | .take n, (l, r), v, s =>
    match next r v s with
    | (r', s', true) => ((l, r'), s', true)
    | (r', s', false) => (({ l with n := l.n + 1 }, r'), s', decide (l.n + 1 ≥ n))
  | .takeWhile f, (l, r), v, s =>
    if (f v s).1 then emit next l r v (f v s).2 else ((l, r), (f v s).2, true)
  | .drop n, (l, r), v, s =>
    if l.n ≥ n then emit next { l with n := l.n + 1 } r v s else skip { l with n := l.n + 1 } r s
  | .dropWhile f, (l, r), v, s =>
    if l.dropping then
      if (f v s).1 then skip l r (f v s).2 else emit next { l with dropping := false } r v (f v s).2
    else emit next l r v s
  | .eachIndex off f, (l, r), v, s =>
    emit next { l with n := l.n + 1 } r v (f v (off + l.n) s)
  | .withIndex off, (l, r), v, s =>
    emit next { l with n := l.n + 1 } r (mk.arr [v, mk.int (off + l.n)]) s
  | .zip ls, (l, r), v, s =>
    emit next { l with n := l.n + 1 } r (mk.arr (v :: ls.map (·.getD l.n mk.nil))) s

/-- the locals of all stages of a chain -/
def Locs (V : Type) : Nat → Type
  | 0 => Unit
  | n + 1 => Loc V × Locs V n

/-- all locals when a walk begins -/
def Locs.init {V : Type} : (n : Nat) → Locs V n
  | 0 => ()
  | n + 1 => (Loc.init, Locs.init n)

/-- one value of the source through the whole chain, into the block `k` of the consumer, which
answers whether it breaks -/
def push (k : V → S → S × Bool) : (sts : List (Stage V S)) → Locs V sts.length → V → S →
    Locs V sts.length × S × Bool
  | [], r, v, s => (r, k v s)
  | st :: sts, r, v, s => step mk (push k sts) st r v s

/-- `take(0)` walks nothing, lazy.rb:210 -/
def Stage.isTake0 : Stage V S → Bool
  | .take 0 => true
  | _ => false

/-- the walk of the source by a chain with a consumer; the source is given by its values, of which
the walk takes some; the result: what blocks and consumer left, how many values were taken, and
whether something broke -/
def walk (k : V → S → S × Bool) (sts : List (Stage V S)) :
    List V → Locs V sts.length → S → S × Nat × Bool
  | [], _, s => (s, 0, false)
  | v :: vs, r, s =>
    match push mk k sts r v s with
    | (_, s', true) => (s', 1, true)
    | (r', s', false) =>
      match walk k sts vs r' s' with
      | (s'', n, b) => (s'', n + 1, b)

/-- `each` on a chain, with a block -/
def run (k : V → S → S × Bool) (sts : List (Stage V S)) (src : List V) (s : S) : S × Nat × Bool :=
  if sts.any Stage.isTake0 then (s, 0, false) else walk mk k sts src (Locs.init _) s

/-- `to_a`, enumerable.rb:672-681: the consumer pushes; the world and the Array -/
def toA {W : Type} (sts : List (Stage V (W × List V))) (src : List V) (w : W) : W × List V :=
  (run mk (fun v s => ((s.1, s.2 ++ [v]), false)) sts src (w, [])).1

/-- `first(n)`, enumerable.rb:641-670, and `Enumerable#take`, 237-250: with `n = 0` nothing is
walked; the world, the Array, and how much of the source was taken -/
def first {W : Type} (n : Nat) (sts : List (Stage V (W × List V))) (src : List V) (w : W) :
    (W × List V) × Nat :=
  if n = 0 then ((w, []), 0)
  else
    match run mk (fun v s => ((s.1, s.2 ++ [v]), decide ((s.2 ++ [v]).length ≥ n))) sts src (w, []) with
    | (s, c, _) => (s, c)

/-- a size: `nil`, infinite or a number -/
inductive Size where
  | unknown
  | inf
  | num (n : Nat)
deriving DecidableEq

/-- `size` of a stage from the size of the stage before: `map` lazy.rb:105, `take` 201-208, `drop`
237-244, `zip` 306; the other stages have none -/
def Stage.size : Stage V S → Size → Size
  | .map _, z => z
  | .zip _, z => z
  | .take n, z =>
    match z with
    | .unknown => .unknown
    | .num m => if m < n then .num m else .num n
    | .inf => .num n
  | .drop n, z =>
    match z with
    | .unknown => .unknown
    | .inf => .inf
    | .num m => .num (m - n)
  | _, _ => .unknown

/-- `size` of a chain -/
def size (sts : List (Stage V S)) (z : Size) : Size := sts.foldl (fun z st => st.size z) z

end Verif.Lazy
