import Mathlib.Logic.Function.Basic

/-!
# Enumerable

`monoruby/builtins/enumerable.rb`: the methods any class with `each` gets.  A source is the list of
the values its `each` yields; a method is a block that changes local variables and may leave the
walk (`break` or `return`).

Simplifications: every yield has one value (`__gather_each` is then `each`); blocks are functions.
-/

namespace Verif.Enumer

/-- `each` with a block that answers whether it leaves: the locals afterwards, how many values were
taken, whether the block left -/
def each {S V : Type} (body : S → V → S × Bool) : S → List V → S × Nat × Bool
  | s, [] => (s, 0, false)
  | s, v :: vs =>
    match body s v with
    | (s', true) => (s', 1, true)
    | (s', false) =>
      match each body s' vs with
      | (t, n, b) => (t, n + 1, b)

variable {V : Type}

/-- a block that never leaves -/
def go {S : Type} (f : S → V → S) (s : S) (xs : List V) : S := (each (fun s v => (f s v, false)) s xs).1

/-! ## Arrays from a walk -/

/-- `map`, enumerable.rb:135-148 -/
def map {U : Type} (f : V → U) (xs : List V) : List U := go (fun res x => res ++ [f x]) [] xs

/-- `filter`, 188-197 -/
def filter (p : V → Bool) (xs : List V) : List V := go (fun res x => if p x then res ++ [x] else res) [] xs

/-- `reject`, 704-711 -/
def reject (p : V → Bool) (xs : List V) : List V := go (fun res x => if p x then res else res ++ [x]) [] xs

/-- `filter_map`, 201-209 -/
def filterMap {U : Type} (f : V → Option U) (xs : List V) : List U :=
  go (fun res x => match f x with | some y => res ++ [y] | none => res) [] xs

/-- `flat_map`, 371-392; `inr` for an Array -/
def flatMap {U : Type} (f : V → U ⊕ List U) (xs : List V) : List U :=
  go (fun res x => match f x with | .inr a => res ++ a | .inl r => res ++ [r]) [] xs

/-- `partition`, 890-903 -/
def partition (p : V → Bool) (xs : List V) : List V × List V :=
  go (fun (y, n) x => if p x then (y ++ [x], n) else (y, n ++ [x])) ([], []) xs

/-- `drop`, 252-265 -/
def drop (n : Nat) (xs : List V) : List V :=
  (go (fun (res, i) x => (if i ≥ n then res ++ [x] else res, i + 1)) ([], 0) xs).1

/-- `drop_while`, 221-234 -/
def dropWhile (p : V → Bool) (xs : List V) : List V :=
  (go (fun (res, dropping) x =>
    if dropping then (if p x then (res, true) else (res ++ [x], false)) else (res ++ [x], false)) ([], true) xs).1

/-- `inject` with a seed, 95; without one, 85-94 -/
def inject {A : Type} (f : A → V → A) (init : A) (xs : List V) : A := go f init xs

/-- `inject` without a seed, 85-94; `none` is `nil` -/
def inject1 (f : V → V → V) (xs : List V) : Option V :=
  go (fun acc x => match acc with | none => some x | some a => some (f a x)) none xs

/-! ## Walks that end early -/

/-- `find`, 152-164: what it found and how many values it took -/
def find (p : V → Bool) (xs : List V) : Option V × Nat :=
  match each (fun _ x => if p x then (some x, true) else (none, false)) none xs with
  | (r, n, _) => (r, n)

/-- `find_index` with a block or a value, 167-186 -/
def findIndex (p : V → Bool) (xs : List V) : Option Nat × Nat :=
  match each (fun (_, i) x => if p x then ((some i, i), true) else ((none, i + 1), false)) (none, 0) xs with
  | ((r, _), n, _) => (r, n)

/-- `any?`, 267-286, and `include?`, 635-638 -/
def any (p : V → Bool) (xs : List V) : Bool × Nat :=
  match each (fun _ x => if p x then (true, true) else (false, false)) false xs with
  | (r, n, _) => (r, n)

/-- `all?`, 713-727 -/
def all (p : V → Bool) (xs : List V) : Bool × Nat :=
  match each (fun _ x => if p x then (true, false) else (false, true)) true xs with
  | (r, n, _) => (r, n)

/-- `none?`, 288-307 -/
def none? (p : V → Bool) (xs : List V) : Bool × Nat :=
  match each (fun _ x => if p x then (false, true) else (true, false)) true xs with
  | (r, n, _) => (r, n)

/-- `one?`, 309-341; the locals: the count, and `false` returned -/
def one (p : V → Bool) (xs : List V) : Bool × Nat :=
  match each (fun n x => if p x then (n + 1, decide (n + 1 > 1)) else (n, false)) 0 xs with
  | (n, k, left) => (if left then false else n = 1, k)

/-- `take`, 237-250, and `first(n)`, 641-670 -/
def take (n : Nat) (xs : List V) : List V × Nat :=
  if n = 0 then ([], 0)
  else
    match each (fun res x => (res ++ [x], decide ((res ++ [x]).length ≥ n))) [] xs with
    | (r, k, _) => (r, k)

/-- `first` without an argument, 646-649 -/
def first1 (xs : List V) : Option V × Nat :=
  match each (fun _ x => (some x, true)) none xs with
  | (r, n, _) => (r, n)

/-- `take_while`, 211-219 -/
def takeWhile (p : V → Bool) (xs : List V) : List V × Nat :=
  match each (fun res x => if p x then (res ++ [x], false) else (res, true)) [] xs with
  | (r, n, _) => (r, n)

/-! ## Pieces -/

/-- the block of `each_slice(n)`, 106-112: what it yielded, and `slice` -/
def eachSliceStep (n : Nat) (st : List (List V) × List V) (x : V) : List (List V) × List V :=
  if (st.2 ++ [x]).length = n then (st.1 ++ [st.2 ++ [x]], []) else (st.1, st.2 ++ [x])

/-- what is left over is yielded last, 113 (and 1106, in `slice_after`) -/
def rest (st : List (List V) × List V) : List (List V) := if st.2 = [] then st.1 else st.1 ++ [st.2]

/-- `each_slice(n)`, 102-115: what it yields -/
def eachSlice (n : Nat) (xs : List V) : List (List V) := rest (go (eachSliceStep n) ([], []) xs)

/-- the block of `each_cons(n)`, 734-738 -/
def eachConsStep (n : Nat) (st : List (List V) × List V) (x : V) : List (List V) × List V :=
  let buf := st.2 ++ [x]
  let buf := if buf.length > n then buf.tail else buf
  (if buf.length = n then st.1 ++ [buf] else st.1, buf)

/-- `each_cons(n)`, 729-740 -/
def eachCons (n : Nat) (xs : List V) : List (List V) := (go (eachConsStep n) ([], []) xs).1

/-- the block of `chunk_while`, 470-481: `current` and `prev`, absent while `first` -/
def chunkWhileStep (p : V → V → Bool) (st : List (List V) × Option (List V × V)) (x : V) :
    List (List V) × Option (List V × V) :=
  match st.2 with
  | none => (st.1, some ([x], x))
  | some (current, prev) =>
    if p prev x then (st.1, some (current ++ [x], x)) else (st.1 ++ [current], some ([x], x))

/-- the block of `slice_when`, 494-505 -/
def sliceWhenStep (p : V → V → Bool) (st : List (List V) × Option (List V × V)) (x : V) :
    List (List V) × Option (List V × V) :=
  match st.2 with
  | none => (st.1, some ([x], x))
  | some (current, prev) =>
    if p prev x then (st.1 ++ [current], some ([x], x)) else (st.1, some (current ++ [x], x))

/-- `y << current unless first`, 483, 507 -/
def last2 (st : List (List V) × Option (List V × V)) : List (List V) :=
  match st.2 with
  | none => st.1
  | some (current, _) => st.1 ++ [current]

/-- `chunk_while`, 463-485 -/
def chunkWhile (p : V → V → Bool) (xs : List V) : List (List V) := last2 (go (chunkWhileStep p) ([], none) xs)

/-- `slice_when`, 487-508 -/
def sliceWhen (p : V → V → Bool) (xs : List V) : List (List V) := last2 (go (sliceWhenStep p) ([], none) xs)

/-- the block of `slice_before`, 1071-1078 -/
def sliceBeforeStep (p : V → Bool) (st : List (List V) × Option (List V)) (x : V) :
    List (List V) × Option (List V) :=
  if p x then (st.1 ++ st.2.toList, some [x]) else (st.1, some (st.2.getD [] ++ [x]))

/-- `slice_before`, 1054-1081 -/
def sliceBefore (p : V → Bool) (xs : List V) : List (List V) :=
  let st := go (sliceBeforeStep p) ([], none) xs
  st.1 ++ st.2.toList

/-- the block of `slice_after`, 1098-1104 -/
def sliceAfterStep (p : V → Bool) (st : List (List V) × List V) (x : V) : List (List V) × List V :=
  if p x then (st.1 ++ [st.2 ++ [x]], []) else (st.1, st.2 ++ [x])

/-- `slice_after`, 1086-1108 -/
def sliceAfter (p : V → Bool) (xs : List V) : List (List V) := rest (go (sliceAfterStep p) ([], []) xs)

/-- which boundary `slice_before` and `slice_after` use, 1058-1062 and 1072: with a pattern the
block is absent; the pattern is `none` when it is `nil`; `none` as a result is the NoMethodError of
calling the absent block -/
def boundary (blk : Option (V → Bool)) (pattern : Option (V → Bool)) : Option (V → Bool) :=
  match pattern with
  | none => blk
  | some m => some m

/-- a key of `chunk` -/
inductive Key (K : Type) where
  /-- `nil` or `:_separator` -/
  | drop
  /-- `:_alone` -/
  | alone
  | key (k : K)
deriving DecidableEq

/-- `y << [current_key, current_ary] unless first` in `chunk`, 431-432, 437, 459 -/
def flush {K : Type} (out : List (Option K × List V)) (cur : Option (K × List V)) : List (Option K × List V) :=
  match cur with
  | some (k, a) => out ++ [(some k, a)]
  | none => out

/-- the block of `chunk`, 422-457, with keys that are not reserved Symbols; `none` for `:_alone` -/
def chunkStep {K : Type} [DecidableEq K] (f : V → Key K)
    (st : List (Option K × List V) × Option (K × List V)) (x : V) :
    List (Option K × List V) × Option (K × List V) :=
  match f x with
  | .drop => (flush st.1 st.2, none)
  | .alone => (flush st.1 st.2 ++ [(none, [x])], none)
  | .key k =>
    match st.2 with
    | none => (st.1, some (k, [x]))
    | some (k', a) => if k = k' then (st.1, some (k', a ++ [x])) else (st.1 ++ [(some k', a)], some (k, [x]))

/-- `chunk`, 410-460 -/
def chunk {K : Type} [DecidableEq K] (f : V → Key K) (xs : List V) : List (Option K × List V) :=
  let st := go (chunkStep f) ([], none) xs
  flush st.1 st.2

/-! ## Tables -/

/-- `h[k] = f(h[k])` in a Hash, which keeps its order -/
def upd {K X : Type} [DecidableEq K] (k : K) (f : Option X → X) : List (K × X) → List (K × X)
  | [] => [(k, f none)]
  | (k', x) :: h => if k' = k then (k', f (some x)) :: h else (k', x) :: upd k f h

/-- `h[k]` -/
def look {K X : Type} [DecidableEq K] (k : K) : List (K × X) → Option X
  | [] => none
  | (k', x) :: h => if k' = k then some x else look k h

/-- `group_by`, 534-542 -/
def groupBy {K : Type} [DecidableEq K] (f : V → K) (xs : List V) : List (K × List V) :=
  go (fun h x => upd (f x) (fun o => o.getD [] ++ [x]) h) [] xs

/-- `tally`, 395-408 -/
def tally [DecidableEq V] (xs : List V) : List (V × Nat) :=
  go (fun h x => upd x (fun o => o.getD 0 + 1) h) [] xs

/-- `count` with a block, 594-596 -/
def count (p : V → Bool) (xs : List V) : Nat := go (fun n x => if p x then n + 1 else n) 0 xs

/-! ## Extremes -/

variable {K : Type} [LT K] [DecidableLT K]

/-- the block `min_by` walks with: the least so far and what the block said of it -/
def minStep (f : V → K) (cur : Option (V × K)) (x : V) : Option (V × K) :=
  match cur with
  | none => some (x, f x)
  | some c => if f x < c.2 then some (x, f x) else some c

/-- the block `max_by` walks with -/
def maxStep (f : V → K) (cur : Option (V × K)) (x : V) : Option (V × K) :=
  match cur with
  | none => some (x, f x)
  | some c => if c.2 < f x then some (x, f x) else some c

/-- the block `minmax_by` walks with -/
def minmaxStep (f : V → K) (cur : Option ((V × K) × (V × K))) (x : V) : Option ((V × K) × (V × K)) :=
  match cur with
  | none => some ((x, f x), (x, f x))
  | some c => some (if f x < c.1.2 then (x, f x) else c.1, if c.2.2 < f x then (x, f x) else c.2)

/-- `min_by`, 343-369, and `min`, 742-774 -/
def minBy (f : V → K) (xs : List V) : Option V := (go (minStep f) none xs).map Prod.fst

/-- `max_by`, 563-589, and `max`, 776-808 -/
def maxBy (f : V → K) (xs : List V) : Option V := (go (maxStep f) none xs).map Prod.fst

/-- `minmax_by`, 907-932, and `minmax` with a block, 810-830 -/
def minmaxBy (f : V → K) (xs : List V) : Option (V × V) :=
  (go (minmaxStep f) none xs).map fun c => (c.1.1, c.2.1)

/-- `minmax` without a block, 831-832: `[min, max]`, a walk for each; `walks i` is what the `i`th
walk of the source yields -/
def minmax (walks : Nat → List K) : Option K × Option K := (minBy id (walks 0), maxBy id (walks 1))

/-! ## zip and cycle -/

/-- `zip` with one argument that has `each`, 510-532: the rows, and how many values of the argument
were taken -/
def zip (xs other : List V) : List (V × Option V) × Nat :=
  let oa := go (fun res x => res ++ [x]) [] other
  (go (fun (res, i) x => (res ++ [(x, oa[i]?)], i + 1)) ([], 0) xs |>.1, (each (fun res x => (res ++ [x], false)) [] other).2.1)

/-- `cycle(n)`, 975-994: what it yields -/
def cycle (n : Int) (xs : List V) : List V :=
  if n ≤ 0 then []
  else
    match go (fun (cache, out) x => (cache ++ [x], out ++ [x])) ([], []) xs with
    | (cache, out) => if cache = [] then out else Nat.rec out (fun _ o => o ++ cache) (n - 1).toNat

/-! ## sum -/

/-- Floats that are whole numbers, small enough to be exact, infinite or NaN -/
inductive Fl where
  | fin (q : Int)
  | inf (neg : Bool)
  | nan
deriving DecidableEq

/-- IEEE addition -/
def Fl.add : Fl → Fl → Fl
  | .fin a, .fin b => .fin (a + b)
  | .nan, _ => .nan
  | _, .nan => .nan
  | .inf a, .inf b => if a = b then .inf a else .nan
  | .inf a, .fin _ => .inf a
  | .fin _, .inf b => .inf b

/-- IEEE subtraction -/
def Fl.sub (a b : Fl) : Fl :=
  a.add (match b with | .fin q => .fin (-q) | .inf n => .inf (!n) | .nan => .nan)

/-- the lambda `add` of `sum` for Floats, 605-619 -/
def kahan (s : Fl × Fl) (v : Fl) : Fl × Fl :=
  let y := v.sub s.2
  let t := s.1.add y
  (t, (t.sub s.1).sub y)

/-- `sum` of Floats, 602-627 -/
def sum (xs : List Fl) : Fl := (go kahan (.fin 0, .fin 0) xs).1

end Verif.Enumer
