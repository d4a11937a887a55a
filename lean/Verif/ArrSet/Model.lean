/-!
# Arrays as sets and tables

/repo/monoruby/src/builtins/array.rs, /repo/monoruby/src/value/rvalue/array.rs,
/repo/monoruby/builtins/array.rb

`cls v` stands for the class of `v` under `eql?` with a `hash` that agrees, as in `Verif.SetAlg`; it may raise
where that matters.  Left out: arrays that contain themselves, conversions (`to_ary`), frozen receivers, and
callbacks that change the array.
-/

namespace Verif.ArrSet

variable {V K E σ : Type} [DecidableEq K]

/-! ### Removing in place -/

/-- `slice::swap` -/
def swap (l : List V) (i j : Nat) : List V :=
  match l[i]?, l[j]? with
  | some a, some b => (l.set i b).set j a
  | _, _ => l

/-- The loop of `retain`: `n` elements to go, `i` the place, `del` how many were removed, `f` the test with
its state.  What is returned besides the array is the last element removed.  value/rvalue/array.rs:256-278 -/
def retain (f : σ → V → Except E (Bool × σ)) : Nat → List V → Nat → Nat → Option V → σ →
    List V × Except E (Option V)
  | 0, xs, _, del, removed, _ => (if del > 0 then xs.take (xs.length - del) else xs, .ok removed)
  | n + 1, xs, i, del, removed, s =>
    match xs[i]? with
    | none => (xs, .ok removed)
    | some v =>
      match f s v with
      | .error e => (xs, .error e)
      | .ok (true, s) => retain f n (if del > 0 then swap xs (i - del) i else xs) (i + 1) del removed s
      | .ok (false, s) => retain f n xs (i + 1) (del + 1) (some v) s

/-- `RubySet::insert`: true if it was not there. -/
def insert (s : List K) (k : K) : Bool × List K := if s.contains k then (false, s) else (true, s ++ [k])

/-- `Array::uniq`.  value/rvalue/array.rs:55-72 -/
def uniqIn (cls : V → Except E K) (xs : List V) : List V × Except E (Option V) :=
  retain (fun s v => (cls v).map (insert s)) xs.length xs 0 0 none []

/-- `uniq!` without a block: the array and whether it returns itself.  array.rs:3901-3950 -/
def uniqBang (cls : V → Except E K) (xs : List V) : List V × Except E Bool :=
  let r := uniqIn cls xs
  (r.1, r.2.map Option.isSome)

/-- `uniq` with a block; `blk` gives the class of the block's value.  array.rs:3872-3898 -/
def uniqBlock (blk : V → Except E K) : List V → List K → List V → Except E (List V)
  | [], _, result => .ok result
  | x :: xs, h, result => do
    let k ← blk x
    let r := insert h k
    uniqBlock blk xs r.2 (if r.1 then result ++ [x] else result)

/-- `uniq!` with a block.  array.rs:3908-3941 -/
def uniqBangBlock (blk : V → Except E K) : Nat → List V → Nat → Nat → List K → List V × Except E Bool
  | 0, xs, _, del, _ => (if del > 0 then xs.take (xs.length - del) else xs, .ok (del > 0))
  | n + 1, xs, i, del, h =>
    match xs[i]? with
    | none => (xs, .ok (del > 0))
    | some v =>
      match blk v with
      | .error e => (xs, .error e)
      | .ok k =>
        let r := insert h k
        if r.1 then uniqBangBlock blk n (if del > 0 then xs.set (i - del) v else xs) (i + 1) del r.2
        else uniqBangBlock blk n xs (i + 1) (del + 1) r.2

/-! ### Set operations -/

/-- The set of an array's elements. -/
def setOf (cls : V → K) (ys : List V) : List K := ys.foldl (fun s y => (insert s (cls y)).2) []

/-- A copy without repetitions. -/
def uniq (cls : V → K) (xs : List V) : List V := (uniqIn (E := Empty) (fun v => .ok (cls v)) xs).1

/-- `retain` with a test that neither raises nor has a state. -/
def retainPure (p : V → Bool) (xs : List V) : List V × Option V :=
  match retain (E := Empty) (fun (_ : Unit) v => .ok (p v, ())) xs.length xs 0 0 none () with
  | (ys, .ok r) => (ys, r)

/-- `Array#-`.  array.rs:720-738 -/
def sub (cls : V → K) (xs ys : List V) : List V :=
  let set := setOf cls ys
  xs.foldl (fun v x => if set.contains (cls x) then v else v ++ [x]) []

/-- `Array#&`.  array.rs:825-841 -/
def and (cls : V → K) (xs ys : List V) : List V :=
  (retainPure (fun x => (setOf cls ys).contains (cls x)) (uniq cls xs)).1

/-- `Array#|`.  array.rs:849-860 -/
def or (cls : V → K) (xs ys : List V) : List V := uniq cls (xs ++ ys)

/-- `Array#union`.  array.rs:3729-3743 -/
def union (cls : V → K) (xs : List V) (others : List (List V)) : List V :=
  uniq cls (others.foldl (· ++ ·) xs)

/-- `Array#difference`.  array.rs:3751-3780 -/
def difference (cls : V → K) (xs : List V) (others : List (List V)) : List V :=
  xs.foldl (fun v x => if others.any (fun o => o.any fun y => cls x = cls y) then v else v ++ [x]) []

/-- `Array#intersection`.  array.rs:3788-3823 -/
def intersection (cls : V → K) (xs : List V) (others : List (List V)) : List V :=
  let sets := others.map (setOf cls)
  (retainPure (fun x => sets.all (·.contains (cls x))) (uniq cls xs)).1

/-- `Array#intersect?`.  array.rs:3831-3849 -/
def intersects (cls : V → K) (xs ys : List V) : Bool := ys.any fun y => xs.any fun x => cls x = cls y

/-- `Array#delete` without a block; `eq` is `==` with the argument.  array.rs:4648-4669 -/
def delete (eq : V → Bool) (xs : List V) : List V × Option V :=
  if xs.any eq then retainPure (fun v => !eq v) xs else (xs, none)

/-- `Array#compact!`: the array and whether it returns itself.  array.rs:4275-4282 -/
def compactBang (xs : List (Option V)) : List (Option V) × Bool :=
  let r := retainPure Option.isSome xs
  (r.1, r.2.isSome)

/-! ### Tables -/

/-- One row of the result of `transpose`; none is the IndexError. -/
def column (rows : List (List V)) (len i : Nat) : Option (List V) :=
  rows.mapM fun row => if row.length ≠ len then none else row[i]?

/-- `Array#transpose`.  array.rs:3536-3561 -/
def transpose (rows : List (List V)) : Option (List (List V)) :=
  match rows with
  | [] => some []
  | r :: _ => (List.range r.length).mapM (column rows r.length)

/-- `Array#__zip_pull`: the first `n` of what `each` yields (an `each` that ends by itself).
builtins/array.rb:680-690 -/
def zipPull (n : Nat) : List V → List V → List V
  | [], buf => buf
  | x :: rest, buf =>
    let buf := buf ++ [x]
    if buf.length ≥ n then buf else zipPull n rest buf

/-- An argument of `zip`: an Array, or something with `each`. -/
inductive ZipArg (V : Type) where
  | arr (ys : List V)
  | each (ys : List V)

/-- `Array#zip`, also the rows given to a block.  array.rs:1794-1862 -/
def zip (nil : V) (xs : List V) (args : List (ZipArg V)) : List (List V) :=
  let args := args.map fun
    | .arr ys => ys
    | .each ys => if xs.length = 0 then [] else zipPull xs.length ys []
  (xs.zipIdx).map fun (x, i) => x :: args.map fun a => if i < a.length then a[i]?.getD nil else nil

/-- `self[i]` for an Integer. -/
def at' (nil : V) (xs : List V) (i : Int) : V :=
  let j := if i < 0 then i + xs.length else i
  if j < 0 then nil else xs[j.toNat]?.getD nil

inductive Sel where
  | idx (i : Int)
  | rng (b e : Option Int) (excl : Bool)

/-- `while i <= e`, `n` times at most. -/
def walk (nil : V) (xs : List V) (e : Int) : Nat → Int → List V
  | 0, _ => []
  | n + 1, i => if i ≤ e then at' nil xs i :: walk nil xs e n (i + 1) else []

/-- `Array#values_at`.  builtins/array.rb:649-672 -/
def valuesAt1 (nil : V) (xs : List V) : Sel → List V
  | .idx i => [at' nil xs i]
  | .rng b e excl =>
    let b := b.getD 0
    let last := e.getD (xs.length - 1)
    let b := if b < 0 then b + xs.length else b
    let last := if last < 0 then last + xs.length else last
    let last := if e.isSome ∧ excl then last - 1 else last
    if b < 0 then [] else walk nil xs last (last - b + 1).toNat b

def valuesAt (nil : V) (xs : List V) (sels : List Sel) : List V := (sels.map (valuesAt1 nil xs)).flatten

/-- `Array#<=>`; `c` is the elements' `<=>`, `zero` what is the Integer 0.  array.rs:1183-1227 -/
def cmp {R : Type} (zero : R → Bool) (ofInt : Int → R) (c : V → V → R) : List V → List V → R
  | [], [] => ofInt 0
  | [], _ :: _ => ofInt (-1)
  | _ :: _, [] => ofInt 1
  | x :: xs, y :: ys => if zero (c x y) then cmp zero ofInt c xs ys else c x y

/-- `Array#rindex` with a value; `n` is `i + 1`.  builtins/array.rb:493-504 -/
def rindex (eq : V → Bool) (xs : List V) : Nat → Option Nat
  | 0 => none
  | n + 1 => match xs[n]? with
    | some v => if eq v then some n else rindex eq xs n
    | none => rindex eq xs n

end Verif.ArrSet
