/-!
# Model of `combination`, `permutation`, `repeated_*` and `product`
(`/repo/monoruby/builtins/array.rb` l.281-325, l.369-450, l.556-646, `/repo/monoruby/src/builtins/array.rs` l.3666-3720)

The methods work on positions and yield the elements there.  `loop do … end` is a relation: a run that ends.
Without a block they return an Enumerator; only its `size` is modelled.
-/

namespace Verif.Arr

variable {α : Type}

/-- The states of a loop that starts with `a` and goes on with `next` until that is `r`. -/
inductive Loop {σ : Type} (next : σ → Option σ) : σ → List σ → Option σ → Prop
  | last {a r} (h : next a = r) : Loop next a [a] r
  | step {a b l r} (h : next a = some b) (t : Loop next b l r) : Loop next a (a :: l) r

/-- `indices.map { |i| pool[i] }`. -/
def pick [Inhabited α] (a : List α) (ix : List Nat) : List α := ix.map fun i => a.getD i default

/-! ## combination -/

/-- `i -= 1 while i >= 0 && indices[i] == len - n + i` (l.314); the argument is `i + 1`. -/
def combFind (len n : Nat) (ix : List Nat) : Nat → Option Nat
  | 0 => none
  | k + 1 => if ix.getD k 0 = len - n + k then combFind len n ix k else some k

/-- `(i + 1...n).each { |j| indices[j] = indices[j - 1] + 1 }` (l.317). -/
def combFill (n i : Nat) (ix : List Nat) : List Nat :=
  (List.range' (i + 1) (n - (i + 1))).foldl (fun ix j => ix.set j (ix.getD (j - 1) 0 + 1)) ix

/-- One round of the loop (l.310-318). -/
def combNext (len n : Nat) (ix : List Nat) : Option (List Nat) :=
  match combFind len n ix n with
  | none => none
  | some i => some (combFill n i (ix.set i (ix.getD i 0 + 1)))

/-- `combination(n) { … }` (l.301-321): what is yielded. -/
def Combination [Inhabited α] (a : List α) (n : Int) (out : List (List α)) : Prop :=
  if n = 0 then out = [[]]
  else if n = 1 then out = a.map fun x => [x]
  else if 0 < n ∧ n ≤ a.length then
    ∃ l, Loop (combNext a.length n.toNat) (List.range n.toNat) l none ∧ out = l.map (pick a)
  else out = []

/-! ## repeated_permutation -/

/-- The inner `while` loop (l.583-590); the last argument is `i + 1`. -/
def rpermScan (len : Nat) (ix : List Nat) : Nat → Option (List Nat)
  | 0 => none
  | k + 1 =>
    let v := ix.getD k 0 + 1
    if v < len then some (ix.set k v) else rpermScan len (ix.set k 0) k

/-- `repeated_permutation(n) { … }` (l.570-595). -/
def RepeatedPermutation [Inhabited α] (a : List α) (n : Int) (out : List (List α)) : Prop :=
  if n = 0 then out = [[]]
  else if a.length = 0 then out = []
  else if 0 < n then
    ∃ l, Loop (fun ix => rpermScan a.length ix n.toNat) (List.replicate n.toNat 0) l none ∧
      out = l.map (pick a)
  else out = []

/-! ## repeated_combination -/

/-- `((i + 1)...n).each { |j| indices[j] = indices[i] }` (l.636). -/
def rcombFill (n i : Nat) (ix : List Nat) : List Nat :=
  (List.range' (i + 1) (n - (i + 1))).foldl (fun ix j => ix.set j (ix.getD i 0)) ix

/-- The inner `while` loop (l.631-640). -/
def rcombScan (len n : Nat) (ix : List Nat) : Nat → Option (List Nat)
  | 0 => none
  | k + 1 =>
    let v := ix.getD k 0 + 1
    let ix := ix.set k v
    if v < len then some (rcombFill n k ix) else rcombScan len n ix k

/-- `repeated_combination(n) { … }` (l.618-645). -/
def RepeatedCombination [Inhabited α] (a : List α) (n : Int) (out : List (List α)) : Prop :=
  if n = 0 then out = [[]]
  else if n = 1 then out = a.map fun x => [x]
  else if 0 < a.length ∧ 0 < n then
    ∃ l, Loop (fun ix => rcombScan a.length n.toNat ix n.toNat) (List.replicate n.toNat 0) l none ∧
      out = l.map (pick a)
  else out = []

/-! ## permutation -/

/-- `tmp = indices[i]; (i...size - 1).each { |j| indices[j] = indices[j + 1] }; indices[size - 1] = tmp`
(l.408-411 with `n` for `size`, l.433-436). -/
def moveToEnd (size i : Nat) (ix : List Nat) : List Nat :=
  ((List.range' i (size - 1 - i)).foldl (fun ix j => ix.set j (ix.getD (j + 1) 0)) ix).set (size - 1)
    (ix.getD i 0)

/-- `indices[i], indices[j] = indices[j], indices[i]` with `j = -c` (l.414-415). -/
def swapEnd (i c : Nat) (ix : List Nat) : List Nat :=
  let j := ix.length - c
  (ix.set i (ix.getD j 0)).set j (ix.getD i 0)

/-- `(n - 1).downto(0)` (l.404-420, l.429-444); `size` is that of the receiver, `mv` the bound in `moveToEnd`, the last
argument is `i + 1`.  `cycles[i] = 0` does not occur, nor a `size` that is greater than the number of positions. -/
def permScan (mv size : Nat) (ix cy : List Nat) : Nat → Bool × List Nat × List Nat
  | 0 => (false, ix, cy)
  | i + 1 =>
    let c := cy.getD i 0 - 1
    if c = 0 then permScan mv size (moveToEnd mv i ix) (cy.set i (size - i)) i
    else (true, swapEnd i c ix, cy.set i c)

/-- The positions, the cycles, and the number of times the block was called. -/
abbrev PermState := List Nat × List Nat × Nat

/-- One round of `loop` (l.402-422, l.427-446).  `size` is read from the receiver each time: `sz k` is its size when the
block has been called `k` times. -/
def permNext (mv sz : Nat → Nat) (n : Nat) (s : PermState) : Option PermState :=
  match permScan (mv s.2.2) (sz s.2.2) s.1 s.2.1 n with
  | (true, ix, cy) => some (ix, cy, s.2.2 + 1)
  | (false, _) => none

/-- `(size.downto(size - n + 1)).to_a` (l.401, l.425). -/
def initCycles (size n : Nat) : List Nat := (List.range n).map (size - ·)

/-- `permutation(n) { … }` (l.392-449); `sz` as in `permNext`.  The cycles are set up behind the first call of the
block when `n` is the size (l.400-401), before it otherwise (l.425-426). -/
def Permutation [Inhabited α] (a : List α) (sz : Nat → Nat) (n : Int) (out : List (List α)) : Prop :=
  if n = 0 then out = [[]]
  else if n < 0 ∨ (a.length : Int) < n then out = []
  else if n = a.length then
    ∃ l : List PermState,
      Loop (permNext (fun _ => n.toNat) sz n.toNat) (List.range n.toNat, initCycles (sz 1) n.toNat, 1) l none ∧
      out = l.map fun s => pick a (s.1.take n.toNat)
  else
    ∃ l : List PermState,
      Loop (permNext sz sz n.toNat) (List.range a.length, initCycles a.length n.toNat, 1) l none ∧
      out = l.map fun s => pick a (s.1.take n.toNat)

/-! ## The size of the enumerators -/

/-- `combination(n).size` (l.287-299). -/
def combinationSize (len : Nat) (n : Int) : Nat :=
  if n < 0 ∨ (len : Int) < n then 0
  else if n = 0 then 1
  else
    let k := if n.toNat > len - n.toNat then len - n.toNat else n.toNat
    (List.range' 1 k).foldl (fun v i => v * (len - k + i) / i) 1

/-- `permutation(n).size` (l.378-389). -/
def permutationSize (len : Nat) (n : Int) : Nat :=
  if n < 0 ∨ (len : Int) < n then 0
  else if n = 0 then 1
  else (List.range n.toNat).foldl (fun v i => v * (len - i)) 1

/-- `repeated_permutation(n).size` (l.560-568). -/
def repeatedPermutationSize (len : Nat) (n : Int) : Nat :=
  if n < 0 then 0 else if n = 0 then 1 else len ^ n.toNat

/-- `repeated_combination(n).size` (l.602-616). -/
def repeatedCombinationSize (len : Nat) (n : Int) : Nat :=
  if n < 0 then 0 else if n = 0 then 1 else if len = 0 then 0
  else (List.range' 1 n.toNat).foldl (fun v i => v * (len + n.toNat - i) / i) 1

/-! ## product -/

/-- `for i in (0..n).rev()` in `product_inner` (array.rs l.3711-3717), for the lengths in reverse. -/
def digitsRev : List Nat → Nat → List Nat
  | [], _ => []
  | d :: ds, k => k % d :: digitsRev ds (k / d)

/-- The positions of the `k`th element. -/
def digits (dims : List Nat) (k : Nat) : List Nat := (digitsRev dims.reverse k).reverse

/-- The elements at these positions, one from each array. -/
def pickEach [Inhabited α] (as : List (List α)) (ix : List Nat) : List α :=
  List.zipWith (fun a i => a.getD i default) as ix

/-- `product_inner` (l.3698-3720). -/
def productInner [Inhabited α] (as : List (List α)) : List (List α) :=
  let dims := as.map List.length
  let total := if dims.any (· == 0) then 0 else dims.prod
  (List.range total).map fun k => pickEach as (digits dims k)

/-- The check for the size (l.3680-3687); the `usize` does not overflow before the limit is met. -/
def productTooBig : Nat → List Nat → Bool
  | _, [] => false
  | t, d :: ds => if t * d > 1000000 then true else productTooBig (t * d) ds

/-- `product(*lists)` (l.3666-3696); `none` is RangeError. -/
def product [Inhabited α] (a : List α) (bs : List (List α)) : Option (List (List α)) :=
  if productTooBig a.length (bs.map List.length) then none else some (productInner (a :: bs))

end Verif.Arr
