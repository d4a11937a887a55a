/-!
# Model of `Array#[]`, `Array#[]=` and the methods that move elements
(`/repo/monoruby/src/value/rvalue/array.rs`, `/repo/monoruby/src/builtins/array.rs`)

An array is a list; `default` is `nil`.  Indices and lengths have been converted to integers (`coerce_to_int_i64`);
they are unbounded here, so the sums that overflow an `i64` for the greatest index are not covered.
A vector that would have more than `maxLen` elements makes `SmallVec` panic.  Frozen arrays raise before
anything is done (`as_array_mut`, `ensure_not_frozen`) and are left out.
-/

namespace Verif.Arr

variable {α : Type} [Inhabited α]

/-- Exceptions that the methods raise. -/
inductive Err
  | index
  | range
  | argument
deriving DecidableEq, Repr

/-- A method returns, raises, or the process is aborted by a panic. -/
inductive Out (β : Type)
  | ok (v : β)
  | raise (e : Err)
  | panic
deriving DecidableEq, Repr

/-- `SmallVec` rounds a capacity up to a power of two; from `2 ^ 60` elements of 8 bytes on, the size does not
fit an `isize` and `try_grow` fails with `CapacityOverflow`. -/
def maxLen : Nat := 2 ^ 59

/-- A Range as an index: begin and end (or `nil`), and whether the end is excluded. -/
structure Rng where
  first : Option Int
  last : Option Int
  excl : Bool
deriving DecidableEq, Repr

/-! ## Slices of memory -/

/-- `SmallVec::resize` with `nil` (array.rs l.221). -/
def resize (a : List α) (n : Nat) : List α :=
  if n ≤ a.length then a.take n else a ++ List.replicate (n - a.length) default

/-- `copy_within(s..e, d)`: move the elements `s..e` to `d`; the rest stays. -/
def copyWithin (a : List α) (s e d : Nat) : List α :=
  a.take d ++ ((a.take e).drop s ++ a.drop (d + (e - s)))

/-- `self[i..i + v.len()].copy_from_slice(v)`. -/
def writeAt (a : List α) (i : Nat) (v : List α) : List α :=
  a.take i ++ (v ++ a.drop (i + v.length))

/-! ## Reading -/

/-- `get_array_index` (rvalue/array.rs l.393-403). -/
def resolve (len : Nat) (i : Int) : Option Nat :=
  if i < 0 then
    if (len : Int) + i < 0 then none else some ((len : Int) + i).toNat
  else some i.toNat

/-- `a[i]`: `get_elem1`, integer index (rvalue/array.rs l.478-483). -/
def get (a : List α) (i : Int) : α := a.getD ((resolve a.length i).getD a.length) default

/-- `a[i, n]`: `get_elem2` (rvalue/array.rs l.405-430). -/
def get2 (a : List α) (i n : Int) : Option (List α) :=
  match resolve a.length i with
  | none => none
  | some s =>
    if n < 0 ∨ a.length < s then none
    else if s = a.length then some []
    else some ((a.take (min a.length (s + n.toNat))).drop s)

/-- Where a range ends in `get_elem1` (l.460-473); `none`: before the beginning of the array. -/
def getEnd (len : Nat) (r : Rng) : Option Nat :=
  match r.last with
  | none => some len
  | some e =>
    if 0 ≤ e then
      let stop := e.toNat + if r.excl then 0 else 1
      some (if len < stop then len else stop)
    else
      let stop := (len : Int) + e + if r.excl then 0 else 1
      if stop < 0 then none else some stop.toNat

/-- The index at which a range starts, counted from the front (rvalue/array.rs l.441-448; the same in
builtins/array.rs l.1330-1343 and l.1723-1731). -/
def startOf (len : Nat) (r : Rng) : Int :=
  match r.first with
  | none => 0
  | some i => if i < 0 then (len : Int) + i else i

/-- `a[range]`: `get_elem1` (l.438-477). -/
def getR (a : List α) (r : Rng) : Option (List α) :=
  let len : Int := a.length
  let s := startOf a.length r
  if s < 0 then none
  else if len = s then some []
  else if len < s then none
  else match getEnd a.length r with
    | none => some []
    | some e => if s.toNat ≥ e then some [] else some ((a.take e).drop s.toNat)

/-! ## Writing -/

/-- What is assigned: an array, an object with `to_ary`, or another object. -/
inductive Src (α : Type)
  | arr (v : List α)
  | conv (x : α) (v : List α)
  | one (x : α)
deriving DecidableEq, Repr

/-- `set_index` (rvalue/array.rs l.322-339), with the new contents. -/
def set (a : List α) (i : Int) (x : α) : Out (List α) :=
  if 0 ≤ i then
    if i.toNat < a.length then .ok (a.set i.toNat x)
    else if maxLen ≤ i.toNat then .panic
    else .ok (resize a i.toNat ++ [x])
  else match resolve a.length i with
    | some p => .ok (a.set p x)
    | none => .raise .index

/-- `set_index2` with an array (l.343-370). -/
def spliceMany (a : List α) (i n : Nat) (v : List α) : Out (List α) :=
  let len := a.length
  if i ≥ len ∨ i + n > len then
    if maxLen < i + v.length then .panic else .ok (writeAt (resize a (i + v.length)) i v)
  else if v.length > n then
    if maxLen < len + v.length - n then .panic
    else .ok (writeAt (copyWithin (resize a (len + v.length - n)) (i + n) len (i + v.length)) i v)
  else .ok (writeAt (resize (copyWithin a (i + n) len (i + v.length)) (len + v.length - n)) i v)

/-- `set_index2` with anything else (l.371-387). -/
def spliceOne (a : List α) (i n : Nat) (x : α) : Out (List α) :=
  let len := a.length
  if i ≥ len then
    if maxLen < i + 1 then .panic else .ok ((resize a (i + 1)).set i x)
  else if n = 0 then .ok ((copyWithin (a ++ [default]) i len (i + 1)).set i x)
  else if i + n < len then .ok (((copyWithin a (i + n) len (i + 1)).take (len + 1 - n)).set i x)
  else .ok ((a.take (i + 1)).set i x)

/-- `set_index2` (l.341-391). -/
def splice (a : List α) (i n : Nat) (v : Src α) : Out (List α) :=
  match v with
  | .arr v => spliceMany a i n v
  | .conv x _ => spliceOne a i n x
  | .one x => spliceOne a i n x

/-- `to_ary` is tried (builtins/array.rs l.1380-1387). -/
def toAry : Src α → Src α
  | .conv _ v => .arr v
  | v => v

/-- `a[i, n] = v` (builtins/array.rs l.1364-1389). -/
def set2 (a : List α) (i n : Int) (v : Src α) : Out (List α) :=
  if n < 0 then .raise .index
  else
    let s := if i < 0 then i + a.length else i
    if s < 0 then .raise .index else splice a s.toNat n.toNat (toAry v)

/-- The number of elements that `a[range] = v` replaces, from `start` (l.1345-1361). -/
def setLen (len start : Nat) (r : Rng) : Nat :=
  match r.last with
  | none => len - start
  | some e =>
    let e := if e < 0 then e + len else e
    let e := if r.excl then e else e + 1
    (e - start).toNat

/-- `a[range] = v` (l.1326-1362). -/
def setR (a : List α) (r : Rng) (v : Src α) : Out (List α) :=
  let s := startOf a.length r
  if s < 0 then .raise .range else splice a s.toNat (setLen a.length s.toNat r) v

/-- `insert(i, *v)` (builtins/array.rs l.4759-4783). -/
def insert (a : List α) (i : Int) (v : List α) : Out (List α) :=
  if v = [] then .ok a
  else
    let p := if i < 0 then i + a.length + 1 else i
    if p < 0 then .raise .index
    else
      let p := p.toNat
      if maxLen < max p a.length + v.length then .panic
      else
        let a := if p ≥ a.length then resize a p else a
        .ok (a.take p ++ (v ++ a.drop p))

/-! ## Removing -/

/-- `delete_at(i)` (builtins/array.rs l.4678-4693): what is returned, the rest. -/
def deleteAt (a : List α) (i : Int) : α × List α :=
  if i < 0 then
    let p := i + a.length
    if p < 0 then (default, a) else (a.getD p.toNat default, a.eraseIdx p.toNat)
  else if (a.length : Int) ≤ i then (default, a)
  else (a.getD i.toNat default, a.eraseIdx i.toNat)

/-- `slice_inner` (l.4011-4026). -/
def sliceInner (a : List α) (s n : Nat) : Option (List α) × List α :=
  if a.length < s then (none, a)
  else if a.length ≤ s ∨ n = 0 then (some [], a)
  else
    let e := if a.length < s + n then a.length else s + n
    (some ((a.take e).drop s), a.take s ++ a.drop e)

/-- `slice!(i)` (l.3999-4008). -/
def slice1 (a : List α) (i : Int) : α × List α :=
  match resolve a.length i with
  | some p => if p < a.length then (a.getD p default, a.eraseIdx p) else (default, a)
  | none => (default, a)

/-- `slice!(i, n)` (l.3960-3970). -/
def slice2 (a : List α) (i n : Int) : Option (List α) × List α :=
  match resolve a.length i with
  | none => (none, a)
  | some s => if n < 0 then (none, a) else sliceInner a s n.toNat

/-- The first and the last place of a range in `slice!` (l.3973-3989). -/
def sliceFirst (len : Nat) (r : Rng) : Option Nat :=
  match r.first with
  | none => some 0
  | some i => resolve len i

def sliceLast (len : Nat) (r : Rng) : Option Nat :=
  match r.last with
  | none => some (len - 1)
  | some e => resolve len e

/-- The number of elements (l.3993-3997). -/
def sliceLen (len : Nat) (r : Rng) (s e : Nat) : Nat :=
  match r.last with
  | none => len - s
  | some _ => e - s + if r.excl then 0 else 1

/-- `slice!(range)` (l.3971-3998). -/
def sliceR (a : List α) (r : Rng) : Option (List α) × List α :=
  match sliceFirst a.length r with
  | none => (none, a)
  | some s =>
    match sliceLast a.length r with
    | none => (some [], a)
    | some e => if e < s then (some [], a) else sliceInner a s (sliceLen a.length r s e)

/-- `shift(n)` (l.869-888). -/
def shiftN (a : List α) (n : Int) : Out (List α × List α) :=
  if n < 0 then .raise .argument
  else
    let k := min n.toNat a.length
    .ok (a.take k, a.drop k)

/-- `pop(n)` (l.1069-1082). -/
def popN (a : List α) (n : Int) : Out (List α × List α) :=
  if n < 0 then .raise .argument
  else
    let start := if n.toNat ≥ a.length then 0 else a.length - n.toNat
    .ok (a.drop start, a.take start)

/-! ## Rotating and filling -/

/-- `wrap_rotate_count` (l.3620-3633); `%` truncates. -/
def wrapCount (n len : Int) : Nat :=
  (if 0 ≤ n then
    if n < len then n else n.tmod len
  else
    if -len < n then -n else -(n.tmod len)).toNat

/-- `rotate_left` and `rotate_right` of a slice. -/
def rotl (a : List α) (k : Nat) : List α := a.drop k ++ a.take k

def rotr (a : List α) (k : Nat) : List α := a.drop (a.length - k) ++ a.take (a.length - k)

/-- `rotate(n)` and `rotate!(n)` (l.3591-3608, l.3641-3656). -/
def rotate (a : List α) (n : Int) : List α :=
  if a.length = 0 then a
  else if 0 < n then rotl a (wrapCount n a.length)
  else rotr a (wrapCount n a.length)

/-- `for i in s..e { ary[i] = x }`. -/
def fillFrom (a : List α) (s e : Nat) (x : α) : List α :=
  (List.range' s (e - s)).foldl (fun a i => a.set i x) a

/-- `fill_resize` (l.1704-1712). -/
def fillResize (a : List α) (n : Nat) : Out (List α) :=
  if 2 ^ 30 < n then .raise .argument else .ok (resize a n)

/-- `fill` from `s` up to `e`. -/
def fillSpan (a : List α) (s e : Nat) (x : α) : Out (List α) :=
  if e > a.length then
    match fillResize a e with
    | .ok a => .ok (fillFrom a s e x)
    | o => o
  else .ok (fillFrom a s e x)

/-- A start index of `fill` (l.1656-1661). -/
def fillStart (len : Nat) (i : Int) : Nat :=
  if i < 0 then (if (len : Int) + i < 0 then 0 else (len : Int) + i).toNat else i.toNat

/-- `fill(x, i, n)` (l.1646-1690); `n` may be left out. -/
def fill (a : List α) (x : α) (i : Int) (n : Option Int) : Out (List α) :=
  match n with
  | none => .ok (fillFrom a (fillStart a.length i) a.length x)
  | some n => if n ≤ 0 then .ok a else fillSpan a (fillStart a.length i) (fillStart a.length i + n.toNat) x

/-- Where a range ends in `fill_range_indices` (l.1744-1757). -/
def fillEnd (len : Nat) (r : Rng) : Int :=
  match r.last with
  | none => len
  | some e =>
    let e := if e < 0 then e + len else e
    if r.excl then e else e + 1

/-- `fill(x, range)` (l.1636-1645, `fill_range_indices` l.1715-1760). -/
def fillR (a : List α) (x : α) (r : Rng) : Out (List α) :=
  let s := startOf a.length r
  if s < 0 then .raise .range
  else
    let e := fillEnd a.length r
    if e < s then fillSpan a s.toNat s.toNat x else fillSpan a s.toNat e.toNat x

end Verif.Arr
