/-!
# Model of binary search: `Array#bsearch`, `Array#bsearch_index`, `Range#bsearch`
(`/repo/monoruby/builtins/array.rb` l.166-206, l.327-367, `/repo/monoruby/builtins/range.rb` l.209-234, l.499-650)

The block is a function of the position (of the element there); it neither changes the array nor raises.
-/

namespace Verif.Arr

/-- What the block returns. -/
inductive Ans where
  | yes
  /-- `false` or `nil` -/
  | no
  | num (v : Int)
  | other
  deriving DecidableEq

/-- `mode` (array.rb l.170). -/
inductive Mode where
  | findMin
  | findExact
  deriving DecidableEq

/-- How a search ends. -/
inductive Found where
  /-- TypeError, or NoMethodError for `true < 0` -/
  | raised
  | nil
  | at (i : Nat)
  deriving DecidableEq

/-- `if mode.nil? …` (l.176-184); `none` is TypeError. -/
def modeOf (m : Option Mode) (r : Ans) : Option Mode :=
  match m with
  | some m => some m
  | none => match r with
    | .yes | .no => some .findMin
    | .num _ => some .findExact
    | .other => none

/-- `mode == :find_min ? self[low] : nil` (l.205, l.366). -/
def finish (size : Nat) (m : Option Mode) (low : Nat) : Found :=
  match m with
  | some .findMin => if low < size then .at low else .nil
  | _ => .nil

/-- The loop (l.171-203).  `size` does not change.  `false < 0` is NoMethodError, `nil` goes on to the right (l.194): the
model takes `no` as `nil` there. -/
def bsearchLoop (size : Nat) (f : Nat → Ans) (m : Option Mode) (low high : Nat) : Found :=
  if h : low < high then
    let mid := (low + high) / 2
    have : mid < high := by omega
    have : low ≤ mid := by omega
    match modeOf m (f mid) with
    | none => .raised
    | some .findMin =>
      if f mid = .no then bsearchLoop size f (some .findMin) (mid + 1) high
      else bsearchLoop size f (some .findMin) low mid
    | some .findExact =>
      match f mid with
      | .no => bsearchLoop size f (some .findExact) (mid + 1) high
      | .num v =>
        if v < 0 then bsearchLoop size f (some .findExact) (mid + 1) high
        else if v > 0 then bsearchLoop size f (some .findExact) low mid
        else .at mid
      | _ => .raised
  else finish size m low
termination_by high - low

/-- `bsearch_index { … }` (l.327-367); `bsearch` is the element there. -/
def bsearchIndex (size : Nat) (f : Nat → Ans) : Found := bsearchLoop size f none 0 size

/-! ## Ranges -/

/-- `__bsearch_classify` (range.rb l.499-516); `none` is TypeError. -/
inductive Class where
  | satisfied
  | unsatisfied
  | equal
  | less
  | greater
  deriving DecidableEq

def classify : Ans → Option Class
  | .yes => some .satisfied
  | .no => some .unsatisfied
  | .num v => some (if v = 0 then .equal else if v > 0 then .greater else .less)
  | .other => none

/-- `while lo <= hi` (l.568-586); the outer `none` is TypeError, the inner one nil. -/
def searchLoop (f : Int → Ans) (lo hi : Int) (sat : Option Int) : Option (Option Int) :=
  if h : lo ≤ hi then
    let mid := lo + (hi - lo) / 2
    have : lo ≤ mid := by omega
    have : mid ≤ hi := by omega
    match classify (f mid) with
    | none => none
    | some .equal => some (some mid)
    | some .satisfied => searchLoop f lo (mid - 1) (some mid)
    | some .less => searchLoop f lo (mid - 1) sat
    | some .greater => searchLoop f (mid + 1) hi sat
    | some .unsatisfied => searchLoop f (mid + 1) hi sat
  else some sat
termination_by (hi + 1 - lo).toNat

/-- The scan downwards (l.533-546): the relation holds when it ends, with the new lower bound or TypeError. -/
inductive ScanDown (f : Int → Ans) (hi : Int) : Int → Option Int → Prop
  | raises {step} (h : classify (f (hi - step)) = none) : ScanDown f hi step none
  | stop {step c} (h : classify (f (hi - step)) = some c) (hc : c = .unsatisfied ∨ c = .greater) :
      ScanDown f hi step (some (hi - step))
  | go {step c r} (h : classify (f (hi - step)) = some c) (hc : ¬ (c = .unsatisfied ∨ c = .greater))
      (t : ScanDown f hi (step * 2) r) : ScanDown f hi step r

/-- The scan upwards (l.550-563). -/
inductive ScanUp (f : Int → Ans) (lo : Int) : Int → Option Int → Prop
  | raises {step} (h : classify (f (lo + step)) = none) : ScanUp f lo step none
  | stop {step c} (h : classify (f (lo + step)) = some c) (hc : c = .satisfied ∨ c = .equal ∨ c = .less) :
      ScanUp f lo step (some (lo + step))
  | go {step c r} (h : classify (f (lo + step)) = some c) (hc : ¬ (c = .satisfied ∨ c = .equal ∨ c = .less))
      (t : ScanUp f lo (step * 2) r) : ScanUp f lo step r

/-- `__bsearch_int(b, e, excl)` (l.518-588), when it ends. -/
def BsearchInt (f : Int → Ans) (b e : Option Int) (excl : Bool) (r : Option (Option Int)) : Prop :=
  let hi := e.map fun e => if excl then e - 1 else e
  match b, hi with
  | none, none => r = some none
  | none, some hi => ∃ lo, ScanDown f hi 1 lo ∧ r = lo.bind fun lo => if lo > hi then some none else searchLoop f lo hi none
  | some lo, none => ∃ hi, ScanUp f lo 1 hi ∧ r = hi.bind fun hi => if lo > hi then some none else searchLoop f lo hi none
  | some lo, some hi => r = if lo > hi then some none else searchLoop f lo hi none

/-- `to_key` (l.604-612): a 64-bit pattern. -/
def toKey (bits : Nat) : Nat := if bits / 2 ^ 63 = 0 then bits + 2 ^ 63 else 2 ^ 64 - 1 - bits

/-- `from_key` (l.613-621). -/
def fromKey (k : Nat) : Nat := if k / 2 ^ 63 = 1 then k - 2 ^ 63 else 2 ^ 64 - 1 - k

/-- The order of the floats that are not NaN: the magnitude with the sign. -/
def fval (bits : Nat) : Int := if bits < 2 ^ 63 then bits else -((bits : Int) - 2 ^ 63)

/-- `__bsearch_float(b, e, excl)` (l.590-648) with both ends, given by their patterns. -/
def bsearchFloat (f : Nat → Ans) (b e : Nat) (excl : Bool) : Option (Option Nat) :=
  if fval b > fval e then some none
  else if excl ∧ fval b = fval e then some none
  else
    let hi : Int := if excl then toKey e - 1 else toKey e
    if (toKey b : Int) > hi then some none
    else (searchLoop (fun k => f (fromKey k.toNat)) (toKey b) hi none).map (Option.map fun k => fromKey k.toNat)

end Verif.Arr
