/-!
# Sorting

Models `monoruby/src/executor/op/sort.rs`: the merge sort used by `Array#sort`,
`Array#sort!` and friends.

The array slice is a `List α` addressed by index; writing is `List.set`.  An
access outside the slice or beyond the scratch buffer is the explicit outcome
`oob` (undefined behaviour in the code, which uses raw pointers).

The comparator is arbitrary user code with its own state `σ`; it may raise
(`Except.error`) at any call.  Not modelled: a comparator that mutates the array
being sorted, and what the garbage collector sees during the sort.
-/

namespace Verif.Sort

/-- A comparison callback `is_less(a, b)`: state passing, may raise. -/
abbrev Cmp (σ ε α : Type) := σ → α → α → σ × Except ε Bool

/-- How a sorting routine ends. -/
inductive Out (ε : Type) where
  | ok
  | err (e : ε)
  | oob
deriving DecidableEq, Repr

variable {σ ε α : Type}

/-- `MAX_INSERTION`, `sort.rs:5`; `MIN_RUN`, `sort.rs:137`. -/
def MAX_INSERTION : Nat := 20
def MIN_RUN : Nat := 10

/-- `merge_scratch_len`, `sort.rs:22-24`. -/
def mergeScratchLen (len : Nat) : Nat := if len ≤ MAX_INSERTION then 0 else len / 2

/-- The loop of `insert_head`, `sort.rs:247-253`, together with the drop of
`InsertionHole` (`sort.rs:265-271`) which runs on every exit: `tmp` is written to
`dest`.  `hi` is the end of the slice. -/
def insertLoop (lt : Cmp σ ε α) (tmp : α) (hi i dest : Nat) (v : List α) (s : σ) :
    Out ε × List α × σ :=
  if i < hi then
    match v[i]? with
    | none => (.oob, v.set dest tmp, s)
    | some x =>
      match lt s x tmp with
      | (s', .error e) => (.err e, v.set dest tmp, s')
      | (s', .ok false) => (.ok, v.set dest tmp, s')
      | (s', .ok true) => insertLoop lt tmp hi (i + 1) i (v.set (i - 1) x) s'
  else (.ok, v.set dest tmp, s)
termination_by hi - i

/-- `insert_head(&mut v[lo..hi])`, `sort.rs:230-272`. -/
def insertHead (lt : Cmp σ ε α) (lo hi : Nat) (v : List α) (s : σ) : Out ε × List α × σ :=
  if hi - lo ≥ 2 then
    match v[lo]?, v[lo + 1]? with
    | some x, some y =>
      match lt s y x with
      | (s', .error e) => (.err e, v, s')
      | (s', .ok false) => (.ok, v, s')
      | (s', .ok true) => insertLoop lt x hi (lo + 2) (lo + 1) (v.set lo y) s'
    | _, _ => (.oob, v, s)
  else (.ok, v, s)

/-- `copy_nonoverlapping(src, v + i, n)` of the values `xs`. -/
def writeAt (v : List α) (i : Nat) : List α → List α
  | [] => v
  | x :: xs => writeAt (v.set i x) (i + 1) xs

/-- `merge` when the left run is the shorter one, `sort.rs:283-311`, with the drop
of `MergeHole` (`sort.rs:365-377`) on every exit: `buf[l..e]` is copied to
`v[out..]`. -/
def mergeLo (lt : Cmp σ ε α) (buf : List α) (e hi l r out : Nat) (v : List α) (s : σ) :
    Out ε × List α × σ :=
  if l < e ∧ r < hi then
    match v[r]?, buf[l]? with
    | some y, some x =>
      match lt s y x with
      | (s', .error er) => (.err er, writeAt v out ((buf.take e).drop l), s')
      | (s', .ok true) => mergeLo lt buf e hi l (r + 1) (out + 1) (v.set out y) s'
      | (s', .ok false) => mergeLo lt buf e hi (l + 1) r (out + 1) (v.set out x) s'
    | _, _ => (.oob, v, s)
  else (.ok, writeAt v out ((buf.take e).drop l), s)
termination_by (e - l) + (hi - r)

/-- `merge` when the right run is the shorter one, `sort.rs:312-340`.  `l`, `r` and
`out` point past the end of what remains; the hole is `buf[0..r]` at `v[l..]`. -/
def mergeHi (lt : Cmp σ ε α) (buf : List α) (lo l r out : Nat) (v : List α) (s : σ) :
    Out ε × List α × σ :=
  if lo < l ∧ 0 < r then
    match buf[r - 1]?, v[l - 1]? with
    | some y, some x =>
      match lt s y x with
      | (s', .error er) => (.err er, writeAt v l (buf.take r), s')
      | (s', .ok true) => mergeHi lt buf lo (l - 1) r (out - 1) (v.set (out - 1) x) s'
      | (s', .ok false) => mergeHi lt buf lo l (r - 1) (out - 1) (v.set (out - 1) y) s'
    | _, _ => (.oob, v, s)
  else (.ok, writeAt v l (buf.take r), s)
termination_by (l - lo) + r

/-- `merge(&mut v[lo..hi], mid - lo, buf)`, `sort.rs:274-343`.  `cap` is the length of
the scratch buffer. -/
def merge (lt : Cmp σ ε α) (cap lo mid hi : Nat) (v : List α) (s : σ) : Out ε × List α × σ :=
  if mid - lo ≤ hi - mid then
    if mid - lo ≤ cap then
      mergeLo lt ((v.drop lo).take (mid - lo)) (mid - lo) hi 0 mid lo v s
    else (.oob, v, s)
  else
    if hi - mid ≤ cap then
      mergeHi lt ((v.drop mid).take (hi - mid)) lo mid (hi - mid) hi v s
    else (.oob, v, s)

/-- `Run`, `sort.rs:222-226`. -/
structure Run where
  start : Nat
  len : Nat
deriving DecidableEq, Repr

/-- `collapse`, `sort.rs:200-219`.  The stack of runs is a list with the most
recently pushed run first, so `a = runs[n-1]`, `b = runs[n-2]`, ...
`some false` is `Some(n - 2)`, `some true` is `Some(n - 3)`. -/
def collapse : List Run → Option Bool
  | a :: b :: rest =>
    if a.start == 0 || decide (b.len ≤ a.len)
      || (match rest with | c :: _ => decide (c.len ≤ b.len + a.len) | [] => false)
      || (match rest with | c :: d :: _ => decide (d.len ≤ c.len + b.len) | _ => false) then
      match rest with
      | c :: _ => if c.len < a.len then some true else some false
      | [] => some false
    else none
  | _ => none

/-- The merging loop of `merge_sort`, `sort.rs:184-197`. -/
def collapseLoop (lt : Cmp σ ε α) (cap : Nat) (runs : List Run) (v : List α) (s : σ) :
    Out ε × List Run × List α × σ :=
  match collapse runs, runs with
  | some false, left :: right :: rest =>
    match merge lt cap left.start (left.start + left.len) (right.start + right.len) v s with
    | (.ok, v', s') => collapseLoop lt cap (⟨left.start, left.len + right.len⟩ :: rest) v' s'
    | (o, v', s') => (o, runs, v', s')
  | some true, top :: left :: right :: rest =>
    match merge lt cap left.start (left.start + left.len) (right.start + right.len) v s with
    | (.ok, v', s') =>
      collapseLoop lt cap (top :: ⟨left.start, left.len + right.len⟩ :: rest) v' s'
    | (o, v', s') => (o, runs, v', s')
  | _, _ => (.ok, runs, v, s)
termination_by runs.length

/-- The two run-finding loops, `sort.rs:158-170`: walk down while
`is_less(v[start], v[start-1])` equals `want`. -/
def runLoop (lt : Cmp σ ε α) (want : Bool) (start : Nat) (v : List α) (s : σ) :
    Out ε × Nat × σ :=
  match start with
  | 0 => (.ok, 0, s)
  | k + 1 =>
    match v[k + 1]?, v[k]? with
    | some x, some y =>
      match lt s x y with
      | (s', .error e) => (.err e, k + 1, s')
      | (s', .ok b) => if b = want then runLoop lt want k v s' else (.ok, k + 1, s')
    | _, _ => (.oob, k + 1, s)

/-- `v[lo..hi].reverse()` -/
def reverseSeg (v : List α) (lo hi : Nat) : List α :=
  v.take lo ++ ((v.take hi).drop lo).reverse ++ v.drop hi

/-- Finding the next natural run, `sort.rs:152-173`; returns its start. -/
def findRun (lt : Cmp σ ε α) (e : Nat) (v : List α) (s : σ) : Out ε × Nat × List α × σ :=
  match e with
  | 0 | 1 => (.ok, 0, v, s)
  | k + 2 =>
    match v[k + 1]?, v[k]? with
    | some x, some y =>
      match lt s x y with
      | (s', .error er) => (.err er, k, v, s')
      | (s', .ok true) =>
        match runLoop lt true k v s' with
        | (.ok, st, s'') => (.ok, st, reverseSeg v st e, s'')
        | (o, st, s'') => (o, st, v, s'')
      | (s', .ok false) =>
        match runLoop lt false k v s' with
        | (o, st, s'') => (o, st, v, s'')
    | _, _ => (.oob, k, v, s)

/-- Extending a short run, `sort.rs:177-180`. -/
def extendRun (lt : Cmp σ ε α) (start e : Nat) (v : List α) (s : σ) :
    Out ε × Nat × List α × σ :=
  match start with
  | 0 => (.ok, 0, v, s)
  | k + 1 =>
    if e - (k + 1) < MIN_RUN then
      match insertHead lt k e v s with
      | (.ok, v', s') => extendRun lt k e v' s'
      | (o, v', s') => (o, k, v', s')
    else (.ok, k + 1, v, s)

/-- The main loop of `merge_sort`, `sort.rs:150-198`.  `fuel` bounds the number of
runs; `mainLoop_spec` shows that `len` is enough. -/
def mainLoop (lt : Cmp σ ε α) (cap : Nat) : Nat → Nat → List Run → List α → σ →
    Option (Out ε × List Run × List α × σ)
  | _, 0, runs, v, s => some (.ok, runs, v, s)
  | 0, _ + 1, _, _, _ => none
  | fuel + 1, e + 1, runs, v, s =>
    match findRun lt (e + 1) v s with
    | (.ok, st, v1, s1) =>
      match extendRun lt st (e + 1) v1 s1 with
      | (.ok, st', v2, s2) =>
        match collapseLoop lt cap (⟨st', e + 1 - st'⟩ :: runs) v2 s2 with
        | (.ok, runs', v3, s3) => mainLoop lt cap fuel st' runs' v3 s3
        | (o, runs', v3, s3) => some (o, runs', v3, s3)
      | (o, _, v2, s2) => some (o, runs, v2, s2)
    | (o, _, v1, s1) => some (o, runs, v1, s1)

/-- The insertion sort for short arrays, `sort.rs:142-146`: `i` counts down from
`len - 1` (exclusive) to 0. -/
def insertionLoop (lt : Cmp σ ε α) (len : Nat) : Nat → List α → σ → Out ε × List α × σ
  | 0, v, s => (.ok, v, s)
  | i + 1, v, s =>
    match insertHead lt i len v s with
    | (.ok, v', s') => insertionLoop lt len i v' s'
    | r => r

/-- `merge_sort`, `sort.rs:131-199`.  `cap` is the scratch buffer's length.  `none`
stands for running out of fuel, which never happens (`C09_never_lost`). -/
def mergeSort (lt : Cmp σ ε α) (cap : Nat) (v : List α) (s : σ) :
    Option (Out ε × List α × σ) :=
  if v.length ≤ MAX_INSERTION then
    if v.length ≥ 2 then some (insertionLoop lt v.length (v.length - 1) v s)
    else some (.ok, v, s)
  else
    match mainLoop lt cap v.length v.length [] v s with
    | some (o, _, v', s') => some (o, v', s')
    | none => none

/-- `sort_inner` + `Executor::sort`/`sort_by`: `builtins/array.rs:2602-2641`,
`sort.rs:33-43,120-129`.  The scratch buffer has `merge_scratch_len` slots. -/
def sort (lt : Cmp σ ε α) (v : List α) (s : σ) : Option (Out ε × List α × σ) :=
  mergeSort lt (mergeScratchLen v.length) v s

end Verif.Sort
