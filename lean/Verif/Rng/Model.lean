/-!
# Ranges of Integers and arithmetic sequences

Model of `Range` (`/repo/monoruby/builtins/range.rb`, `/repo/monoruby/src/builtins/range.rs`) over
Integer endpoints and of `Enumerator::ArithmeticSequence`
(`/repo/monoruby/src/builtins/arithmetic_sequence.rs`,
`/repo/monoruby/builtins/arithmetic_sequence.rb`), with the loops written as they are there.

An Integer is an `Int`; whether it is held inline (63 bits) or as a big integer is `isFix`, which
decides the native fast paths.  Not modelled: String, Symbol, Float and user-defined endpoints
(except a fractional begin in `max`), `Float::INFINITY` as an end, redefinition of Integer
operators, blocks that leave the loop by `break` or an exception.
-/

namespace Verif.Rng

/-- The Integers held inline: `Value::is_i63`, `/repo/monoruby/src/value.rs:997-1003`,
`try_fixnum`. -/
def isFix (n : Int) : Bool := decide (-2 ^ 62 ≤ n ∧ n < 2 ^ 62)

/-- What a call does: returns, returns `nil`, or raises an error of the given class.  `ub` stands
for reading memory outside the array (an out-of-range `get_unchecked`, or a Rust panic of a checked
slice). -/
inductive Res (α : Type) where
  | ok (a : α)
  | nil
  | rangeErr
  | typeErr
  | argErr
  | runtimeErr
  | ub
  deriving DecidableEq, Repr

/-- A range with Integer endpoints or `nil`: `RangeInner`,
`/repo/monoruby/src/value/rvalue/range.rs:60-100`. -/
structure Range where
  b : Option Int
  e : Option Int
  excl : Bool
  deriving DecidableEq, Repr

/-! ## Iteration -/

/-- `while i <= last; yield i; i += 1; end` (`range.rb:38-43`), also `Integer#upto`
(`/repo/monoruby/builtins/integer.rb:39-43`): the values yielded. -/
def upLoop (i last : Int) : List Int :=
  if i ≤ last then i :: upLoop (i + 1) last else []
termination_by (last - i + 1).toNat
decreasing_by omega

/-- `while i >= b; yield i; i -= 1; end` (`range.rb:151-154`), also `Integer#downto`
(`integer.rb:51-55`). -/
def downLoop (i b : Int) : List Int :=
  if b ≤ i then i :: downLoop (i - 1) b else []
termination_by (i - b + 1).toNat
decreasing_by omega

/-- `Range#each` with a block on Integer endpoints (`range.rb:4-44`): the values yielded. -/
def each (b e : Int) (excl : Bool) : List Int := upLoop b (if excl then e - 1 else e)

/-- `Range#to_a` (`range.rb:969-974`): `RangeError` for an endless range, otherwise what `each`
yields; `each` raises `TypeError` for a beginless one. -/
def toA (r : Range) : Res (List Int) :=
  match r.e, r.b with
  | none, _ => .rangeErr
  | some _, none => .typeErr
  | some e, some b => .ok (each b e r.excl)

/-- `Range#reverse_each` with a block on Integer endpoints (`range.rb:114-157`). -/
def reverseEach (b e : Int) (excl : Bool) : List Int := downLoop (if excl then e - 1 else e) b

/-- The size reported by the enumerator `reverse_each` returns without a block
(`range.rb:132-142`). -/
def reverseSize (b e : Int) (excl : Bool) : Int :=
  let top := if excl then e - 1 else e
  if top ≥ b then top - b + 1 else 0

/-- `Integer#times` (`integer.rb:20-28`). -/
def times (n : Int) : List Int := go 0
where
  go (i : Int) : List Int := if i < n then i :: go (i + 1) else []
  termination_by (n - i).toNat
  decreasing_by omega

/-- The size of the enumerators `upto` / `downto` return without a block (`integer.rb:37,49`). -/
def uptoSize (i limit : Int) : Int := if i ≤ limit then limit - i + 1 else 0

def downtoSize (i limit : Int) : Int := if i ≥ limit then i - limit + 1 else 0

/-- `Range#size` on Integer endpoints (`range.rb:1011-1030`); `none` is `Float::INFINITY`. -/
def size (r : Range) : Res (Option Int) :=
  match r.b, r.e with
  | none, _ => .typeErr
  | some _, none => .ok none
  | some b, some e =>
    let diff := e - b
    if diff < 0 then .ok (some 0) else .ok (some (if r.excl then diff else diff + 1))

/-- A Rust range `start..end` of `i64`. -/
def rustRange (s e : Int) : List Int := (List.range (e - s).toNat).map (fun k : Nat => s + (k : Int))

/-- `RangeInner::try_fixnum` (`/repo/monoruby/src/value/rvalue/range.rs:89-96`). -/
def tryFixnum (r : Range) : Option (Int × Int) :=
  match r.b, r.e with
  | some b, some e => if isFix b ∧ isFix e then some (b, if r.excl then e else e + 1) else none
  | _, _ => none

/-- `each` stopped when `n` values have been taken: the loop of `Range#each` with the block of
`__range_first_by_each` (`range.rb:384-392`, stops after the `n`th value) or of `min(n)`
(`range.rb:321-326`, stops at the value after it).  `last` is `none` for an endless range. -/
def takeEach (i : Int) (last : Option Int) : Nat → List Int
  | 0 => []
  | n + 1 =>
    match last with
    | none => i :: takeEach (i + 1) last n
    | some l => if i ≤ l then i :: takeEach (i + 1) last n else []

/-- `Range#first(n)` (`/repo/monoruby/src/builtins/range.rs:192-222`). -/
def firstN (r : Range) (n : Int) : Res (List Int) :=
  match r.b with
  | none => .rangeErr
  | some b =>
    if n < 0 then .argErr
    else match tryFixnum r with
      | some (s, e) => .ok ((rustRange s e).take n.toNat)
      | none => .ok (takeEach b (r.e.map fun e => if r.excl then e - 1 else e) n.toNat)

/-- `Range#last(n)` (`range.rs:236-257`). -/
def lastN (r : Range) (n : Int) : Res (List Int) :=
  match r.e with
  | none => .rangeErr
  | some _ =>
    if n < 0 then .argErr
    else match tryFixnum r with
      | some (s, e) =>
        let len := (max (e - s) 0).toNat
        let skip := if n.toNat ≥ len then 0 else len - n.toNat
        .ok ((rustRange s e).drop skip)
      | none => .runtimeErr

/-- `Range#count` without a block (`range.rs:919-931`); `none` is `Float::INFINITY`. -/
def count (r : Range) : Res (Option Int) :=
  match r.b, r.e with
  | some _, some _ =>
    match tryFixnum r with
    | some (s, e) => .ok (some (if e > s then e - s else 0))
    | none => .runtimeErr
  | _, _ => .ok none

/-- The loop of `Range#count` with a block (`range.rs:908-915`). -/
def countLoop (p : Int → Bool) : List Int → Int → Int
  | [], c => c
  | i :: t, c => countLoop p t (if p i then c + 1 else c)

/-- `Range#count` with a block (`range.rs:903-918`). -/
def countBlock (r : Range) (p : Int → Bool) : Res Int :=
  match tryFixnum r with
  | some (s, e) => .ok (countLoop p (rustRange s e) 0)
  | none => .runtimeErr

/-- `Range#map` with a block (`range.rs:618-632`): the fast path over `try_fixnum`, otherwise "not
supported". -/
def mapBlock (r : Range) (f : Int → Int) : Res (List Int) :=
  match tryFixnum r with
  | some (s, e) => .ok ((rustRange s e).map f)
  | none => .runtimeErr

/-! ## Least and greatest -/

/-- The begin of a range given to `max`: `nil`, an Integer, or a Float half way between `k` and
`k + 1` (the simplest Floats that are not whole). -/
inductive Bgn where
  | none
  | int (i : Int)
  | half (k : Int)
  deriving DecidableEq, Repr

/-- Twice the begin, an Integer. -/
def Bgn.twice : Bgn → Option Int
  | .none => Option.none
  | .int i => some (2 * i)
  | .half k => some (2 * k + 1)

/-- `Range#max` without block or argument, Integer end (`range.rb:329-354` and
`range.rs:837-885`). -/
def max0 (b : Bgn) (e : Int) (excl : Bool) : Res Int :=
  let tail : Res Int := if excl then .ok (e - 1) else .ok e
  match b.twice with
  | none => tail
  | some t =>
    if t > 2 * e then .nil
    else if t = 2 * e then (if excl then .nil else .ok e)
    else tail

/-- The loop of `max(n)`: `while v >= lo; res << v; v -= 1; end` (`range.rb:367-372`). -/
def maxN (b : Bgn) (e : Int) (excl : Bool) (n : Int) : Res (List Int) :=
  if n < 0 then .argErr
  else
    let hi := if excl then e - 1 else e
    let lo := hi - n + 1
    match b with
    | .none => .ok (downLoop hi lo)
    | .int i => if i > hi then .ok [] else .ok (downLoop hi (if lo < i then i else lo))
    | .half k => if 2 * k + 1 > 2 * hi then .ok [] else .ok (downLoop hi lo)

/-- `Range#min` without block or argument (`range.rb:306-315`, `range.rs:766-787`). -/
def min0 (r : Range) : Res Int :=
  match r.b with
  | none => .rangeErr
  | some b =>
    match r.e with
    | none => .ok b
    | some e => if b > e then .nil else if b = e ∧ r.excl then .nil else .ok b

/-- `Range#min(n)` (`range.rb:316-326`). -/
def minN (r : Range) (n : Int) : Res (List Int) :=
  match r.b with
  | none => .rangeErr
  | some b =>
    if n < 0 then .argErr
    else .ok (takeEach b (r.e.map fun e => if r.excl then e - 1 else e) n.toNat)

/-- The loop of `min { |a, b| … }` (`range.rs:754-761`): `cmp x y` is the block's answer. -/
def minLoop (cmp : Int → Int → Int) : Int → List Int → Int
  | m, [] => m
  | m, x :: t => minLoop cmp (if cmp x m < 0 then x else m) t

/-- The loop of `max { |a, b| … }` (`range.rs:825-832`). -/
def maxLoop (cmp : Int → Int → Int) : Int → List Int → Int
  | m, [] => m
  | m, x :: t => maxLoop cmp (if cmp x m > 0 then x else m) t

/-- `Range#min` with a block (`range.rb:308-312`, `range.rs:732-765`). -/
def minBlock (r : Range) (cmp : Int → Int → Int) : Res Int :=
  match r.b, r.e with
  | some b, some e =>
    if b > e then .nil
    else if b = e ∧ r.excl then .nil
    else match tryFixnum r with
      | some (s, e) => .ok (minLoop cmp s (rustRange (s + 1) e))
      | none => .runtimeErr
  | _, _ => .rangeErr

/-- `Range#max` with a block (`range.rb:332-336`, `range.rs:804-836`). -/
def maxBlock (r : Range) (cmp : Int → Int → Int) : Res Int :=
  match r.b, r.e with
  | some b, some e =>
    if b > e then .nil
    else if b = e ∧ r.excl then .nil
    else match tryFixnum r with
      | some (s, e) => .ok (maxLoop cmp s (rustRange (s + 1) e))
      | none => .runtimeErr
  | _, _ => .rangeErr

/-! ## Membership -/

/-- `__cover_val_q` on an Integer (`range.rb:650-668`); `include?`, `member?` and `===` lead
here when an endpoint is numeric (`range.rb:236-260`). -/
def coverVal (r : Range) (v : Int) : Bool :=
  (match r.b with
    | none => true
    | some b => !(decide (b > v))) &&
  (match r.e with
    | none => true
    | some e => if r.excl then !(decide (v ≥ e)) else !(decide (v > e)))

/-- The ordering `a <=> b` of Integers. -/
def ufo (a b : Int) : Int := if a < b then -1 else if a = b then 0 else 1

/-- `val.max rescue nil` inside `__cover_range_q` (`range.rb:713-717`). -/
def vMax (v : Range) : Option Int :=
  match v.e with
  | none => none
  | some e =>
    match max0 (match v.b with | none => .none | some b => .int b) e v.excl with
    | .ok m => some m
    | _ => none

/-- The other range is empty or backward (`range.rb:680-684`). -/
def backward (v : Range) : Bool :=
  match v.b, v.e with
  | some vb, some ve => decide (ufo vb ve > (if v.excl then -1 else 0))
  | _, _ => false

/-- `cmp_end` (`range.rb:688-699`). -/
def cmpEnd (r v : Range) : Int :=
  match v.e, r.e with
  | some ve, some se => ufo se ve
  | some _, none => 1
  | none, _ => 0

/-- The comparison of the ends that concludes `__cover_range_q` (`range.rb:701-720`). -/
def coverEnd (r v : Range) : Bool :=
  if r.excl = v.excl then decide (cmpEnd r v ≥ 0)
  else if r.excl then decide (cmpEnd r v > 0)
  else if cmpEnd r v ≥ 0 then true
  else match vMax v, r.e with
    | some m, some se => decide (ufo se m ≥ 0)
    | _, _ => false

/-- The begin of the other range is not covered (`range.rb:686`). -/
def missesBegin (r v : Range) : Bool :=
  match v.b with
  | some vb => !coverVal r vb
  | none => false

/-- `__cover_range_q` (`range.rb:671-721`). -/
def coverRange (r v : Range) : Bool :=
  if v.b = none ∧ r.b ≠ none then false
  else if v.e = none ∧ r.e ≠ none then false
  else if backward v then false
  else if missesBegin r v then false
  else coverEnd r v

/-- `__range_empty_q` (`range.rb:723-730`). -/
def rangeEmpty (r : Range) : Bool :=
  match r.b, r.e with
  | some b, some e => if r.excl then decide (ufo b e ≥ 0) else decide (ufo b e > 0)
  | _, _ => false

/-- The end of one range lies before the begin of the other: the test made twice in `overlap?`
(`range.rb:407-415` and `417-425`). -/
def endBefore (e b : Option Int) (excl : Bool) : Bool :=
  match e, b with
  | some e, some b => if excl then decide (ufo e b ≤ 0) else decide (ufo e b < 0)
  | _, _ => false

/-- `Range#overlap?` (`range.rb:394-428`). -/
def overlap (s o : Range) : Bool :=
  if rangeEmpty s then false
  else if rangeEmpty o then false
  else if endBefore s.e o.b s.excl then false
  else if endBefore o.e s.b o.excl then false
  else true

/-! ## Stepping -/

/-- The loops of `__range_step_numeric` on Integers (`range.rb:814-846`): the values yielded.
`s = 0` is refused earlier (`range.rb:456`); here it yields nothing so that the function is
total.  `Integer#step` with a block is the two loops without `excl`
(`/repo/monoruby/builtins/numeric.rb:283-295`). -/
def stepLoop (i e s : Int) (excl : Bool) : List Int :=
  if s = 0 then []
  else if s > 0 then
    if (if excl then i < e else i ≤ e) then i :: stepLoop (i + s) e s excl else []
  else
    if (if excl then i > e else i ≥ e) then i :: stepLoop (i + s) e s excl else []
termination_by (if s > 0 then e - i + 1 else i - e + 1).toNat
decreasing_by
  all_goals
    rename_i h0 h1 h2
    split at h2 <;> simp_all <;> omega

/-- `Range#step(s) { … }` on Integers, bounded (`range.rb:430-480`). -/
def stepBlock (b e : Int) (excl : Bool) (s : Int) : Res (List Int) :=
  if s = 0 then .argErr else .ok (stepLoop b e s excl)

/-! ## Arithmetic sequences -/

/-- The receiver `begin`, `end`, `step`, `exclude_end?` of an `Enumerator::ArithmeticSequence`. -/
structure ASeq where
  b : Option Int
  e : Option Int
  s : Int
  excl : Bool
  deriving DecidableEq, Repr

/-- `Count` (`/repo/monoruby/src/builtins/arithmetic_sequence.rs:274-280`). -/
inductive Cnt where
  | fin (n : Int)
  | inf
  deriving DecidableEq, Repr

/-- `fixnum_count` (`arithmetic_sequence.rs:342-373`).  The `i128` operations cannot overflow. -/
def fixnumCount (b e s : Int) (excl : Bool) : Int :=
  let diff := e - b
  if (s > 0 ∧ diff < 0) ∨ (s < 0 ∧ diff > 0) then 0
  else
    let n := diff.tdiv s
    let lastVal := b + n * s
    let n' :=
      if excl then
        if (if s > 0 then lastVal ≥ e else lastVal ≤ e) then n - 1 else n
      else n
    if n' < 0 then 0
    else if n' + 1 > 2 ^ 63 - 1 then 2 ^ 63 - 1 else n' + 1

/-- `finite_count` (`arithmetic_sequence.rs:321-340`).  `fc` stands for `float_count` on the
endpoints rounded to Floats, which is what any big integer leads to; its answer is left open. -/
def finiteCount (fc : Int → Int → Int → Bool → Cnt) (b e s : Int) (excl : Bool) : Cnt :=
  if isFix b ∧ isFix e ∧ isFix s then .fin (fixnumCount b e s excl) else fc b e s excl

/-- A term handed to the program: an Integer, or a Float (whose value is left out). -/
inductive Term where
  | int (i : Int)
  | flt
  deriving DecidableEq, Repr

/-- `term_at` (`arithmetic_sequence.rs:284-304`) for Integer begin and step. -/
def termAt (b i s : Int) : Term :=
  if isFix b ∧ isFix s then .int (b + i * s) else .flt

/-- `build_terms` (`arithmetic_sequence.rs:609-622`): `n` terms from index `start`. -/
def buildTerms (b s start n : Int) : List Term :=
  (List.range n.toNat).map fun k : Nat => termAt b (start + (k : Int)) s

/-- `ArithmeticSequence#size` (`arithmetic_sequence.rs:482-497`); `none` is
`Float::INFINITY`. -/
def asSize (fc : Int → Int → Int → Bool → Cnt) (a : ASeq) : Res (Option Int) :=
  if a.s = 0 then .argErr
  else match a.b, a.e with
    | some b, some e =>
      match finiteCount fc b e a.s a.excl with
      | .fin n => .ok (some n)
      | .inf => .ok none
    | _, _ => .ok none

/-- `ArithmeticSequence#first` without an argument (`arithmetic_sequence.rs:530-533`). -/
def asFirst (a : ASeq) : Option Int := a.b

/-- `ArithmeticSequence#first(n)` (`arithmetic_sequence.rs:534-558`). -/
def asFirstN (fc : Int → Int → Int → Bool → Cnt) (a : ASeq) (n : Int) : Res (List Term) :=
  if n < 0 then .argErr
  else if n = 0 then .ok []
  else if a.s = 0 then .typeErr
  else match a.b with
    | none => .argErr
    | some b =>
      let take := match a.e with
        | none => n
        | some e =>
          match finiteCount fc b e a.s a.excl with
          | .inf => n
          | .fin c => min n c
      .ok (buildTerms b a.s 0 take)

/-- `ArithmeticSequence#last` without an argument (`arithmetic_sequence.rs:570-597`). -/
def asLast (fc : Int → Int → Int → Bool → Cnt) (a : ASeq) : Res Term :=
  if a.s = 0 then .typeErr
  else match a.e, a.b with
    | none, _ => .rangeErr
    | some _, none => .typeErr
    | some e, some b =>
      match finiteCount fc b e a.s a.excl with
      | .inf => .rangeErr
      | .fin c => if c = 0 then .nil else .ok (termAt b (c - 1) a.s)

/-- `ArithmeticSequence#last(n)` (`arithmetic_sequence.rs:570-607`). -/
def asLastN (fc : Int → Int → Int → Bool → Cnt) (a : ASeq) (n : Int) : Res (List Term) :=
  if a.s = 0 then .typeErr
  else match a.e, a.b with
    | none, _ => .rangeErr
    | some _, none => .typeErr
    | some e, some b =>
      match finiteCount fc b e a.s a.excl with
      | .inf => .rangeErr
      | .fin c =>
        if n < 0 then .argErr
        else if c = 0 ∨ n = 0 then .ok []
        else
          let n' := min n c
          .ok (buildTerms b a.s (c - n') n')

/-- `ArithmeticSequence#to_a` (`/repo/monoruby/builtins/arithmetic_sequence.rb:91-97`): `b + i * s`
computed in Ruby, so exactly, for `i` below `size`. -/
def asToA (fc : Int → Int → Int → Bool → Cnt) (a : ASeq) : Res (List Int) :=
  match asSize fc a with
  | .ok none => .rangeErr
  | .ok (some c) =>
    match a.b with
    | some b => .ok ((List.range c.toNat).map fun k : Nat => b + (k : Int) * a.s)
    | none => .typeErr
  | .argErr => .argErr
  | _ => .runtimeErr

/-- The loop `i = 0; while i < cnt; yield b + i * s; i += 1; end`
(`arithmetic_sequence.rb:119-123`). -/
def asLoop (b s cnt i : Int) : List Int :=
  if i < cnt then (b + i * s) :: asLoop b s cnt (i + 1) else []
termination_by (cnt - i).toNat
decreasing_by omega

/-- `ArithmeticSequence#each` with a block, bounded (`arithmetic_sequence.rb:104-126`). -/
def asEach (fc : Int → Int → Int → Bool → Cnt) (a : ASeq) : Res (List Int) :=
  if a.s = 0 then .typeErr
  else match a.b with
    | none => .argErr
    | some b =>
      match asSize fc a with
      | .ok (some c) => .ok (asLoop b a.s c 0)
      | .ok none => .ub  -- never returns
      | _ => .argErr

/-! ## `array[sequence]` -/

/-- The unchecked reads of the last loop (`arithmetic_sequence.rs:783-791`): `n` reads from `j`,
`s` apart.  A read outside the array is `none`. -/
def strideRead {α : Type} (l : List α) (j s : Int) : Nat → Option (List α)
  | 0 => some []
  | n + 1 =>
    if j < 0 then none
    else match l[j.toNat]? with
      | none => none
      | some x => (strideRead l (j + s) s n).map (x :: ·)

/-- `ArithmeticSequence#[]`, which `Array#[]` calls (`arithmetic_sequence.rs:655-793`).  Endpoints
and step that are not inline Integers raise `TypeError`.  `i64` arithmetic cannot overflow here:
every operand is below `2 ^ 63` in size. -/
def index {α : Type} (a : ASeq) (l : List α) : Res (List α) :=
  let alen : Int := l.length
  if a.s = 0 then .ok []
  else if !isFix a.s then .typeErr
  else if (match a.b with | some b => !isFix b | none => false) then .typeErr
  else if (match a.e with | some e => !isFix e | none => false) then .typeErr
  else
    let s := a.s
    let (b, e, excl) : Option Int × Option Int × Bool :=
      if s < 0 then
        match a.e with
        | some e => if a.excl then (some (e + 1), a.b, false) else (some e, a.b, a.excl)
        | none => (none, a.b, a.excl)
      else (a.b, a.e, a.excl)
    let beg0 := b.getD 0
    let end0 := e.getD (-1)
    let excl := if e.isNone then false else excl
    let strict : Bool := decide (s.natAbs > 1)
    let beg := if beg0 < 0 then beg0 + alen else beg0
    if beg < 0 then (if strict then .rangeErr else .nil)
    else
      let end1 := if end0 < 0 then end0 + alen else end0
      let end2 := if !excl then end1 + 1 else end1
      if beg > alen then (if strict then .rangeErr else .nil)
      else if strict ∧ end2 - beg > alen then .rangeErr
      else
        let end3 := if !strict ∧ end2 > alen then alen else end2
        let len0 := max (end3 - beg) 0
        let len := if alen < len0 ∨ alen < beg + len0 then alen - beg else len0
        if len = 0 then .ok []
        else if s = 1 then .ok ((l.drop beg.toNat).take len.toNat)
        else if s = -1 then .ok ((l.drop beg.toNat).take len.toNat).reverse
        else
          let sEff := if s < 0 ∧ s < -len then -len else s
          let ustep : Int := sEff.natAbs
          let n := (len + ustep - 1) / ustep
          let j := beg + (if sEff > 0 then 0 else len - 1)
          match strideRead l j sEff n.toNat with
          | some r => .ok r
          | none => .ub

end Verif.Rng
