import Verif.IntMeth.Model
import Mathlib.Algebra.Order.Floor.Ring
import Mathlib.Data.Rat.Floor

/-!
# Comparison of Integers and Floats

Model of the numeric arms of `monoruby/src/executor/op.rs`: `bigint_cmp_float` (14-46), the operators
`<`, `<=`, `>`, `>=` (80-165), `==` (238-273) and `<=>` (796-817).  Compiled code converts the same way
(`cvtsi2sd`, jitgen/lir.rs:593).

A Float is NaN, an infinity, or a rational number; the two zeros are one, as comparisons see them.
-/

namespace Verif.NumCmp

open Verif.IntMeth (toF)

/-- A Float. -/
inductive F where
  | nan
  | inf (neg : Bool)
  | fin (x : ℚ)

/-- A number as the code tells them apart (`RV::Fixnum`, `RV::BigInt`, `RV::Float`). -/
inductive Num where
  | fix (i : ℤ)
  | big (i : ℤ)
  | flt (f : F)

/-- `f64::partial_cmp`. -/
def cmpF : F → F → Option Ordering
  | .nan, _ => none
  | _, .nan => none
  | .inf a, .inf b => some (if a = b then .eq else if a then .lt else .gt)
  | .inf a, .fin _ => some (if a then .lt else .gt)
  | .fin _, .inf b => some (if b then .gt else .lt)
  | .fin x, .fin y => some (if x < y then .lt else if y < x then .gt else .eq)

/-- `i as f64` (op.rs:96,250,806): rounded to nearest, ties to even, 53 bits. -/
def asF64 (i : ℤ) : ℚ :=
  let y : ℚ := ((toF i.natAbs).1 : ℚ) * 2 ^ (toF i.natAbs).2
  if i < 0 then -y else y

/-- `f64::trunc`. -/
def trunc (x : ℚ) : ℤ := if 0 ≤ x then ⌊x⌋ else ⌈x⌉

/-- `bigint_cmp_float` (op.rs:14-46). -/
def bigCmp (n : ℤ) (f : F) : Option Ordering :=
  match f with
  | .nan => none
  | .inf neg => if neg then some .gt else some .lt
  | .fin x =>
    if trunc x < n then some .gt
    else if n < trunc x then some .lt
    else
      let frac := x - trunc x
      if 0 < frac then some .lt
      else if frac < 0 then some .gt
      else some .eq

/-- `cmp` of two Integers. -/
def cmpZ (i j : ℤ) : Ordering := if i < j then .lt else if j < i then .gt else .eq

/-- `<=>` (op.rs:796-817). -/
def cmp : Num → Num → Option Ordering
  | .fix i, .fix j => some (cmpZ i j)
  | .fix i, .big j => some (cmpZ i j)
  | .fix i, .flt f => cmpF (.fin (asF64 i)) f
  | .big i, .fix j => some (cmpZ i j)
  | .big i, .big j => some (cmpZ i j)
  | .big i, .flt f => bigCmp i f
  | .flt f, .fix j => cmpF f (.fin (asF64 j))
  | .flt f, .big j => (bigCmp j f).map Ordering.swap
  | .flt f, .flt g => cmpF f g

/-- The operators. -/
inductive Op where
  | lt | le | gt | ge | eq
deriving DecidableEq, Repr

/-- An operator of two Integers. -/
def opZ (op : Op) (i j : ℤ) : Bool :=
  match op with
  | .lt => decide (i < j)
  | .le => decide (i ≤ j)
  | .gt => decide (j < i)
  | .ge => decide (j ≤ i)
  | .eq => decide (i = j)

/-- An operator of two doubles: false as soon as one is NaN. -/
def opF (op : Op) : F → F → Bool
  | .nan, _ => false
  | _, .nan => false
  | .inf a, .inf b =>
    match op with
    | .lt => a && !b
    | .le => a || !b
    | .gt => !a && b
    | .ge => !a || b
    | .eq => a == b
  | .inf a, .fin _ =>
    match op with
    | .lt => a
    | .le => a
    | .gt => !a
    | .ge => !a
    | .eq => false
  | .fin _, .inf b =>
    match op with
    | .lt => !b
    | .le => !b
    | .gt => b
    | .ge => b
    | .eq => false
  | .fin x, .fin y =>
    match op with
    | .lt => decide (x < y)
    | .le => decide (x ≤ y)
    | .gt => decide (y < x)
    | .ge => decide (y ≤ x)
    | .eq => decide (x = y)

/-- `ord.$op(&Ordering::Equal)`, false without an ordering (op.rs:99-104,258-260). -/
def opOrd (op : Op) : Option Ordering → Bool
  | none => false
  | some o =>
    match op with
    | .lt => o == .lt
    | .le => o != .gt
    | .gt => o == .gt
    | .ge => o != .lt
    | .eq => o == .eq

/-- The operators (op.rs:93-138,245-273). -/
def oper (op : Op) : Num → Num → Bool
  | .fix i, .fix j => opZ op i j
  | .fix i, .big j => opZ op i j
  | .fix i, .flt f => opF op (.fin (asF64 i)) f
  | .big i, .fix j => opZ op i j
  | .big i, .big j => opZ op i j
  | .big i, .flt f => opOrd op (bigCmp i f)
  | .flt f, .fix j => opF op f (.fin (asF64 j))
  | .flt f, .big j => opOrd op ((bigCmp j f).map Ordering.swap)
  | .flt f, .flt g => opF op f g

end Verif.NumCmp
