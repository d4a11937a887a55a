import Mathlib.Data.Rat.Lemmas
import Mathlib.Algebra.Order.Ring.Abs
import Mathlib.Algebra.Order.Field.Rat

/-!
# Complex

builtins/numeric/complex.rs, value/rvalue/complex.rs, value/numeric.rs and the operators of
executor/op/binary_ops.rs.

Simplifications for the whole file: `i64` and `BigInt` are `ℤ` (the code promotes on overflow); a
Rational is an element of `ℚ` (`RationalInner` is kept reduced, see Verif/Rational); Floats are a
parameter, with the operations the code uses on them, so that what is proved holds for every
rounding; a component that is another Numeric subclass is not modelled, nor are operators that the
program has redefined.  `none` is `ZeroDivisionError`.
-/

namespace Verif.ComplexNum

/-- What the code does with `f64`. -/
class FloatOps (F : Type) where
  ofInt : ℤ → F
  ofRat : ℚ → F
  add : F → F → F
  sub : F → F → F
  mul : F → F → F
  div : F → F → F
  neg : F → F
  abs : F → F
  eq : F → F → Bool
  lt : F → F → Bool

/-- `Real`: a component of a Complex, or a real operand.  value/numeric.rs:9-120 -/
inductive N (F : Type) where
  | int (n : ℤ)
  | rat (q : ℚ)
  | flt (f : F)
  deriving DecidableEq

/-- `RealKind`.  value/numeric.rs:225-229 -/
inductive RK (F : Type) where
  | int (n : ℤ)
  | flt (f : F)
  deriving DecidableEq

/-- `ComplexInner`.  value/rvalue/complex.rs:3-5 -/
@[ext] structure Cx (F : Type) where
  re : N F
  im : N F
  deriving DecidableEq

variable {F : Type} [FloatOps F]

/-- `RealKind::from(Real)`: a Rational becomes a Float.  value/numeric.rs:282-300 -/
def RK.from : N F → RK F
  | .int n => .int n
  | .rat q => .flt (FloatOps.ofRat q)
  | .flt f => .flt f

/-- `Real::from(RealKind)`.  value/numeric.rs:87-95 -/
def RK.toN : RK F → N F
  | .int n => .int n
  | .flt f => .flt f

/-- `RealKind + RealKind`.  value/numeric.rs:386-420 -/
def RK.add : RK F → RK F → RK F
  | .int a, .int b => .int (a + b)
  | .int a, .flt b => .flt (FloatOps.add (FloatOps.ofInt a) b)
  | .flt a, .int b => .flt (FloatOps.add a (FloatOps.ofInt b))
  | .flt a, .flt b => .flt (FloatOps.add a b)

/-- `RealKind - RealKind`.  value/numeric.rs:386-420 -/
def RK.sub : RK F → RK F → RK F
  | .int a, .int b => .int (a - b)
  | .int a, .flt b => .flt (FloatOps.sub (FloatOps.ofInt a) b)
  | .flt a, .int b => .flt (FloatOps.sub a (FloatOps.ofInt b))
  | .flt a, .flt b => .flt (FloatOps.sub a b)

/-- `RealKind * RealKind`.  value/numeric.rs:386-420 -/
def RK.mul : RK F → RK F → RK F
  | .int a, .int b => .int (a * b)
  | .int a, .flt b => .flt (FloatOps.mul (FloatOps.ofInt a) b)
  | .flt a, .int b => .flt (FloatOps.mul a (FloatOps.ofInt b))
  | .flt a, .flt b => .flt (FloatOps.mul a b)

/-- `-RealKind`.  value/numeric.rs:475-487 -/
def RK.neg : RK F → RK F
  | .int a => .int (-a)
  | .flt a => .flt (FloatOps.neg a)

/-- `RealKind == RealKind`.  value/numeric.rs:231-244 -/
def RK.eq : RK F → RK F → Bool
  | .int a, .int b => a == b
  | .int a, .flt b => FloatOps.eq (FloatOps.ofInt a) b
  | .flt a, .int b => FloatOps.eq a (FloatOps.ofInt b)
  | .flt a, .flt b => FloatOps.eq a b

/-- `Real::is_zero`.  value/numeric.rs:169-181 -/
def isZero (x : N F) : Bool :=
  match RK.from x with
  | .int n => n == 0
  | .flt f => FloatOps.eq f (FloatOps.ofInt 0)

/-- `Real + Real`, `Real - Real`, `Real * Real`, `-Real`.  value/numeric.rs:127-153 -/
def rAdd (x y : N F) : N F := (RK.add (.from x) (.from y)).toN
def rSub (x y : N F) : N F := (RK.sub (.from x) (.from y)).toN
def rMul (x y : N F) : N F := (RK.mul (.from x) (.from y)).toN
def rNeg (x : N F) : N F := (RK.neg (.from x)).toN

/-- `num::Complex`'s operators, and `num::Complex::from` of a real, which has the Integer 0 as
imaginary part.  (num-complex; used at executor/op/binary_ops.rs:219-250) -/
def cAdd (a b : Cx F) : Cx F := ⟨rAdd a.re b.re, rAdd a.im b.im⟩
def cSub (a b : Cx F) : Cx F := ⟨rSub a.re b.re, rSub a.im b.im⟩
def cMul (a b : Cx F) : Cx F :=
  ⟨rSub (rMul a.re b.re) (rMul a.im b.im), rAdd (rMul a.re b.im) (rMul a.im b.re)⟩
def ofReal (x : N F) : Cx F := ⟨x, .int 0⟩

/-! The methods of the components themselves: `Integer#+`, `Rational#+`, `Float#+`, … , which the
code sends when it works on components one by one. -/

/-- `Integer#+`, `Rational#+`, `Float#+`.  builtins/numeric/rational.rs:226-252,
executor/op/binary_ops.rs:184-290 -/
def nAdd : N F → N F → N F
  | .int a, .int b => .int (a + b)
  | .int a, .rat b => .rat (a + b)
  | .rat a, .int b => .rat (a + b)
  | .rat a, .rat b => .rat (a + b)
  | .int a, .flt b => .flt (FloatOps.add (FloatOps.ofInt a) b)
  | .rat a, .flt b => .flt (FloatOps.add (FloatOps.ofRat a) b)
  | .flt a, .int b => .flt (FloatOps.add a (FloatOps.ofInt b))
  | .flt a, .rat b => .flt (FloatOps.add a (FloatOps.ofRat b))
  | .flt a, .flt b => .flt (FloatOps.add a b)

/-- `-`, likewise. -/
def nSub : N F → N F → N F
  | .int a, .int b => .int (a - b)
  | .int a, .rat b => .rat (a - b)
  | .rat a, .int b => .rat (a - b)
  | .rat a, .rat b => .rat (a - b)
  | .int a, .flt b => .flt (FloatOps.sub (FloatOps.ofInt a) b)
  | .rat a, .flt b => .flt (FloatOps.sub (FloatOps.ofRat a) b)
  | .flt a, .int b => .flt (FloatOps.sub a (FloatOps.ofInt b))
  | .flt a, .rat b => .flt (FloatOps.sub a (FloatOps.ofRat b))
  | .flt a, .flt b => .flt (FloatOps.sub a b)

/-- `*`, likewise. -/
def nMul : N F → N F → N F
  | .int a, .int b => .int (a * b)
  | .int a, .rat b => .rat (a * b)
  | .rat a, .int b => .rat (a * b)
  | .rat a, .rat b => .rat (a * b)
  | .int a, .flt b => .flt (FloatOps.mul (FloatOps.ofInt a) b)
  | .rat a, .flt b => .flt (FloatOps.mul (FloatOps.ofRat a) b)
  | .flt a, .int b => .flt (FloatOps.mul a (FloatOps.ofInt b))
  | .flt a, .rat b => .flt (FloatOps.mul a (FloatOps.ofRat b))
  | .flt a, .flt b => .flt (FloatOps.mul a b)

/-- A Rational over an exact number.  builtins/numeric/rational.rs:318-346,
value/rvalue/rational.rs:146-153 -/
def ratDiv (a b : ℚ) : Option (N F) := if b = 0 then none else some (.rat (a / b))

/-- `quo`: `Rational(self) / other`, and `/` for a Float.
/repo/monoruby/builtins/numeric.rb:85-90, builtins/numeric/float.rs:127 -/
def nQuo : N F → N F → Option (N F)
  | .int a, .int b => ratDiv a b
  | .int a, .rat b => ratDiv a b
  | .rat a, .int b => ratDiv a b
  | .rat a, .rat b => ratDiv a b
  | .int a, .flt b => some (.flt (FloatOps.div (FloatOps.ofRat a) b))
  | .rat a, .flt b => some (.flt (FloatOps.div (FloatOps.ofRat a) b))
  | .flt a, .int b => some (.flt (FloatOps.div a (FloatOps.ofInt b)))
  | .flt a, .rat b => some (.flt (FloatOps.div a (FloatOps.ofRat b)))
  | .flt a, .flt b => some (.flt (FloatOps.div a b))

/-- `abs`. -/
def nAbs : N F → N F
  | .int a => .int |a|
  | .rat a => .rat |a|
  | .flt a => .flt (FloatOps.abs a)

/-- `-@`. -/
def nNeg : N F → N F
  | .int a => .int (-a)
  | .rat a => .rat (-a)
  | .flt a => .flt (FloatOps.neg a)

/-- `>`.  A Float with another number is compared as Floats; simplified, see Verif/NumCmp for
Integers beyond 2⁵³. -/
def nGt : N F → N F → Bool
  | .int a, .int b => decide (b < a)
  | .int a, .rat b => decide (b < a)
  | .rat a, .int b => decide ((b : ℚ) < a)
  | .rat a, .rat b => decide (b < a)
  | .int a, .flt b => FloatOps.lt b (FloatOps.ofInt a)
  | .rat a, .flt b => FloatOps.lt b (FloatOps.ofRat a)
  | .flt a, .int b => FloatOps.lt (FloatOps.ofInt b) a
  | .flt a, .rat b => FloatOps.lt (FloatOps.ofRat b) a
  | .flt a, .flt b => FloatOps.lt b a

/-- `rational_canonicalize`.  builtins/numeric/complex.rs:776-787 -/
def canon : N F → N F
  | .rat q => if q.den = 1 then .int q.num else .rat q
  | x => x

/-! ## Operators -/

/-- `Complex#+`, `-`, `*` with another Complex.  executor/op/binary_ops.rs:251-253 -/
def add (a b : Cx F) : Cx F := cAdd a b
def sub (a b : Cx F) : Cx F := cSub a b
def mul (a b : Cx F) : Cx F := cMul a b

/-- `Complex#+` with a real: an Integer or a Float is made a Complex; a Rational is added to the
real part alone.  executor/op/binary_ops.rs:83-128, 239-256 -/
def addReal (a : Cx F) (x : N F) : Cx F :=
  match x with
  | .rat _ => ⟨nAdd a.re x, a.im⟩
  | _ => cAdd a (ofReal x)

/-- `Complex#-` with a real.  executor/op/binary_ops.rs:83-128, 239-256 -/
def subReal (a : Cx F) (x : N F) : Cx F :=
  match x with
  | .rat _ => ⟨nSub a.re x, a.im⟩
  | _ => cSub a (ofReal x)

/-- `Complex#*` with a real.  executor/op/binary_ops.rs:83-128, 239-256 -/
def mulReal (a : Cx F) (x : N F) : Cx F :=
  match x with
  | .rat _ => ⟨nMul a.re x, nMul a.im x⟩
  | _ => cMul a (ofReal x)

/-- `Complex#coerce` of a real: the first element of the result (the second is the receiver); a
Rational becomes a Float.  builtins/numeric/complex.rs:242-277 -/
def coerce (x : N F) : Cx F :=
  match x with
  | .rat q => ⟨.flt (FloatOps.ofRat q), .int 0⟩
  | _ => ⟨x, .int 0⟩

/-- A real `+`, `-`, `*` a Complex: an Integer or a Float is made a Complex, a Rational goes
through `Complex#coerce`.  executor/op/binary_ops.rs:219-237,
builtins/numeric/rational.rs:238-250 -/
def realAdd (x : N F) (b : Cx F) : Cx F :=
  match x with
  | .rat _ => add (coerce x) b
  | _ => cAdd (ofReal x) b
def realSub (x : N F) (b : Cx F) : Cx F :=
  match x with
  | .rat _ => sub (coerce x) b
  | _ => cSub (ofReal x) b
def realMul (x : N F) (b : Cx F) : Cx F :=
  match x with
  | .rat _ => mul (coerce x) b
  | _ => cMul (ofReal x) b

/-- `Complex#-@`.  builtins/numeric/complex.rs:631-646 -/
def neg (a : Cx F) : Cx F := ⟨nNeg a.re, nNeg a.im⟩

/-- `Complex#conjugate`.  builtins/numeric/complex.rs:323-328 -/
def conj (a : Cx F) : Cx F := ⟨a.re, rNeg a.im⟩

/-- `Complex#abs2`.  builtins/numeric/complex.rs:335-342 -/
def abs2 (a : Cx F) : N F := rAdd (rMul a.re a.re) (rMul a.im a.im)

/-- `Complex#/`, `quo` with a Complex: Smith's algorithm.
builtins/numeric/complex.rs:820-883 -/
def div (a b : Cx F) : Option (Cx F) :=
  if nGt (nAbs b.re) (nAbs b.im) then do
    let r ← nQuo b.im b.re
    let n := nMul b.re (nAdd (.int 1) (nMul r r))
    let x ← nQuo (nAdd a.re (nMul a.im r)) n
    let y ← nQuo (nSub a.im (nMul a.re r)) n
    some ⟨canon x, canon y⟩
  else do
    let r ← nQuo b.re b.im
    let n := nMul b.im (nAdd (.int 1) (nMul r r))
    let x ← nQuo (nAdd (nMul a.re r) a.im) n
    let y ← nQuo (nSub (nMul a.im r) a.re) n
    some ⟨canon x, canon y⟩

/-- `Complex#/`, `quo` with a real.  builtins/numeric/complex.rs:885-897 -/
def divReal (a : Cx F) (x : N F) : Option (Cx F) := do
  let re ← nQuo a.re x
  let im ← nQuo a.im x
  some ⟨canon re, canon im⟩

/-- The loop of `pow_by_integer_exp`.  builtins/numeric/complex.rs:1023-1034 -/
def powLoop (result factor : Cx F) (n : ℕ) : Cx F :=
  if h : n = 0 then result
  else
    let result := if n % 2 = 1 then cMul result factor else result
    let m := n / 2
    powLoop result (if m = 0 then factor else cMul factor factor) m
termination_by n

/-- `Real::to_f64`. -/
def toF : N F → F
  | .int n => FloatOps.ofInt n
  | .rat q => FloatOps.ofRat q
  | .flt f => f

/-- The reciprocal in Floats: `num::Complex::new(1.0, 0.0) / fr`, whose components are
`(1·re + 0·im)/n` and `(0·re - 1·im)/n` with `n = re² + im²`.
builtins/numeric/complex.rs:1035-1040 -/
def recip (a : Cx F) : Cx F :=
  let re : F := toF a.re
  let im : F := toF a.im
  let one : F := FloatOps.ofInt 1
  let zero : F := FloatOps.ofInt 0
  let n : F := FloatOps.add (FloatOps.mul re re) (FloatOps.mul im im)
  ⟨.flt (FloatOps.div (FloatOps.add (FloatOps.mul one re) (FloatOps.mul zero im)) n),
   .flt (FloatOps.div (FloatOps.sub (FloatOps.mul zero re) (FloatOps.mul one im)) n)⟩

/-- `Complex#**` with an Integer (in the range of `i64`).
builtins/numeric/complex.rs:959-975, 1011-1042 -/
def pow (a : Cx F) (e : ℤ) : Cx F :=
  if e = 0 then ⟨.int 1, .int 0⟩
  else
    let r := powLoop ⟨.int 1, .int 0⟩ a e.natAbs
    if e < 0 then recip r else r

/-- `Complex#==` with a Complex.  builtins/numeric/complex.rs:75-84 -/
def eq (a b : Cx F) : Bool := RK.eq (.from a.re) (.from b.re) && RK.eq (.from a.im) (.from b.im)

/-- `==` of the components' own classes.  (Integer and Float: simplified, see Verif/NumCmp) -/
def nEq : N F → N F → Bool
  | .int a, .int b => a == b
  | .int a, .rat b => (a : ℚ) == b
  | .rat a, .int b => a == (b : ℚ)
  | .rat a, .rat b => a == b
  | .int a, .flt b => FloatOps.eq (FloatOps.ofInt a) b
  | .rat a, .flt b => FloatOps.eq (FloatOps.ofRat a) b
  | .flt a, .int b => FloatOps.eq a (FloatOps.ofInt b)
  | .flt a, .rat b => FloatOps.eq a (FloatOps.ofRat b)
  | .flt a, .flt b => FloatOps.eq a b

/-- `Complex#==` with a real.  builtins/numeric/complex.rs:85-91 -/
def eqReal (a : Cx F) (x : N F) : Bool := if !isZero a.im then false else nEq a.re x

/-- `<=>` of exact numbers and of Floats. -/
def nCmp (x y : N F) : Option Ordering :=
  if nGt x y then some .gt else if nGt y x then some .lt
  else if nEq x y then some .eq else none

/-- `Complex#<=>` with a Complex; `none` is nil.  builtins/numeric/complex.rs:393-411 -/
def cmp (a b : Cx F) : Option Ordering :=
  if !isZero a.im then none else if !isZero b.im then none else nCmp a.re b.re

/-- `Complex#<=>` with a real: a Rational is not among the accepted ones.
builtins/numeric/complex.rs:412-418 -/
def cmpReal (a : Cx F) (x : N F) : Option Ordering :=
  if !isZero a.im then none
  else match x with
    | .int _ => nCmp a.re x
    | .flt _ => nCmp a.re x
    | .rat _ => none

/-- `denominator` and `numerator` of an exact component; a Float's is not modelled (`none`). -/
def nDen : N F → Option ℕ
  | .int _ => some 1
  | .rat q => some q.den
  | .flt _ => none
def nNum : N F → Option ℤ
  | .int n => some n
  | .rat q => some q.num
  | .flt _ => none

/-- `Complex#denominator`.  builtins/numeric/complex.rs:504-514 -/
def denominator (a : Cx F) : Option ℕ := do
  let d ← nDen a.re
  let e ← nDen a.im
  some (Nat.lcm d e)

/-- `Complex#numerator`.  builtins/numeric/complex.rs:460-492 -/
def numerator (a : Cx F) : Option (Cx F) := do
  let d ← denominator a
  let reNum ← nNum a.re
  let reDen ← nDen a.re
  let imNum ← nNum a.im
  let imDen ← nDen a.im
  some ⟨.int (reNum * ((d / reDen : ℕ) : ℤ)), .int (imNum * ((d / imDen : ℕ) : ℤ))⟩

/-- `Complex#to_i`, `to_f` accept the Complex: the imaginary part is the exact zero.
builtins/numeric/complex.rs:551-587 -/
def exactZero : N F → Bool
  | .int n => n == 0
  | .rat q => q == 0
  | .flt _ => false

/-- `Complex#to_i`, `to_f`: the real part, on which the method is then called, or RangeError.
builtins/numeric/complex.rs:551-597 -/
def toReal (a : Cx F) : Option (N F) := if !exactZero a.im then none else some a.re

/-- `Complex#to_r`, likewise, but 0.0 is accepted.  builtins/numeric/complex.rs:600-628 -/
def toR (a : Cx F) : Option (N F) :=
  match a.im with
  | .flt f => if FloatOps.eq f (FloatOps.ofInt 0) then some a.re else none
  | im => if exactZero im then some a.re else none

end Verif.ComplexNum
