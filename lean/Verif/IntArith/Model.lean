import Verif.Value.Model
import Mathlib.Data.Int.Bitwise

/-!
# Integer operators

Models `monoruby/src/value/numeric.rs` (the `RealKind` operators and the
`RubyDiv`/`RubyMod`/`RubyDivMod` traits) and the Integer cases of
`monoruby/src/executor/op/binary_ops.rs`.

An `i64` is an `Int`; an `i64` operation that would overflow is a panic
(`Err.panic`), unless the code uses a `wrapping_`/`checked_` form.  A `BigInt` is
an `Int`; `/` and `%` on it truncate (`Int.tdiv`, `Int.tmod`).  Float operands and
the `coerce` protocol are not modelled.
-/

namespace Verif.IntArith
open Verif.Value

/-- Ruby errors and panics that the modelled functions can produce. -/
inductive Err where
  | zeroDiv
  | expTooLarge
  | shiftTooBig
  | panic
  | notInteger
deriving DecidableEq, Repr

abbrev Res := Except Err

def fits64 (n : Int) : Bool := decide (-(2 ^ 63) ≤ n) && decide (n < 2 ^ 63)

/-- The result of a plain `i64` operator: panics on overflow. -/
def chk (n : Int) : Res Int := if fits64 n then .ok n else .error .panic

/-- `Value::integer(i64)` on an `i64` given as an `Int`. -/
def integerI (n : Int) : Val := Value.integer (BitVec.ofInt 64 n)

/-- `RealKind` restricted to Integers, `numeric.rs:225-229`. -/
inductive RealKind where
  | integer (i : Int)
  | bigint (n : Int)
deriving DecidableEq, Repr

/-- `RealKind::try_from(Value)`, `numeric.rs:353-360`. -/
def RealKind.ofVal : Val → Res RealKind
  | .imm w => if isFixnum w then .ok (.integer (w.sshiftRight 1).toInt) else .error .notInteger
  | .bigint n => .ok (.bigint n)
  | .hfloat _ => .error .notInteger

/-- `From<RealKind> for Value`, `numeric.rs:262-270`. -/
def RealKind.toVal : RealKind → Val
  | .integer i => integerI i
  | .bigint n => Value.bigint n

/-- `binops!` (`numeric.rs:385-423`) with `checked_$op` described by its contract:
`op` is the exact operation, and the checked form succeeds when the result fits. -/
def binop (op : Int → Int → Int) : RealKind → RealKind → RealKind
  | .integer a, .integer b => if fits64 (op a b) then .integer (op a b) else .bigint (op a b)
  | .integer a, .bigint b => .bigint (op a b)
  | .bigint a, .integer b => .bigint (op a b)
  | .bigint a, .bigint b => .bigint (op a b)

/-- `add_values_raw`, `sub_values_raw`, `mul_values_raw`: `binary_ops.rs:214-225`. -/
def addValues (l r : Val) : Res Val := do
  pure (binop (· + ·) (← RealKind.ofVal l) (← RealKind.ofVal r)).toVal
def subValues (l r : Val) : Res Val := do
  pure (binop (· - ·) (← RealKind.ofVal l) (← RealKind.ofVal r)).toVal
def mulValues (l r : Val) : Res Val := do
  pure (binop (· * ·) (← RealKind.ofVal l) (← RealKind.ofVal r)).toVal

/-- `Neg for RealKind`, `numeric.rs:475-487`. -/
def negKind : RealKind → RealKind
  | .integer i => if fits64 (-i) then .integer (-i) else .bigint (-i)
  | .bigint n => .bigint (-n)

def negValue (v : Val) : Res Val := do
  pure (negKind (← RealKind.ofVal v)).toVal

/-- `RubyDiv for i64`, `numeric.rs:623-635`.  Rust's `/` panics on a zero divisor
and on overflow. -/
def divI64 (a b : Int) : Res Int :=
  if b = 0 then .error .panic
  else if a > 0 ∧ b < 0 then do chk ((← chk ((← chk (a - 1)).tdiv b)) - 1)
  else if a < 0 ∧ b > 0 then do chk ((← chk ((← chk (a + 1)).tdiv b)) - 1)
  else chk (a.tdiv b)

/-- `RubyMod for i64`, `numeric.rs:655-667`.  Rust's `%` panics on a zero divisor
and when the matching division overflows. -/
def modI64 (a b : Int) : Res Int :=
  if b = 0 then .error .panic
  else if a > 0 ∧ b < 0 then do chk ((← chk ((← chk (a - 1)).tmod b + b)) + 1)
  else if a < 0 ∧ b > 0 then do chk ((← chk ((← chk (a + 1)).tmod b + b)) - 1)
  else do let _ ← chk (a.tdiv b); chk (a.tmod b)

/-- `RubyDivMod for i64`, `numeric.rs:558-573`. -/
def divModI64 (a b : Int) : Res (Int × Int) :=
  if b = 0 then .error .panic
  else if a > 0 ∧ b < 0 then do
    let a' ← chk (a - 1)
    let q ← chk (a'.tdiv b)
    pure (← chk (q - 1), ← chk ((← chk (a'.tmod b + b)) + 1))
  else if a < 0 ∧ b > 0 then do
    let a' ← chk (a + 1)
    let q ← chk (a'.tdiv b)
    pure (← chk (q - 1), ← chk ((← chk (a'.tmod b + b)) - 1))
  else do pure (← chk (a.tdiv b), ← chk (a.tmod b))

/-- `RubyDiv for BigInt`, `numeric.rs:645-657`. -/
def divBig (a b : Int) : Res Int :=
  if b = 0 then .error .panic
  else if a > 0 ∧ b < 0 then .ok ((a - 1).tdiv b - 1)
  else if a < 0 ∧ b > 0 then .ok ((a + 1).tdiv b - 1)
  else .ok (a.tdiv b)

/-- `RubyMod for BigInt`, `numeric.rs:681-692`. -/
def modBig (a b : Int) : Res Int :=
  if b = 0 then .error .panic
  else if a > 0 ∧ b < 0 then .ok ((a - 1).tmod b + b + 1)
  else if a < 0 ∧ b > 0 then .ok ((a + 1).tmod b + b - 1)
  else .ok (a.tmod b)

/-- `RubyDivMod for BigInt`, `numeric.rs:590-605`. -/
def divModBig (a b : Int) : Res (Int × Int) :=
  if b = 0 then .error .panic
  else if a > 0 ∧ b < 0 then .ok ((a - 1).tdiv b - 1, (a - 1).tmod b + b + 1)
  else if a < 0 ∧ b > 0 then .ok ((a + 1).tdiv b - 1, (a + 1).tmod b + b - 1)
  else .ok (a.tdiv b, a.tmod b)

/-- `RubyDiv for RealKind`, `numeric.rs:425-447`. -/
def rubyDiv : RealKind → RealKind → Res RealKind
  | .integer a, .integer b => do pure (.integer (← divI64 a b))
  | .integer a, .bigint b => do pure (.bigint (← divBig a b))
  | .bigint a, .integer b => do pure (.bigint (← divBig a b))
  | .bigint a, .bigint b => do pure (.bigint (← divBig a b))

/-- `RubyMod for RealKind`, `numeric.rs:449-471`. -/
def rubyMod : RealKind → RealKind → Res RealKind
  | .integer a, .integer b => do pure (.integer (← modI64 a b))
  | .integer a, .bigint b => do pure (.bigint (← modBig a b))
  | .bigint a, .integer b => do pure (.bigint (← modBig a b))
  | .bigint a, .bigint b => do pure (.bigint (← modBig a b))

/-- `RubyDivMod for RealKind`, `numeric.rs:302-343`. -/
def rubyDivMod : RealKind → RealKind → Res (RealKind × RealKind)
  | .integer a, .integer b => do let (d, m) ← divModI64 a b; pure (.integer d, .integer m)
  | .integer a, .bigint b => do let (d, m) ← divModBig a b; pure (.bigint d, .bigint m)
  | .bigint a, .integer b => do let (d, m) ← divModBig a b; pure (.bigint d, .bigint m)
  | .bigint a, .bigint b => do let (d, m) ← divModBig a b; pure (.bigint d, .bigint m)

/-- `RealKind::check_zero_div`, `numeric.rs:362-368`. -/
def RealKind.isZero : RealKind → Bool
  | .integer i => i == 0
  | .bigint n => n == 0

/-- `div_values_raw`, `binary_ops.rs:312-329`. -/
def divValues (l r : Val) : Res Val := do
  let a ← RealKind.ofVal l
  let b ← RealKind.ofVal r
  if b.isZero then .error .zeroDiv else pure (← rubyDiv a b).toVal

/-- `rem_values_raw`, `binary_ops.rs:354-371`. -/
def remValues (l r : Val) : Res Val := do
  let a ← RealKind.ofVal l
  let b ← RealKind.ofVal r
  if b.isZero then .error .zeroDiv else pure (← rubyMod a b).toVal

/-- `Integer#divmod`: the zero test of the builtin followed by
`RealKind::ruby_div_mod` (`builtins/numeric.rs:79-129`, Integer operands). -/
def divmodValues (l r : Val) : Res (Val × Val) := do
  let a ← RealKind.ofVal l
  let b ← RealKind.ofVal r
  if b.isZero then .error .zeroDiv else do
    let (d, m) ← rubyDivMod a b
    pure (d.toVal, m.toVal)

/-! ## Shifts -/

/-- `i64` wrap-around. -/
def wrap64 (n : Int) : Int := n.bmod (2 ^ 64)

/-- `u32::MAX` -/
def U32MAX : Nat := 4294967295

/-- `safe_int_shr`, `binary_ops.rs:803-812`.  `checked_shr` is an arithmetic shift
for counts below 64, i.e. floored division by a power of two. -/
def safeIntShr (l : Int) (r : Nat) : Val :=
  if r ≥ 64 then integerI (if l ≥ 0 then 0 else -1)
  else integerI (l / 2 ^ r)

/-- `safe_int_shl`, `binary_ops.rs:814-836`. -/
def safeIntShl (l : Int) (r : Nat) : Res Val :=
  if r > U32MAX then
    if l = 0 then .ok (integerI 0) else .error .shiftTooBig
  else
    if r < 64 ∧ wrap64 (l * 2 ^ r) / 2 ^ r = l then .ok (integerI (wrap64 (l * 2 ^ r)))
    else .ok (Value.bigint (l * 2 ^ r))

/-- `safe_bigint_shr`, `binary_ops.rs:838-844`. -/
def safeBigShr (l : Int) (r : Nat) : Val :=
  if r > U32MAX then integerI (if l < 0 then -1 else 0)
  else Value.bigint (l / 2 ^ r)

/-- `safe_bigint_shl`, `binary_ops.rs:846-857`. -/
def safeBigShl (l : Int) (r : Nat) : Res Val :=
  if r > U32MAX then
    if l = 0 then .ok (integerI 0) else .error .shiftTooBig
  else .ok (Value.bigint (l * 2 ^ r))

/-- `shr_values_raw`, `binary_ops.rs:652-697` (Integer operands). -/
def shrKind : RealKind → RealKind → Res Val
  | .integer a, .integer n =>
    if n ≥ 0 then pure (safeIntShr a n.toNat) else safeIntShl a (-n).toNat
  | .bigint a, .integer n =>
    if n ≥ 0 then pure (safeBigShr a n.toNat) else safeBigShl a (-n).toNat
  | .integer a, .bigint n =>
    if n > 0 then pure (integerI (if a ≥ 0 then 0 else -1))
    else if a = 0 then pure (integerI 0) else .error .shiftTooBig
  | .bigint a, .bigint n =>
    if n > 0 then pure (integerI (if a < 0 then -1 else 0))
    else if a = 0 then pure (integerI 0) else .error .shiftTooBig

/-- `shr_values_raw` on values. -/
def shrValues (l r : Val) : Res Val := do shrKind (← RealKind.ofVal l) (← RealKind.ofVal r)

/-- `shl_values_raw`, `binary_ops.rs:726-773` (Integer operands). -/
def shlKind : RealKind → RealKind → Res Val
  | .integer a, .integer n =>
    if n ≥ 0 then safeIntShl a n.toNat else pure (safeIntShr a (-n).toNat)
  | .bigint a, .integer n =>
    if n ≥ 0 then safeBigShl a n.toNat else pure (safeBigShr a (-n).toNat)
  | .integer a, .bigint n =>
    if n > 0 then (if a = 0 then pure (integerI 0) else .error .shiftTooBig)
    else pure (integerI (if a ≥ 0 then 0 else -1))
  | .bigint a, .bigint n =>
    if n > 0 then (if a = 0 then pure (integerI 0) else .error .shiftTooBig)
    else pure (integerI (if a < 0 then -1 else 0))

/-- `shl_values_raw` on values. -/
def shlValues (l r : Val) : Res Val := do shlKind (← RealKind.ofVal l) (← RealKind.ofVal r)

/-- `fold_shl_pos`, `builtins/numeric/integer.rs:744-764` (compile-time folding). -/
def foldShlPos (l : Int) (k : Nat) : Option Int :=
  if l = 0 then some 0
  else if k ≥ 63 then none
  else
    let r := wrap64 (l * 2 ^ k)
    if r / 2 ^ k = l ∧ isI63 (BitVec.ofInt 64 r) then some r else none

/-- `fold_shr`, `builtins/numeric/integer.rs:705-719`. -/
def foldShr (l r : Int) : Option Int :=
  if r ≥ 0 then some (if r ≥ 64 then (if l ≥ 0 then 0 else -1) else l / 2 ^ r.toNat)
  else foldShlPos l (-r).toNat

/-- `fold_shl`, `builtins/numeric/integer.rs:726-740`. -/
def foldShl (l r : Int) : Option Int :=
  if r ≥ 0 then foldShlPos l r.toNat
  else some (if (-r).toNat ≥ 64 then (if l ≥ 0 then 0 else -1) else l / 2 ^ (-r).toNat)

/-! ## Power -/

/-- The result of `**`: an Integer value or the Rational built by
`Value::rational(num, den)`. -/
inductive PowVal where
  | int (v : Val)
  | ratio (num den : Int)
deriving DecidableEq, Repr

/-- `BIGLEN_LIMIT`, `binary_ops.rs:422`. -/
def BIGLEN_LIMIT : Nat := 2 ^ 34

/-- number of bits of a magnitude: `64 - leading_zeros` / `BigInt::bits`. -/
def bits (a : Int) : Nat := a.natAbs.size

/-- `check_pow_limit`, `binary_ops.rs:426-432`.  `checked_mul` on `u64` cannot fail
below the two bounds, so the product is compared directly. -/
def checkPowLimit (baseBits exp : Nat) : Bool :=
  decide (baseBits ≤ BIGLEN_LIMIT) && decide (exp ≤ BIGLEN_LIMIT) &&
    decide (baseBits * exp ≤ BIGLEN_LIMIT)

/-- `pow_ii`, `binary_ops.rs:434-469`.  `i64::checked_pow` is described by its
contract (succeeds when the power fits). `-rhs` on `i32` panics for `i32::MIN`. -/
def powII (l r : Int) : Res PowVal :=
  if -(2 ^ 31) ≤ r ∧ r < 2 ^ 31 then
    if r < 0 then
      if l = 0 then .error .zeroDiv
      else if l = 1 then .ok (.int (integerI 1))
      else if r = -(2 ^ 31) then .error .panic
      else if l = -1 then .ok (.int (integerI (if (-r) % 2 = 1 then -1 else 1)))
      else .ok (.ratio 1 (l ^ (-r).toNat))
    else
      if fits64 (l ^ r.toNat) then .ok (.int (integerI (l ^ r.toNat)))
      else if !checkPowLimit (bits l) r.toNat then .error .expTooLarge
      else .ok (.int (Value.bigint (l ^ r.toNat)))
  else .error .expTooLarge

/-- `as u32` on a non-negative `i64`. -/
def asU32 (n : Int) : Nat := (n % 2 ^ 32).toNat

/-- The `(BigInt, Fixnum)` arm of `pow_values_raw`, `binary_ops.rs:521-552`. -/
def powBigFix (l r : Int) : Res PowVal :=
  if r < 0 then
    if l = 0 then .error .zeroDiv
    else if l = 1 then .ok (.int (integerI 1))
    else if l = -1 then .ok (.int (integerI (if (-r) % 2 = 1 then -1 else 1)))
    else .ok (.ratio 1 (l ^ asU32 (-r)))
  else
    if !checkPowLimit (bits l) r.toNat then .error .expTooLarge
    else if r.toNat ≤ U32MAX then .ok (.int (Value.bigint (l ^ r.toNat)))
    else .error .expTooLarge

/-- The `(Fixnum, BigInt)` and `(BigInt, BigInt)` arms of `pow_values_raw`,
`binary_ops.rs:503-519` and `553-570`. -/
def powBigExp (l r : Int) : Res PowVal :=
  if l = 1 then .ok (.int (integerI 1))
  else if l = -1 then .ok (.int (integerI (if r % 2 = 1 then -1 else 1)))
  else if l = 0 then if r > 0 then .ok (.int (integerI 0)) else .error .zeroDiv
  else .error .expTooLarge

/-- `pow_values_raw`, `binary_ops.rs:494-571` (Integer operands). -/
def powKind : RealKind → RealKind → Res PowVal
  | .integer a, .integer n => powII a n
  | .bigint a, .integer n => powBigFix a n
  | .integer a, .bigint n => powBigExp a n
  | .bigint a, .bigint n => powBigExp a n

/-- `pow_values_raw` on values. -/
def powValues (l r : Val) : Res PowVal := do powKind (← RealKind.ofVal l) (← RealKind.ofVal r)

/-! ## Bit operators -/

/-- `int_binop_values!`, `binary_ops.rs:600-642`: `i64` operator on two inline
operands, `BigInt` operator otherwise.  `bv` is the machine operator, `big` the
`num::BigInt` one. -/
def bitKind (bv : BitVec 64 → BitVec 64 → BitVec 64) (big : Int → Int → Int) :
    RealKind → RealKind → Res Val
  | .integer a, .integer b => pure (Value.integer (bv (BitVec.ofInt 64 a) (BitVec.ofInt 64 b)))
  | .integer a, .bigint b => pure (Value.bigint (big a b))
  | .bigint a, .integer b => pure (Value.bigint (big a b))
  | .bigint a, .bigint b => pure (Value.bigint (big a b))

def bitValues (bv : BitVec 64 → BitVec 64 → BitVec 64) (big : Int → Int → Int)
    (l r : Val) : Res Val := do bitKind bv big (← RealKind.ofVal l) (← RealKind.ofVal r)

/-- `bitand_values`, `bitor_values`, `bitxor_values`: `binary_ops.rs:644-648`.
`BigInt`'s operators work on infinite two's complement: `Int.land`, `Int.lor`,
`Int.xor`. -/
def bitandValues := bitValues (· &&& ·) Int.land
def bitorValues := bitValues (· ||| ·) Int.lor
def bitxorValues := bitValues (· ^^^ ·) Int.xor

end Verif.IntArith
