/-!
# Tagged values

Models the word-level encoding of Ruby values, `monoruby/src/value.rs`.

A machine word is a `BitVec 64`.  The heap is abstracted: a value that the code
stores in a freshly allocated `RValue` is represented by a constructor carrying
the stored content (`bigint`, `hfloat`); everything held inline is `imm w`.
-/

namespace Verif.Value

/-- `NIL_VALUE`, `FALSE_VALUE`, `TRUE_VALUE`, `TAG_SYMBOL`, `FLOAT_ZERO`:
`value.rs:28-33`. -/
def NIL_VALUE : BitVec 64 := 0x04#64
def FALSE_VALUE : BitVec 64 := 0x14#64
def TRUE_VALUE : BitVec 64 := 0x1c#64
def TAG_SYMBOL : BitVec 64 := 0x0c#64
def FLOAT_ZERO : BitVec 64 := 0x8000000000000002#64

/-- A Ruby value as far as numbers are concerned.  Simplification: the heap cell
of a big Integer / boxed Float is replaced by its content. -/
inductive Val where
  | imm (w : BitVec 64)
  | bigint (n : Int)
  | hfloat (bits : BitVec 64)
deriving DecidableEq, Repr

/-- `Value::is_i63`, `value.rs:962-965`:
`((num as u64) >> 62) ^ ((num as u64) >> 63)) & 1 == 0`. -/
def isI63 (n : BitVec 64) : Bool :=
  (((n >>> 62) ^^^ (n >>> 63)) &&& 1#64) == 0#64

/-- `Immediate::fixnum`, `value.rs:3404-3406`: `(num << 1) as u64 | 1`. -/
def fixnum (n : BitVec 64) : BitVec 64 := (n <<< 1) ||| 1#64

/-- `Value::integer(num: i64)`, `value.rs:997-1003`. -/
def integer (n : BitVec 64) : Val :=
  if isI63 n then .imm (fixnum n) else .bigint n.toInt

/-- `Value::bigint(BigInt)`, `value.rs:1058-1064`.
`i64::try_from(&bigint)` succeeds exactly when the value is in the `i64` range. -/
def bigint (n : Int) : Val :=
  if -(2 ^ 63) ≤ n ∧ n < 2 ^ 63 then integer (BitVec.ofInt 64 n) else .bigint n

/-- `Value::integer_from_u64`, `value.rs:1005-1011`. -/
def integerFromU64 (n : BitVec 64) : Val :=
  if n.toNat < 2 ^ 63 then integer n else bigint n.toNat

/-- `Value::check_fixnum`, `value.rs:985-991`. -/
def checkFixnum (n : BitVec 64) : Option Val :=
  if isI63 n then some (.imm (fixnum n)) else none

/-- `Value::is_fixnum`, `value.rs:2331-2333`. -/
def isFixnum (w : BitVec 64) : Bool := (w &&& 1#64) == 1#64

/-- `Value::try_fixnum`, `value.rs:2341-2347`: arithmetic shift right by one. -/
def tryFixnum : Val → Option (BitVec 64)
  | .imm w => if isFixnum w then some (w.sshiftRight 1) else none
  | _ => none

/-- The integer denoted by a value: `RV::Fixnum` / `RV::BigInt` cases of
`Value::unpack`, `value.rs:1525ff`. -/
def toInt? : Val → Option Int
  | .imm w => if isFixnum w then some (w.sshiftRight 1).toInt else none
  | .bigint n => some n
  | .hfloat _ => none

/-- `Immediate::flonum`, `value.rs:3412-3428`.  A float is given by its bits;
`num == 0.0` holds for exactly the two zero patterns and `is_sign_negative`
reads bit 63. -/
def flonum (b : BitVec 64) : Option (BitVec 64) :=
  if b = 0x8000000000000000#64 then none
  else if b = 0#64 then some FLOAT_ZERO
  else
    let exp := ((b >>> 60) &&& 7#64) + 1#64
    if (exp &&& 6#64) = 4#64 then some (((b.rotateLeft 3) &&& ~~~1#64) ||| 2#64)
    else none

/-- `Value::float`, `value.rs:1029-1035`. -/
def float (b : BitVec 64) : Val :=
  match flonum b with
  | some w => .imm w
  | none => .hfloat b

/-- `Value::is_flonum`, `value.rs:2378-2380`. -/
def isFlonum (w : BitVec 64) : Bool := (w &&& 3#64) == 2#64

/-- `as_flonum` inside `Value::try_flonum`, `value.rs:2395-2404`. -/
def asFlonum (u : BitVec 64) : BitVec 64 :=
  if u = FLOAT_ZERO then 0#64
  else
    let bit := 2#64 - ((u >>> 63) &&& 1#64)
    ((u &&& ~~~3#64) ||| bit).rotateRight 3

/-- `Value::try_float`, `value.rs:2412-2423`. -/
def tryFloat : Val → Option (BitVec 64)
  | .imm w => if isFlonum w then some (asFlonum w) else none
  | .hfloat b => some b
  | .bigint _ => none

/-- `Value::symbol`, `value.rs:933-935`: `(id as u64) << 32 | TAG_SYMBOL`. -/
def symbol (id : BitVec 32) : BitVec 64 := ((id.setWidth 64) <<< 32) ||| TAG_SYMBOL

/-- `Value::is_symbol`, `value.rs:2465-2467`. -/
def isSymbol (w : BitVec 64) : Bool := (w &&& 0xff#64) == TAG_SYMBOL

/-- `Value::try_symbol`, `value.rs:2473-2479`. -/
def trySymbol (w : BitVec 64) : Option (BitVec 32) :=
  if isSymbol w then some ((w >>> 32).setWidth 32) else none

/-- `Value::is_packed_value`, `value.rs:2194-2196`. -/
def isPacked (w : BitVec 64) : Bool := (w &&& 7#64) != 0#64

/-- `Value::as_bool`, `value.rs:912-914`. -/
def asBool (w : BitVec 64) : Bool := (w &&& ~~~0x10#64) != NIL_VALUE

/-- `Value::nil`, `Value::bool`, `value.rs:925-931` (via `Immediate`,
`value.rs:3396-3402`). -/
def nil : BitVec 64 := NIL_VALUE
def bool (b : Bool) : BitVec 64 := if b then TRUE_VALUE else FALSE_VALUE

/-- The kinds distinguished by `Value::unpack`, `value.rs:1525-1545`. -/
inductive Kind where
  | heap | fixnum | flonum | nil | true | false | symbol | invalid | illegal
deriving DecidableEq, Repr

/-- The tag dispatch performed by `Value::unpack` (`value.rs:1525-1545`), in the
code's order.  `illegal` stands for the `unreachable!` arm. -/
def kind (w : BitVec 64) : Kind :=
  if isFixnum w then .fixnum
  else if isFlonum w then .flonum
  else if w == 0#64 then .invalid
  else if !isPacked w then .heap
  else if isSymbol w then .symbol
  else if w == NIL_VALUE then .nil
  else if w == TRUE_VALUE then .true
  else if w == FALSE_VALUE then .false
  else .illegal

end Verif.Value
