/-
  The x86-64 code the JIT emits for Integer operators on fixnums and for Float
  comparisons, instruction by instruction on 64-bit words.

  Sources (under /repo/monoruby/src/codegen/arch/x86_64/compile unless said otherwise):
    binary_op.rs, mod.rs, builtin.rs; builtins/numeric/integer.rs for the choice of code.
-/
namespace Verif.FixOps

/-- A general-purpose register. -/
abbrev W := BitVec 64

/-- The word of a fixnum: `2n + 1` (value.rs:962, `Value::fixnum`). -/
def tag (a : Int) : W := BitVec.ofInt 64 (2 * a + 1)

/-- i63 (value.rs:962). -/
def inFix (i : Int) : Prop := -(2 ^ 62) ≤ i ∧ i < 2 ^ 62

instance (i : Int) : Decidable (inFix i) := inferInstanceAs (Decidable (_ ∧ _))

/-! Every piece of code yields the result word, or `none` when it jumps to its side
exit. -/

/-- `Add` (binary_op.rs:23-30): `subq lhs, 1; addq lhs, rhs; jo`. -/
def add (l r : W) : Option W :=
  let x := l - 1
  if BitVec.saddOverflow x r then none else some (x + r)

/-- `Mul` (binary_op.rs:39-47): `sarq rhs, 1; subq lhs, 1; imul lhs, rhs; jo; orq lhs, 1`. -/
def mul (l r : W) : Option W :=
  let y := r.sshiftRight 1
  let x := l - 1
  if BitVec.smulOverflow x y then none else some (x * y ||| 1)

/-- `Sub` (binary_op.rs:56-62): `subq lhs, rhs; jo; addq lhs, 1`. -/
def sub (l r : W) : Option W :=
  if BitVec.ssubOverflow l r then none else some (l - r + 1)

/-- does the truncated quotient have to be decremented? (binary_op.rs:88-96): the tests
on divisor and remainder after `idiv`. -/
def fixup (d m : W) : Bool :=
  if d.msb then !(m.sle 0) else m.msb

/-- `Div` (binary_op.rs:71-101): untag, `cqo; idiv`, fix up, retag with `salq 1; orq 1`. -/
def div (l r : W) : Option W :=
  let d := r.sshiftRight 1
  if d = 0 then none
  else
    let n := l.sshiftRight 1
    let q := n.sdiv d
    let q := if fixup d (n.srem d) then q - 1 else q
    some (q <<< 1 ||| 1)

/-- `gen_int_rem` (binary_op.rs:205-240). -/
def rem (l r : W) : Option W :=
  let d := r.sshiftRight 1
  if d = 0 then none
  else
    let n := l.sshiftRight 1
    let m := n.srem d
    let m := if fixup d m then m + d else m
    some (m <<< 1 ||| 1)

/-- `emit_int_rem_pow2_mask` with the mask of `integer_rem` (builtin.rs:1171-1178,
builtins/numeric/integer.rs:987-998): `lhs % 2^k` for a literal `2^k`. -/
def remPow2 (l : W) (d : Int) : W := l &&& BitVec.ofInt 64 (d * 2 - 1)

/-- `integer_binop_imm` (binary_op.rs:139-164): `addq`/`subq` of the doubled constant. -/
def addImm (l : W) (c : Int) : Option W :=
  let k := BitVec.ofInt 64 (2 * c)
  if BitVec.saddOverflow l k then none else some (l + k)

def subImm (l : W) (c : Int) : Option W :=
  let k := BitVec.ofInt 64 (2 * c)
  if BitVec.ssubOverflow l k then none else some (l - k)

/-- `integer_double` (binary_op.rs:173-188): `addq r, r; jo; subq r, 1`. -/
def dbl (l : W) : Option W :=
  if BitVec.saddOverflow l l then none else some (l + l - 1)

/-- `FixnumNeg` (mod.rs:730-740): `sarq 1; negq; jo; addq r, r; jo; orq 1`. -/
def neg (l : W) : Option W :=
  let x := l.sshiftRight 1
  if BitVec.negOverflow x then none
  else if BitVec.saddOverflow (-x) (-x) then none
  else some (-x + -x ||| 1)

/-- `FixnumBitNot` (mod.rs:742-750): `sarq 1; notq; salq 1; orq 1`. -/
def bitNot (l : W) : W := (~~~(l.sshiftRight 1)) <<< 1 ||| 1

/-- `BitAnd`, `BitOr`, `BitXor` (binary_op.rs:114-126). -/
def bitAnd (l r : W) : W := l &&& r
def bitOr (l r : W) : W := l ||| r
def bitXor (l r : W) : W := (l ^^^ r) + 1

/-- `lzcntq`. -/
def lzcnt (x : W) : Nat := if x.toNat = 0 then 64 else 63 - x.toNat.log2

/-- a shift count in `cl` is taken modulo 64. -/
def cl (c : W) : Nat := c.toNat % 64

/-- `shift_under` (binary_op.rs:686-701), followed by `orq rdi, 1`. -/
def under (l : W) : W := (if l.msb then (0 : W) - 1 else 0) ||| 1

/-- the right-shift block of `gen_shr`/`gen_shl`: `cmpq rcx, 64; jge under; sarq; orq`. -/
def shrBlock (l c : W) : W :=
  if (64 : W).sle c then under l else l.sshiftRight (cl c) ||| 1

/-- `gen_shr` (binary_op.rs:717-743). -/
def shr (l r : W) : Option W :=
  let c := r.sshiftRight 1
  if c.msb then
    let c := -c
    if (lzcnt l : Int) < c.toInt then none
    else some ((l - 1) <<< cl c ||| 1)
  else some (shrBlock l c)

/-- `gen_shl` (binary_op.rs:798-825). -/
def shl (l r : W) : Option W :=
  let c := r.sshiftRight 1
  if c.msb then some (shrBlock l (-c))
  else if (lzcnt l : Int) ≤ c.toInt then none
  else some ((l - 1) <<< cl c ||| 1)

/-- `gen_shl_lhs_imm` (binary_op.rs:840-874): the receiver is a literal, loaded in `rdi`. -/
def shlLhsImm (a : Int) (r : W) : Option W :=
  let l := tag a
  let c := r.sshiftRight 1
  if c.msb then some (shrBlock l (-c))
  else if (lzcnt l : Int) ≤ c.toInt then none
  else some ((l - 1) <<< cl c ||| 1)

/-- `gen_shl_rhs_imm` (binary_op.rs:887-896); `k < 64`. -/
def shlRhsImm (l : W) (k : Nat) : Option W :=
  if lzcnt l ≤ k then none else some ((l - 1) <<< k ||| 1)

/-- `gen_shr_imm` (binary_op.rs:745-763). -/
def shrImm (l : W) (k : Nat) : W :=
  if 64 ≤ k then (if l.msb then tag (-1) else tag 0) else l.sshiftRight k ||| 1

/-- `emit_shl_overflow_zero` (builtin.rs:1091-1097). -/
def shlZero (l : W) : Option W := if l = tag 0 then some (tag 0) else none

/-- `integer_shl` with a literal shift amount (builtins/numeric/integer.rs:884-905). -/
def shlLit (l : W) (k : Int) : Option W :=
  if 0 ≤ k ∧ k < 64 then shlRhsImm l k.toNat
  else if k < 0 then some (shrImm l (min (-k).toNat 64))
  else shlZero l

/-- `integer_shr` with a literal shift amount (builtins/numeric/integer.rs:797-822). -/
def shrLit (l : W) (k : Int) : Option W :=
  if 0 ≤ k then some (shrImm l (min k.toNat 64))
  else if (-k).toNat < 64 then shlRhsImm l (-k).toNat
  else shlZero l

/-- `gen_bit_index_imm` (binary_op.rs:776-782). -/
def bitIndex (l : W) (nth : Nat) : W := (l.sshiftRight (min nth 63) &&& 2) ||| 1

/-! ### Constant folding (builtins/numeric/integer.rs:705-764) -/

/-- `i64`. -/
def inI64 (i : Int) : Prop := -(2 ^ 63) ≤ i ∧ i < 2 ^ 63

/-- `fold_shl_pos` (l.744-764). -/
def foldShlPos (a : Int) (k : Nat) : Option Int :=
  if a = 0 then some 0
  else if 63 ≤ k then none
  else
    let r : W := BitVec.ofInt 64 a <<< k
    if (r.sshiftRight k).toInt = a ∧ inFix r.toInt then some r.toInt else none

/-- the right shift of `fold_shr`/`fold_shl`. -/
def foldRight (a : Int) (k : Nat) : Int :=
  if 64 ≤ k then (if 0 ≤ a then 0 else -1) else a >>> k

/-- `fold_shr` (l.705-719). -/
def foldShr (a k : Int) : Option Int :=
  if 0 ≤ k then some (foldRight a k.toNat) else foldShlPos a (-k).toNat

/-- `fold_shl` (l.726-740). -/
def foldShl (a k : Int) : Option Int :=
  if 0 ≤ k then foldShlPos a k.toNat else some (foldRight a (-k).toNat)

/-! ### Comparisons -/

inductive CmpKind where
  | eq | ne | ge | gt | le | lt | teq
  deriving DecidableEq, Repr

/-- flags after `cmpq l, r`: the signed conditions. -/
def signed (k : CmpKind) (l r : W) : Bool :=
  match k with
  | .eq | .teq => l == r
  | .ne => l != r
  | .ge => r.sle l
  | .gt => r.slt l
  | .le => l.sle r
  | .lt => l.slt r

/-- `FALSE_VALUE`, `TRUE_VALUE` (value.rs:28-33). -/
def falseW : W := 0x14#64
def trueW : W := 0x1c#64

/-- `integer_cmp` with `set_xx` (binary_op.rs:531-558, 433-451): `setcc rax; shlq rax, 3;
orq rax, FALSE_VALUE`. -/
def intCmp (k : CmpKind) (l r : W) : W :=
  ((if signed k l r then 1 else 0 : W) <<< 3) ||| falseW

/-- how two floats compare -/
inductive FOrd where
  | lt | eq | gt | unordered
  deriving DecidableEq, Repr

/-- `ucomisd` flags. -/
structure Flags where
  zf : Bool
  pf : Bool
  cf : Bool

def ucomisd : FOrd → Flags
  | .unordered => ⟨true, true, true⟩
  | .gt => ⟨false, false, false⟩
  | .lt => ⟨false, false, true⟩
  | .eq => ⟨true, false, false⟩

/-- `setflag_float` (binary_op.rs:490-524). -/
def fltCmp (k : CmpKind) (o : FOrd) : W :=
  let f := ucomisd o
  let b : Bool := match k with
    | .eq | .teq => f.zf && !f.pf
    | .ne => (f.zf && !f.pf) ^^ true
    | .ge => !f.cf
    | .gt => !f.cf && !f.zf
    | .le => (f.cf || f.zf) && !f.pf
    | .lt => f.cf && !f.pf
  ((if b then 1 else 0 : W) <<< 3) ||| falseW

inductive BrKind where
  | brIf | brIfNot
  deriving DecidableEq, Repr

/-- `condbr_float` (binary_op.rs:565-654): is the branch taken? -/
def condbr (k : CmpKind) (b : BrKind) (o : FOrd) : Bool :=
  let f := ucomisd o
  match k, b with
  | .gt, .brIf => !f.cf && !f.zf
  | .gt, .brIfNot => f.cf || f.zf
  | .ge, .brIf => !f.cf
  | .ge, .brIfNot => f.cf
  | .eq, .brIf | .teq, .brIf => if f.pf then false else f.zf
  | .eq, .brIfNot | .teq, .brIfNot => if f.pf then true else !f.zf
  | .ne, .brIf => if f.pf then true else !f.zf
  | .ne, .brIfNot => if f.pf then false else f.zf
  | .lt, .brIf => if f.pf then false else f.cf
  | .lt, .brIfNot => if f.pf then true else !f.cf
  | .le, .brIf => if f.pf then false else f.cf || f.zf
  | .le, .brIfNot => if f.pf then true else !f.cf && !f.zf

/-! ### Float operators -/

/-- `FPRegLoc` -/
inductive Loc where
  | xmm (p : Nat)
  | spill (off : Nat)
  deriving DecidableEq, Repr

/-- `PhysMap::resolve` (jitgen/context.rs:246-290; state/slot.rs:166-168): the pool is
`xmm2`..`xmm15`, then stack slots. -/
def loc (x : Nat) : Loc := if x < 14 then .xmm (x + 2) else .spill (x - 14)

/-- xmm registers and spill slots, for a type of floats -/
structure FMach (F : Type) where
  xmm : Nat → F
  mem : Nat → F

def FMach.get {F : Type} (m : FMach F) : Loc → F
  | .xmm p => m.xmm p
  | .spill o => m.mem o

def FMach.setX {F : Type} (m : FMach F) (p : Nat) (v : F) : FMach F :=
  { m with xmm := fun q => if q = p then v else m.xmm q }

def FMach.setM {F : Type} (m : FMach F) (o : Nat) (v : F) : FMach F :=
  { m with mem := fun q => if q = o then v else m.mem q }

/-- step 1: the register the operation works in; `xmm0` when `dst` is spilled. -/
def workReg : Loc → Nat
  | .xmm p => p
  | .spill _ => 0

/-- step 2: route the right operand into a register. -/
def routeR {F : Type} (comm : Bool) (work : Nat) (rl : Loc) (m : FMach F) : FMach F × Nat :=
  match rl with
  | .xmm p => if p = work ∧ comm = false then (m.setX 1 (m.xmm p), 1) else (m, p)
  | .spill o => (m.setX 1 (m.mem o), 1)

/-- step 3: load the left operand into `work`, unless it is there. -/
def loadL {F : Type} (work : Nat) (ll : Loc) (m : FMach F) : FMach F :=
  if ll = .xmm work then m else m.setX work (m.get ll)

/-- step 5: store a spilled result. -/
def storeD {F : Type} (dl : Loc) (work : Nat) (m : FMach F) : FMach F :=
  match dl with
  | .xmm _ => m
  | .spill o => m.setM o (m.xmm work)

/-- `float_binop` (binary_op.rs:371-435). -/
def floatBinop {F : Type} (op : F → F → F) (comm : Bool) (d l r : Nat) (m : FMach F) : FMach F :=
  let work := workReg (loc d)
  let q := routeR comm work (loc r) m
  let m := loadL work (loc l) q.1
  let m := m.setX work (op (m.xmm work) (m.xmm q.2))
  storeD (loc d) work m

end Verif.FixOps
