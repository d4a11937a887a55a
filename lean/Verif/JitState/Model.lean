/-
  The JIT's abstract slot state and the code it emits for straight-line
  arithmetic: which of stack home, GP register, FP register or compile-time
  constant carries each slot; the local GP and FP register allocators; the
  lowering of literals, moves and `+ - * / & | ^`; side exits (deopts) with
  their write-backs.

  Sources (all under /repo/monoruby/src/codegen):
    jitgen/state/slot.rs, jitgen/state/read_slot.rs, jitgen/state/binop.rs,
    jitgen/gp_alloc.rs, jitgen/state.rs, jitgen/compile.rs,
    jitgen/asmir/compile_shared.rs, arch/x86_64/compile/binary_op.rs
-/
namespace Verif.JitState

/-- `SlotId` (a VM register of the frame; 0 is `self`). -/
abbrev Slot := Nat
/-- `FPReg`/`VirtFPReg`: index into the FP pool, then stack spills
(state/slot.rs:166-168). -/
abbrev FReg := Nat
/-- Index into `GP_ALLOC_SET = [R8, R9, R10, R11]` (gp_alloc.rs:69). Index 4
stands for the scratch register (`Rdi`/`Rax`) the lowering uses in between. -/
abbrev GReg := Nat
/-- The scratch GP register. -/
abbrev scratch : GReg := 4
/-- A 64-bit float, kept as an opaque pattern: the model only copies it and
hands it to the operations of `Prim`. -/
abbrev Flt := Int

/-- A Ruby value. Simplified: a fixnum is its integer, a Float its pattern
(flonum and heap Float are the same value to Ruby code), anything else a
class and an identity. -/
inductive Val where
  | fix (i : Int)
  | flo (f : Flt)
  | obj (c id : Nat)
  deriving DecidableEq, Repr

/-- `BinOpK`, the operators with a register lowering (binop.rs:128). -/
inductive Kind where
  | add | sub | mul | div | band | bor | bxor
  deriving DecidableEq, Repr

/-- `Add | Sub | Mul | Div` — the operators Float shares
(builtins/numeric/integer.rs:1191). -/
def Kind.isArith : Kind → Bool
  | .add | .sub | .mul | .div => true
  | _ => false

/-- i63 range: what a fixnum holds (value.rs:962). -/
def inFix (i : Int) : Bool := decide (-(2 ^ 62) ≤ i) && decide (i < 2 ^ 62)

/-- Keep the low 63 bits as a signed number: what `salq rax, 1; orq rax, 1`
makes of a quotient (arch/x86_64/compile/binary_op.rs:97-98). -/
def wrap63 (i : Int) : Int := (i + 2 ^ 62) % 2 ^ 63 - 2 ^ 62

/-- What the machine and the interpreter supply from outside the model: float
conversion and arithmetic, the immediate-float test, the interpreter's operators
(`none` = raises), and what an aborted operation leaves in its registers. -/
structure Prim where
  i2f : Int → Flt
  fop : Kind → Flt → Flt → Flt
  flonum : Flt → Bool
  bit : Kind → Int → Int → Int
  arith : Kind → Val → Val → Option Val
  /-- contents of the destination register when the overflow branch is taken -/
  junk : Kind → Int → Int → Val
  /-- contents of the right-hand register after `sarq rhs, 1` -/
  junkR : Int → Val

/-- `Guarded` (slot.rs:1850-1856). -/
inductive Guarded where
  | value | fixnum | float | cls (c : Nat)
  deriving DecidableEq, Repr

/-- `SfGuarded` (slot.rs:1515-1520). -/
inductive SfG where
  | fixnum | float | both
  deriving DecidableEq, Repr

/-- `SfGuarded → Guarded` (slot.rs:1522-1530). -/
def SfG.toG : SfG → Guarded
  | .fixnum => .fixnum
  | .float => .float
  | .both => .value

/-- `LinkMode` (slot.rs:1626-1674). -/
inductive Mode where
  | none | maybeNone | V
  | S (g : Guarded)
  | F (x : FReg)
  | Sf (x : FReg) (g : SfG)
  | C (v : Val)
  deriving DecidableEq, Repr

/-- `INTEGER_CLASS`, the class of a Bignum object. -/
def intClass : Nat := 0

/-- `Guarded::from_concrete_value` (slot.rs:1864-1878). Simplified: the IC class
of an object is its class (`true`/`false` are given one class by the caller). -/
def Guarded.ofVal : Val → Guarded
  | .fix _ => .fixnum
  | .flo _ => .float
  | .obj c _ => if c = intClass then .value else .cls c

/-- `LinkMode::guarded` (slot.rs:1695-1707); `none` is its `unreachable!`.
Class 1 stands for `NilClass`. -/
def Mode.guarded : Mode → Option Guarded
  | .S g => some g
  | .Sf _ g => some g.toG
  | .F _ => some .float
  | .C v => some (Guarded.ofVal v)
  | .V => some (.cls 1)
  | .none | .maybeNone => Option.none

/-- `Holder` (gp_alloc.rs:112-121). -/
structure Holder where
  slot : Slot
  dirty : Bool
  age : Nat
  deriving DecidableEq, Repr

/-- `SlotState` + `next_sp` (slot.rs:243-276): per-slot mode, reverse map of FP
registers, pins, GP register file. Simplified: `place`/`ty` are kept recombined
as `Mode`; liveness bookkeeping and forwarding deferral are left out. -/
structure St where
  n : Nat
  mode : Slot → Mode
  vf : List (List Slot)
  pinned : List FReg
  gp : GReg → Option Holder
  clock : Nat

/-- `set_mode` (slot.rs:517-521). -/
def St.setMode (st : St) (s : Slot) (m : Mode) : St :=
  { st with mode := fun t => if t = s then m else st.mode t }

/-- `FprAllocator::slots` (slot.rs:190). -/
def St.slots (st : St) (x : FReg) : List Slot := st.vf.getD x []

/-! ### GP register file (gp_alloc.rs:127-375) -/

/-- `GP_ALLOC_SET.len()`. -/
abbrev nGp : Nat := 4

/-- `reg_of` (gp_alloc.rs:201-206). -/
def St.regOf (st : St) (s : Slot) : Option GReg :=
  (List.range nGp).find? fun r => ((st.gp r).map (·.slot)) == some s

/-- `dirty_reg_of` (gp_alloc.rs:212-217). -/
def St.dirtyRegOf (st : St) (s : Slot) : Option GReg :=
  (List.range nGp).find? fun r =>
    match st.gp r with
    | some h => h.dirty && h.slot == s
    | none => false

/-- `invalidate` (gp_alloc.rs:368-374). -/
def St.invalidate (st : St) (s : Slot) : St :=
  { st with gp := fun r => if (st.gp r).map (·.slot) = some s then none else st.gp r }

/-- `find_free` (gp_alloc.rs:223-227). -/
def St.findFree (st : St) (pins : List GReg) : Option GReg :=
  (List.range nGp).find? fun r => (st.gp r).isNone && !pins.contains r

/-- age of a resident (`self.holder[i].unwrap().age`, gp_alloc.rs:243). -/
def St.age (st : St) (r : GReg) : Nat := match st.gp r with | some h => h.age | none => 0

/-- the first index of least age: `min_by_key` (gp_alloc.rs:241-244). -/
def leastAge (st : St) : List GReg → Option GReg
  | [] => none
  | r :: rs =>
    match leastAge st rs with
    | none => some r
    | some r' => if st.age r' < st.age r then some r' else some r

/-- `alloc_reg` (gp_alloc.rs:234-251): the register and the spill to emit. `none`
is its `expect` panic. -/
def St.allocReg (st : St) (pins : List GReg) : Option (St × GReg × Option (GReg × Slot)) :=
  match st.findFree pins with
  | some r => some (st, r, none)
  | none =>
    match leastAge st ((List.range nGp).filter fun r => !pins.contains r) with
    | none => none
    | some r =>
      some ({ st with gp := fun q => if q = r then none else st.gp q }, r,
        match st.gp r with
        | some h => if h.dirty then some (r, h.slot) else none
        | none => none)

/-- `bind` (gp_alloc.rs:263-271). -/
def St.bind (st : St) (r : GReg) (s : Slot) (dirty : Bool) : St :=
  let st := st.invalidate s
  { st with clock := st.clock + 1,
            gp := fun q => if q = r then some ⟨s, dirty, st.clock + 1⟩ else st.gp q }

/-- `sync` (gp_alloc.rs:280-288). -/
def St.sync (st : St) (s : Slot) : St :=
  { st with gp := fun r => match st.gp r with
      | some h => if h.slot = s then some { h with dirty := false } else some h
      | none => none }

/-- `free_above_sp` (gp_alloc.rs:292-299). -/
def St.freeAbove (st : St) (sp : Slot) : St :=
  { st with gp := fun r => match st.gp r with
      | some h => if sp ≤ h.slot then none else some h
      | none => none }

/-! ### FP allocator (slot.rs:17-155) and slot transitions (slot.rs:600-915) -/

/-- `pick_vacant` (slot.rs:57-61). -/
def St.pickVacant (st : St) : Option FReg :=
  (List.range st.vf.length).find? fun x => !st.pinned.contains x && (st.slots x).isEmpty

/-- is the mode an `Sf`? -/
def Mode.isSf : Mode → Bool
  | .Sf _ _ => true
  | _ => false

/-- is the mode an `F`? -/
def Mode.isF : Mode → Bool
  | .F _ => true
  | _ => false

/-- phase 1 of `try_alloc_fpr_ctx` (slot.rs:101-134): the lowest unpinned register
all of whose slots are `Sf`. -/
def St.pickVictim (st : St) : Option FReg :=
  (List.range st.vf.length).find? fun x =>
    !st.pinned.contains x && !(st.slots x).isEmpty && (st.slots x).all fun s => (st.mode s).isSf

/-- the demotion of phase 1 (slot.rs:135-150): no code is emitted. -/
def St.demote (st : St) (x : FReg) : St :=
  { st with
    vf := st.vf.set x []
    mode := fun s => if s ∈ st.slots x then
        (match st.mode s with | .Sf _ g => .S g.toG | m => m) else st.mode s }

/-- `try_alloc_fpr` (slot.rs:80-152). -/
def St.tryAlloc (st : St) : Option (St × FReg) :=
  match st.pickVacant with
  | some x => some (st, x)
  | none =>
    match st.pickVictim with
    | some x => some (st.demote x, x)
    | none => none

/-- `alloc_fpr` (slot.rs:154-156): else a fresh stack spill (`push_spill`). -/
def St.alloc (st : St) : St × FReg :=
  match st.tryAlloc with
  | some r => r
  | none => ({ st with vf := st.vf ++ [[]] }, st.vf.length)

/-- `fpr_remove` (slot.rs:206-208). -/
def St.unlink (st : St) (s : Slot) (x : FReg) : St :=
  { st with vf := st.vf.modify x (·.filter (· ≠ s)) }

/-- `clear` (slot.rs:626-642). -/
def St.clear (st : St) (s : Slot) : St :=
  let st := st.invalidate s
  match st.mode s with
  | .Sf x _ | .F x => (st.unlink s x).setMode s .V
  | _ => st.setMode s .V

/-- `set_F` (slot.rs:749-753). -/
def St.setF (st : St) (s : Slot) (x : FReg) : St :=
  let st := (st.clear s).setMode s (.F x)
  { st with vf := st.vf.modify x (· ++ [s]) }

/-- `set_Sf` (slot.rs:759-763). -/
def St.setSf (st : St) (s : Slot) (x : FReg) (g : SfG) : St :=
  let st := (st.clear s).setMode s (.Sf x g)
  { st with vf := st.vf.modify x (· ++ [s]) }

/-- `set_S_with_guard` (slot.rs:687-690). -/
def St.setS (st : St) (s : Slot) (g : Guarded) : St := (st.clear s).setMode s (.S g)

/-- `discard` (slot.rs:649-657): `none` is its panic on `self`, or the index panic
of a slot the frame does not have. -/
def St.discard (st : St) (s : Slot) : Option St :=
  if s = 0 ∨ st.n ≤ s then none else some (st.clear s)

/-- `def_S_guarded` (slot.rs:831-834). -/
def St.defS (st : St) (s : Slot) (g : Guarded) : Option St :=
  (st.discard s).map fun st => st.setMode s (.S g)

/-- `def_C` (slot.rs:906-912). -/
def St.defC (st : St) (s : Slot) (v : Val) : Option St :=
  (st.discard s).map fun st => st.setMode s (.C v)

/-- `def_F` (slot.rs:853-858). -/
def St.defF (st : St) (s : Slot) : Option (St × FReg) :=
  let r := st.alloc
  (r.1.discard s).map fun st => (st.setF s r.2, r.2)

/-- `def_F_with_fpr` (slot.rs:861-865). -/
def St.defFWith (st : St) (s : Slot) (x : FReg) : Option St :=
  (st.discard s).map fun st => st.setF s x

/-- `refine_S_fixnum` (slot.rs:843-847). -/
def St.refineFix (st : St) (s : Slot) : St :=
  match st.mode s with
  | .S _ => st.setMode s (.S .fixnum)
  | _ => st

/-- `pin_fpr` / `unpin_fpr` (slot.rs:227-237). -/
def St.pin (st : St) (x : FReg) : St :=
  if x ∈ st.pinned then st else { st with pinned := st.pinned ++ [x] }
def St.unpin (st : St) (x : FReg) : St := { st with pinned := st.pinned.erase x }

/-- `is_fixnum` (slot.rs:1085-1087). -/
def St.isFix (st : St) (s : Slot) : Bool := (st.mode s).guarded == some .fixnum

/-- `is_fixnum_literal` (slot.rs:1010-1016). -/
def St.fixLit (st : St) (s : Slot) : Option Int :=
  match st.mode s with | .C (.fix i) => some i | _ => none

/-- `coerce_C_f64` (slot.rs:1054-1064). -/
def St.coerceF (P : Prim) (st : St) (s : Slot) : Option Flt :=
  match st.mode s with
  | .C (.flo f) => some f
  | .C (.fix i) => some (P.i2f i)
  | _ => none

/-! ### Emitted instructions and machine -/

/-- Where a write-back takes a value from. -/
inductive Src where
  | fpr (x : FReg) | lit (v : Val) | gp (r : GReg)
  deriving DecidableEq, Repr

/-- `WriteBack`: what a side exit stores to which stack home. -/
abbrev WB := List (Src × Slot)

/-- `get_write_back` (slot.rs:1433-1449) with `wb_fpr`, `wb_literal`
(slot.rs:1481-1505) and `dirty_residents` (gp_alloc.rs:166-173). -/
def St.wb (st : St) : WB :=
  ((List.range st.vf.length).flatMap fun x =>
      ((st.slots x).filter fun s => (st.mode s).isF).map fun s => (Src.fpr x, s))
  ++ ((List.range st.n).filterMap fun s =>
      match st.mode s with | .C v => some (Src.lit v, s) | _ => none)
  ++ ((List.range nGp).filterMap fun r =>
      match st.gp r with
      | some h => if h.dirty then some (Src.gp r, h.slot) else none
      | none => none)

/-- `AsmInst`, the instructions the modelled paths emit (jitgen/asmir.rs). -/
inductive Ins where
  | r2s (r : GReg) (s : Slot)
  | s2r (s : Slot) (r : GReg)
  | l2r (v : Val) (r : GReg)
  | l2s (v : Val) (s : Slot)
  | rmov (src dst : GReg)
  | guard (g : Guarded) (r : GReg) (wb : WB)
  | bin (k : Kind) (d l r : GReg) (wb : WB)
  | dbl (d l : GReg) (wb : WB)
  | imm (k : Kind) (d l : GReg) (c : Int) (wb : WB)
  | fmov (l r : FReg)
  | fswap (l r : FReg)
  | f2x (f : Flt) (x : FReg)
  | i2x (r : GReg) (x : FReg)
  | v2x (r : GReg) (x : FReg) (wb : WB)
  | x2s (x : FReg) (s : Slot)
  | i2both (i : Int) (s : Slot) (x : FReg)
  | fbin (k : Kind) (d l r : FReg)
  deriving Repr

/-- The frame's stack homes and the two register files. -/
structure Mach where
  stack : Slot → Val
  gp : GReg → Val
  fpr : FReg → Flt

/-- A value as the `f64` an FP register would hold. -/
def toF (P : Prim) : Val → Flt
  | .fix i => P.i2f i
  | .flo f => f
  | .obj _ _ => 0

/-- The integer in a fixnum register (0 when it is no fixnum: such code is only
reached behind a guard). -/
def Val.int : Val → Int
  | .fix i => i
  | _ => 0

/-- Does a value have the class a guard asks for? `GuardClass(INTEGER_CLASS)`
tests the fixnum tag. -/
def Guarded.sat : Guarded → Val → Bool
  | .value, _ => true
  | .fixnum, .fix _ => true
  | .float, .flo _ => true
  | .cls c, .obj c' _ => decide (c = c')
  | _, _ => false

/-- The value a write-back source holds. -/
def Src.eval (m : Mach) : Src → Val
  | .fpr x => .flo (m.fpr x)
  | .lit v => v
  | .gp r => m.gp r

/-- Point update. -/
def upd {β : Type} (f : Nat → β) (a : Nat) (b : β) : Nat → β := fun t => if t = a then b else f t

/-- Run a write-back: the stack the interpreter resumes with. -/
def applyWB (l : WB) (m : Mach) : Slot → Val :=
  l.foldl (fun stk p => upd stk p.2 (p.1.eval m)) m.stack

/-- One instruction: the next machine, or the stack handed to the interpreter by
the side exit. Fixnum arithmetic is on untagged integers (`Verif.FixOps` (C74) relates it
to the 64-bit code): `bin`/`dbl`/`imm` first move `l` into `d`
(compile_shared.rs:326-396), compute in `d`, and leave junk there when the overflow
branch is taken; `mul` and `div` destroy `r`; `div` delivers in `rax` and moves it
to `d` afterwards (arch/x86_64/compile/binary_op.rs:18-135). -/
def exec1 (P : Prim) (m : Mach) : Ins → Except (Slot → Val) Mach
  | .r2s r s => .ok { m with stack := upd m.stack s (m.gp r) }
  | .s2r s r => .ok { m with gp := upd m.gp r (m.stack s) }
  | .l2r v r => .ok { m with gp := upd m.gp r v }
  | .l2s v s => .ok { m with stack := upd m.stack s v }
  | .rmov src dst => .ok { m with gp := upd m.gp dst (m.gp src) }
  | .guard g r wb => if g.sat (m.gp r) then .ok m else .error (applyWB wb m)
  | .bin .div d l r wb =>
    let a := (m.gp l).int
    let b := (m.gp r).int
    let m1 := { m with gp := upd m.gp r (P.junkR b) }
    if b = 0 then .error (applyWB wb m1)
    else .ok { m1 with gp := upd m1.gp d (.fix (wrap63 (a.fdiv b))) }
  | .bin .mul d l r wb =>
    let a := (m.gp l).int
    let b := (m.gp r).int
    let m1 := { m with gp := upd m.gp r (P.junkR b) }
    if inFix (a * b) then .ok { m1 with gp := upd m1.gp d (.fix (a * b)) }
    else .error (applyWB wb { m1 with gp := upd m1.gp d (P.junk .mul a b) })
  | .bin .add d l r wb =>
    let a := (m.gp l).int
    let b := (m.gp r).int
    if inFix (a + b) then .ok { m with gp := upd m.gp d (.fix (a + b)) }
    else .error (applyWB wb { m with gp := upd m.gp d (P.junk .add a b) })
  | .bin .sub d l r wb =>
    let a := (m.gp l).int
    let b := (m.gp r).int
    if inFix (a - b) then .ok { m with gp := upd m.gp d (.fix (a - b)) }
    else .error (applyWB wb { m with gp := upd m.gp d (P.junk .sub a b) })
  | .bin k d l r _ =>
    .ok { m with gp := upd m.gp d (.fix (P.bit k (m.gp l).int (m.gp r).int)) }
  | .dbl d l wb =>
    let a := (m.gp l).int
    if inFix (a + a) then .ok { m with gp := upd m.gp d (.fix (a + a)) }
    else .error (applyWB wb { m with gp := upd m.gp d (P.junk .add a a) })
  | .imm k d l c wb =>
    let a := (m.gp l).int
    let res := if k = .sub then a - c else a + c
    if inFix res then .ok { m with gp := upd m.gp d (.fix res) }
    else .error (applyWB wb { m with gp := upd m.gp d (P.junk k a c) })
  | .fmov l r => .ok { m with fpr := upd m.fpr r (m.fpr l) }
  | .fswap l r => .ok { m with fpr := upd (upd m.fpr l (m.fpr r)) r (m.fpr l) }
  | .f2x f x => .ok { m with fpr := upd m.fpr x f }
  | .i2x r x => .ok { m with fpr := upd m.fpr x (P.i2f (m.gp r).int) }
  | .v2x r x wb =>
    match m.gp r with
    | .flo f => .ok { m with fpr := upd m.fpr x f }
    | _ => .error (applyWB wb m)
  | .x2s x s => .ok { m with stack := upd m.stack s (.flo (m.fpr x)) }
  | .i2both i s x => .ok { m with stack := upd m.stack s (.fix i), fpr := upd m.fpr x (P.i2f i) }
  | .fbin k d l r => .ok { m with fpr := upd m.fpr d (P.fop k (m.fpr l) (m.fpr r)) }

/-- A run of instructions. -/
def exec (P : Prim) : Mach → List Ins → Except (Slot → Val) Mach
  | m, [] => .ok m
  | m, i :: is =>
    match exec1 P m i with
    | .ok m' => exec P m' is
    | .error s => .error s

/-! ### Slot reads and write-backs -/

/-- the store of a dirty resident (slot.rs:954-957). -/
def St.storeIns (st : St) (s : Slot) : List Ins :=
  match st.dirtyRegOf s with | some r => [Ins.r2s r s] | none => []

/-- `write_back_slot` (slot.rs:951-962) with its state half (slot.rs:935-949). -/
def St.writeBackSlot (st : St) (s : Slot) : Option (St × List Ins) :=
  let pre := st.storeIns s
  let st := st.invalidate s
  match st.mode s with
  | .F x => some (st.setSf s x .float, pre ++ [.x2s x s])
  | .C v => some (st, pre ++ [.l2s v s])
  | .Sf _ _ | .S _ | .maybeNone => some (st, pre)
  | .V | .none => none

/-- the store for an evicted dirty resident (binop.rs:238-241 and elsewhere). -/
def spillIns : Option (GReg × Slot) → List Ins
  | some (r, s) => [.r2s r s]
  | none => []

/-- `gp_ensure` (binop.rs:371-411): the register and whether to guard. -/
def St.gpEnsure (st : St) (s : Slot) (pins : List GReg) :
    Option (St × List Ins × GReg × Bool) :=
  match st.regOf s with
  | some r => some (st, [], r, !st.isFix s)
  | none =>
    match st.fixLit s with
    | some i =>
      match st.allocReg pins with
      | some (st, r, sp) => some (st.bind r s false, spillIns sp ++ [.l2r (.fix i) r], r, false)
      | none => none
    | none =>
      match st.writeBackSlot s with
      | none => none
      | some (st, ins) =>
        match st.allocReg pins with
        | some (st, r, sp) =>
          let st := st.bind r s false
          some (st, ins ++ spillIns sp ++ [.s2r s r], r, !st.isFix s)
        | none => none

/-- `load_fpr_from_C_state` (read_slot.rs:449-470). -/
def St.loadC (st : St) (s : Slot) (v : Val) : Option (St × List Ins × FReg) :=
  match v with
  | .flo f => let r := st.alloc; some (r.1.setF s r.2, [.f2x f r.2], r.2)
  | .fix i => let r := st.alloc; some (r.1.setSf s r.2 .fixnum, [.i2both i s r.2], r.2)
  | .obj _ _ => none

/-- bring a boxed value into the scratch register for an unbox: a resident is
stored home first (read_slot.rs:77-90 and 205-215). -/
def loadScratch (gp : Option GReg) (s : Slot) : List Ins :=
  match gp with
  | some r => [.r2s r s, .rmov r scratch]
  | none => [.s2r s scratch]

/-- `load_fpr` (read_slot.rs:376-390) with its state half (read_slot.rs:429-447):
the write-back is taken before the transition. -/
def St.loadFpr (st : St) (s : Slot) : Option (St × List Ins × FReg) :=
  match st.mode s with
  | .Sf x _ | .F x => some (st, [], x)
  | .S _ =>
    let r := st.alloc
    some (r.1.setSf s r.2 .float, loadScratch (st.regOf s) s ++ [.v2x scratch r.2 st.wb], r.2)
  | .C v => st.loadC s v
  | .V | .maybeNone | .none => none

/-- `load_fpr_fixnum` (read_slot.rs:321-336) with its state half
(read_slot.rs:342-374); the guard verdict is `guard_class_state` (slot.rs:1287-1345):
on an `S` slot it asks for a guard unless the type is already `Fixnum`. -/
def St.loadFprFix (st : St) (s : Slot) : Option (St × List Ins × FReg) :=
  match st.mode s with
  | .Sf x _ | .F x => some (st, [], x)
  | .S g =>
    let st1 := if g = .fixnum then st else st.setMode s (.S .fixnum)
    let r := st1.alloc
    some (r.1.setSf s r.2 .fixnum,
      loadScratch (st.regOf s) s ++ (if g = .fixnum then [] else [.guard .fixnum scratch st.wb])
        ++ [.i2x scratch r.2], r.2)
  | .C v => st.loadC s v
  | .V | .maybeNone | .none => none

/-! ### Integer operators (binop.rs:112-411) -/

/-- `binop_integer_folded` (binop.rs:70-106). -/
def foldInt (P : Prim) (k : Kind) (a b : Int) : Option Int :=
  match k with
  | .add => if inFix (a + b) then some (a + b) else none
  | .sub => if inFix (a - b) then some (a - b) else none
  | .mul => if inFix (a * b) then some (a * b) else none
  | .div => if b = 0 then none else if inFix (a.fdiv b) then some (a.fdiv b) else none
  | _ => if inFix (P.bit k a b) then some (P.bit k a b) else none

/-- `binop_dst_reg` (binop.rs:335-366). -/
def St.dstReg (st : St) (lhs : Slot) (lgp : GReg) (lhsDirty : Bool) (extra : List GReg) :
    Option (St × GReg × Option (GReg × Slot)) :=
  if !lhsDirty && !extra.contains lgp && (st.gp lgp).isNone then some (st, lgp, none)
  else if !lhsDirty && !extra.contains lgp && st.regOf lhs == some lgp then
    some (st.invalidate lhs, lgp, none)
  else st.allocReg (lgp :: extra)

/-- drop a stale cache of the destination (binop.rs:216-220). -/
def St.dropDst (st : St) (dst : Option Slot) : St :=
  match dst with | some d => st.invalidate d | none => st

/-- bind the result (binop.rs:274-279). -/
def St.bindDst (st : St) (dst : Option Slot) (r : GReg) : Option St :=
  match dst with
  | some d => (st.defS d .fixnum).map fun st => st.bind r d true
  | none => some st

/-- `binop_integer_imm` (binop.rs:286-330). -/
def St.binImm (st : St) (k : Kind) (dst : Option Slot) (lhs : Slot) (c : Int) (sp : Slot) :
    Option (St × List Ins) :=
  match st.gpEnsure lhs [] with
  | none => none
  | some (st, i1, lgp, g1) =>
    let ld := (st.dirtyRegOf lhs).isSome
    let wb := st.wb
    match ((st.dropDst dst).freeAbove sp).dstReg lhs lgp ld [] with
    | none => none
    | some (st, dgp, spill) =>
      let st := if g1 then st.refineFix lhs else st
      (st.bindDst dst dgp).map fun st =>
        (st, i1 ++ spillIns spill ++ (if g1 then [.guard .fixnum lgp wb] else [])
          ++ [.imm k dgp lgp c wb])

/-- `Mul`/`Div` destroy their right-hand register (binop.rs:187-189). -/
def Kind.clobbers : Kind → Bool
  | .mul | .div => true
  | _ => false

/-- the `sync` of step 1b (binop.rs:203-206). -/
def St.syncRhs (st : St) (k : Kind) (rhs : Slot) : St × List Ins :=
  if k.clobbers then
    match st.dirtyRegOf rhs with
    | some r => (st.sync rhs, [.r2s r rhs])
    | none => (st, [])
  else (st, [])

/-- result register of the register form (binop.rs:236-251). -/
def St.dstRegBin (st : St) (k : Kind) (lhs : Slot) (lgp rgp : GReg) (ld : Bool) :
    Option (St × GReg × Option (GReg × Slot)) :=
  if k.clobbers then st.allocReg [lgp, rgp]
  else if k = .add ∧ lgp = rgp then st.dstReg lhs lgp ld []
  else st.dstReg lhs lgp ld [rgp]

/-- the immediate form's operands (binop.rs:167-185): the variable side and the
constant, when twice the constant fits an `i32`. -/
def St.immForm (st : St) (k : Kind) (lhs rhs : Slot) : Option (Slot × Int) :=
  let vi := match k with
    | .add =>
      match st.fixLit rhs with
      | some c => some (lhs, c)
      | none => (st.fixLit lhs).map fun c => (rhs, c)
    | .sub => (st.fixLit rhs).map fun c => (lhs, c)
    | _ => none
  match vi with
  | some (v, c) => if -(2 ^ 31) ≤ 2 * c ∧ 2 * c < 2 ^ 31 then some (v, c) else none
  | none => none

/-- the register form of `binop_integer_gp` (binop.rs:186-279). -/
def St.binReg (st : St) (k : Kind) (dst : Option Slot) (lhs rhs : Slot) (sp : Slot) :
    Option (St × List Ins) :=
  match st.gpEnsure lhs [] with
  | none => none
  | some (st, i1, lgp, g1) =>
    match st.gpEnsure rhs [lgp] with
    | none => none
    | some (st, i2, rgp, g2) =>
      let g2 := g2 && (lhs != rhs)
      let r3 := st.syncRhs k rhs
      let ld := (r3.1.dirtyRegOf lhs).isSome
      let wb := r3.1.wb
      match ((r3.1.dropDst dst).freeAbove sp).dstRegBin k lhs lgp rgp ld with
      | none => none
      | some (st, dgp, spill) =>
        let st := if g1 then st.refineFix lhs else st
        let st := if g2 then st.refineFix rhs else st
        let st := if k.clobbers then st.invalidate rhs else st
        (st.bindDst dst dgp).map fun st =>
          (st, i1 ++ i2 ++ r3.2 ++ spillIns spill
            ++ (if g1 then [.guard .fixnum lgp wb] else [])
            ++ (if g2 then [.guard .fixnum rgp wb] else [])
            ++ [if k = .add ∧ lgp = rgp then .dbl dgp lgp wb else .bin k dgp lgp rgp wb])

/-- `binop_integer_gp` (binop.rs:151-280). -/
def St.binGp (st : St) (k : Kind) (dst : Option Slot) (lhs rhs : Slot) (sp : Slot) :
    Option (St × List Ins) :=
  match st.immForm k lhs rhs with
  | some (v, c) => st.binImm k dst v c sp
  | none => st.binReg k dst lhs rhs sp

/-- optional `def_C`. -/
def St.defCOpt (st : St) (dst : Option Slot) (v : Val) : Option St :=
  match dst with | some d => st.defC d v | none => some st

/-- the constant folding at the head of `binop_integer` (binop.rs:112-126). -/
def St.foldLits (P : Prim) (st : St) (k : Kind) (lhs rhs : Slot) : Option Int :=
  match st.fixLit lhs, st.fixLit rhs with
  | some a, some b => foldInt P k a b
  | _, _ => none

/-- `binop_integer` (binop.rs:112-137). -/
def St.binInt (P : Prim) (st : St) (k : Kind) (dst : Option Slot) (lhs rhs : Slot) (sp : Slot) :
    Option (St × List Ins) :=
  match st.foldLits P k lhs rhs with
  | some v => ((st.dropDst dst).defCOpt dst (.fix v)).map fun st => (st, [])
  | none => st.binGp k dst lhs rhs sp

/-! ### Float operators (binop.rs:415-460, 643-700) -/

/-- operand class of a float operator (`FOpClass`). -/
inductive NCls where
  | int | flt
  deriving DecidableEq, Repr

/-- `fetch_float_assume` (binop.rs:857-862). -/
def St.fetchF (st : St) (s : Slot) : NCls → Option (St × List Ins × FReg)
  | .int => st.loadFprFix s
  | .flt => st.loadFpr s

/-- `load_binary_fpr` (binop.rs:643-668). -/
def St.loadBin (st : St) (lhs rhs : Slot) (lc rc : NCls) :
    Option (St × List Ins × FReg × FReg) :=
  if lhs ≠ rhs then
    match st.fetchF lhs lc with
    | none => none
    | some (st, i1, x) =>
      match (st.pin x).fetchF rhs rc with
      | none => none
      | some (st, i2, y) => some (st.unpin x, i1 ++ i2, x, y)
  else
    match st.fetchF lhs lc with
    | none => none
    | some (st, i1, x) => some (st, i1, x, x)

/-- the constant folding at the head of `binop_float` (binop.rs:447-460). -/
def St.foldFlt (P : Prim) (st : St) (k : Kind) (lhs rhs : Slot) : Option Flt :=
  match st.coerceF P lhs, st.coerceF P rhs with
  | some a, some b => if k.isArith && P.flonum (P.fop k a b) then some (P.fop k a b) else none
  | _, _ => none

/-- `binop_float` (binop.rs:447-460) with `load_binary_ret_fpr` (binop.rs:670-699). -/
def St.binFlt (P : Prim) (st : St) (k : Kind) (dst : Option Slot) (lhs rhs : Slot)
    (lc rc : NCls) : Option (St × List Ins) :=
  match st.foldFlt P k lhs rhs with
  | some f => (st.defCOpt dst (.flo f)).map fun st => (st, [])
  | none =>
    match st.loadBin lhs rhs lc rc with
    | none => none
    | some (st, ins, x, y) =>
      match dst with
      | none => some (st, ins)
      | some d =>
        let st := (st.pin x).pin y
        if d = lhs then
          (st.defFWith d x).map fun st => ((st.unpin y).unpin x, ins ++ [.fbin k x x y])
        else
          (st.defF d).map fun r => ((r.1.unpin y).unpin x, ins ++ [.fbin k r.2 x y])

/-! ### Bytecode instructions -/

/-- `guard_recv_class` for Integer and Float (binop.rs:803-823). -/
def St.guardRecv (st : St) (s : Slot) : NCls → Option (St × List Ins)
  | .int =>
    if (st.mode s).guarded = some .fixnum then some (st, [])
    else
      match st.gpEnsure s [] with
      | none => none
      | some (st, ins, r, g) =>
        if g then some (st.refineFix s, ins ++ [.guard .fixnum r st.wb]) else some (st, ins)
  | .flt =>
    if (st.mode s).guarded = some .float then some (st, [])
    else (st.loadFpr s).map fun r => (r.1, r.2.1)

/-- `binary_class` (compile.rs:1307-1327): the abstract class, else the inline
cache's. `none`: another class (the operator is then an ordinary call, not
modelled) or an `unreachable!`. -/
def St.opClass (st : St) (s : Slot) (ic : NCls) : Option NCls :=
  match (st.mode s).guarded with
  | some .fixnum => some .int
  | some .float => some .flt
  | some .value => some ic
  | _ => none

/-- Straight-line bytecode: literal, register move, binary operator with the
classes its inline cache recorded; `sp` is the stack pointer after it. -/
inductive Op where
  | lit (dst : Slot) (v : Val) (sp : Slot)
  | mov (dst src : Slot) (sp : Slot)
  | bin (k : Kind) (dst : Option Slot) (lhs rhs : Slot) (icL icR : NCls) (sp : Slot)
  deriving DecidableEq, Repr

/-- stack pointer after the instruction. -/
def Op.sp : Op → Slot
  | .lit _ _ sp => sp
  | .mov _ _ sp => sp
  | .bin _ _ _ _ _ _ sp => sp

/-- `flush_gp` (state.rs:497-504). -/
def St.flushGp (st : St) : St × List Ins :=
  ({ st with gp := fun _ => none },
   (List.range nGp).filterMap fun r =>
      match st.gp r with
      | some h => if h.dirty then some (.r2s r h.slot) else none
      | none => none)

/-- `copy_slot` (slot.rs:1213-1257). -/
def St.copySlot (st : St) (src dst : Slot) : Option (St × List Ins) :=
  if src = dst then some (st, [])
  else
    match st.mode src with
    | .F x => (st.discard dst).map fun st => (st.setF dst x, [])
    | .Sf x g =>
      (st.discard dst).map fun st => (st.setSf dst x g, [.s2r src scratch, .r2s scratch dst])
    | .S g =>
      (st.defS dst g).map fun st' =>
        (st', match st.regOf src with
          | some r => [.r2s r dst]
          | none => [.s2r src scratch, .r2s scratch dst])
    | .C v => (st.defC dst v).map fun st => (st, [])
    | .V | .maybeNone | .none => none

/-- `compile_instruction` for the modelled bytecodes: `FrozenLiteral` of an
immediate (compile.rs:373-375), `Mov` (compile.rs:730-732), `BinOp`
(compile.rs:616 → compile/binary_op.rs:214-276 → the generators of
builtins/numeric/integer.rs:1170-1205 and float.rs:150-187). -/
def St.compile1 (P : Prim) (st : St) : Op → Option (St × List Ins)
  | .lit d v _ =>
    match v with
    | .obj _ _ => none
    | _ => (st.defC d v).map fun st => (st, [])
  | .mov d s _ =>
    let r := st.flushGp
    (r.1.copySlot s d).map fun q => (q.1, r.2 ++ q.2)
  | .bin k dst l r icL icR sp =>
    match st.opClass l icL, st.opClass r icR with
    | some .int, some .int =>
      match st.guardRecv l .int with
      | none => none
      | some (st, i1) => (st.binInt P k dst l r sp).map fun q => (q.1, i1 ++ q.2)
    | some lc, some rc =>
      if k.isArith then
        match st.guardRecv l lc with
        | none => none
        | some (st, i1) => (st.binFlt P k dst l r lc rc).map fun q => (q.1, i1 ++ q.2)
      else none
    | _, _ => none

/-- `clear_above_next_sp` (state.rs:472-477). -/
def St.clearFrom (st : St) : Nat → Slot → St
  | 0, _ => st
  | k + 1, s => (st.clear s).clearFrom k (s + 1)

def St.clearAbove (st : St) (sp : Slot) : St := st.clearFrom (st.n - sp) sp

/-- one turn of the per-instruction loop (compile.rs:96-160). -/
def St.step (P : Prim) (st : St) (op : Op) : Option (St × List Ins) :=
  (st.compile1 P op).map fun r => (r.1.clearAbove op.sp, r.2)

/-- the code of a straight-line block, instruction by instruction. -/
def compileBlock (P : Prim) : St → List Op → Option (St × List (List Ins))
  | st, [] => some (st, [])
  | st, op :: ops =>
    match st.step P op with
    | none => none
    | some (st', ins) => (compileBlock P st' ops).map fun r => (r.1, ins :: r.2)

/-- `nil`, an object of class 1. -/
def nilVal : Val := .obj 1 0

/-- `SlotState::new_method` (slot.rs:286-306, 312-345) for a method with `args`
required parameters and `locals` local variables (parameters included): `self` and
the parameters are boxed on the stack, other locals are the constant `nil`,
temporaries are void; `PHYS_FPR_POOL` = 14 (codegen.rs). Simplified: `self`'s class is
forgotten; optional and keyword parameters (`MaybeNone`) and specialisation are left
out. -/
def St.entry (n args locals : Nat) : St where
  n := n
  mode s := if n ≤ s then .V else if s ≤ args then .S .value else if s ≤ locals then .C nilVal else .V
  vf := List.replicate 14 []
  pinned := []
  gp _ := none
  clock := 0

/-! ### The interpreter, and running compiled code -/

/-- One bytecode in the interpreter: every slot is in its stack home. -/
def interp1 (P : Prim) (L : Slot → Val) : Op → Option (Slot → Val)
  | .lit d v _ => some (upd L d v)
  | .mov d s _ => some (upd L d (L s))
  | .bin k dst l r _ _ _ =>
    (P.arith k (L l) (L r)).map fun v => match dst with | some d => upd L d v | none => L

/-- How a block ends: at its end, or with an exception; with the frame's slots. -/
inductive Outcome where
  | fin (stk : Slot → Val)
  | raised (stk : Slot → Val)

/-- The interpreter on a block. -/
def interp (P : Prim) : (Slot → Val) → List Op → Outcome
  | L, [] => .fin L
  | L, op :: ops =>
    match interp1 P L op with
    | some L' => interp P L' ops
    | none => .raised L

/-- Running the compiled block: a side exit in the code of an instruction resumes
the interpreter at that instruction. At the end of the block the slots are read
through a final write-back, which is what the next side exit, call or return of
the frame would do. -/
def runJit (P : Prim) (final : St) : Mach → List Op → List (List Ins) → Outcome
  | m, op :: ops, ins :: code =>
    match exec P m ins with
    | .ok m' => runJit P final m' ops code
    | .error stk => interp P stk (op :: ops)
  | m, _, _ => .fin (applyWB final.wb m)

end Verif.JitState
