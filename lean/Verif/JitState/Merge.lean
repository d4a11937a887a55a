import Verif.JitState.Model

/-
  Branches: the meet of the slot states that flow into a basic block, and the bridge
  code on each edge; compilation of `if`/`else` on top of it.

  Sources: /repo/monoruby/src/codegen/jitgen/state/join.rs, state/slot.rs, state.rs,
  merge.rs, compile.rs.
-/
namespace Verif.JitState

/-! ### The meet -/

/-- `SfGuarded::join` (join.rs:266-273). -/
def SfG.join : SfG → SfG → SfG
  | .fixnum, .fixnum => .fixnum
  | .float, .float => .float
  | _, _ => .both

/-- `Guarded::join` (slot.rs:1901-1903). -/
def Guarded.join (a b : Guarded) : Guarded := if a = b then a else .value

/-- `SfGuarded::from_concrete_value` (join.rs:275-283); `none` is its panic. -/
def SfG.ofVal : Val → Option SfG
  | .fix _ => some .fixnum
  | .flo _ => some .float
  | .obj _ _ => none

/-- `JoinAction` (join.rs:147-173). -/
inductive JoinAct where
  | nop | setMaybeNone | discard | freshFKeep | freshFElseS
  | setSf (x : FReg) (g : SfG)
  | freshSfElseKeep (x : FReg) (g : SfG)
  | freshSfElseS (g : SfG)
  | setS (g : Guarded)
  deriving DecidableEq, Repr

/-- the last arm: `SetS(self.guarded(i).join(&other.guarded(i)))`; `none` is the
`unreachable!` of `guarded`. -/
def joinS (a b : Mode) : Option JoinAct :=
  match a.guarded, b.guarded with
  | some g, some h => some (.setS (g.join h))
  | _, _ => none

/-- the arms for two register bindings, one of them with a boxed copy (join.rs:198-214). -/
def joinSf (x y : FReg) (g h : SfG) : JoinAct :=
  if x = y then .setSf x (g.join h) else .freshSfElseKeep x (g.join h)

/-- `decide_join` (join.rs:180-232). -/
def decideJoin : Mode → Mode → Option JoinAct
  | .none, .none => some .nop
  | .maybeNone, _ => some .nop
  | _, .maybeNone => some .setMaybeNone
  | .V, _ => some .nop
  | _, .V => some .discard
  | .F l, .F r => some (if l ≠ r then .freshFKeep else .nop)
  | .F _, .C (.flo _) => some .nop
  | .F x, .Sf y h => some (joinSf x y .float h)
  | .Sf x g, .Sf y h => some (joinSf x y g h)
  | .Sf x g, .F y => some (joinSf x y g .float)
  | .Sf x g, .C (.flo _) => some (.setSf x (g.join .float))
  | .Sf x g, .C (.fix _) => some (.setSf x (g.join .fixnum))
  | .C (.flo _), .F _ => some .freshFElseS
  | .C (.flo _), .Sf _ h => some (.freshSfElseS (SfG.float.join h))
  | .C (.fix _), .Sf _ h => some (.freshSfElseS (SfG.fixnum.join h))
  | .C v, .C w =>
    if v = w then some .nop
    else match v, w with
      | .flo _, .flo _ => some .freshFElseS
      | _, _ => joinS (.C v) (.C w)
  | a, b => joinS a b

/-- `try_set_new_F` (slot.rs:780-784). -/
def St.tryNewF (st : St) (s : Slot) : Option St :=
  st.tryAlloc.map fun r => r.1.setF s r.2

/-- `try_set_new_Sf` (slot.rs:801-805). -/
def St.tryNewSf (st : St) (s : Slot) (g : SfG) : Option St :=
  st.tryAlloc.map fun r => r.1.setSf s r.2 g

/-- `apply_join` (join.rs:238-263). -/
def St.applyJoin (st : St) (s : Slot) : JoinAct → Option St
  | .nop => some st
  | .setMaybeNone => some ((st.clear s).setMode s .maybeNone)
  | .discard => st.discard s
  | .freshFKeep => some ((st.tryNewF s).getD st)
  | .freshFElseS => some ((st.tryNewF s).getD (st.setS s .float))
  | .setSf x g => some (st.setSf s x g)
  | .freshSfElseKeep x g => some ((st.tryNewSf s g).getD (st.setSf s x g))
  | .freshSfElseS g => some ((st.tryNewSf s g).getD (st.setS s g.toG))
  | .setS g => some (st.setS s g)

/-- `AbstractFrame::join` (join.rs:46-73) over the slots `s, s+1, …` (`k` of them).
Simplified: the liveness and invariant halves are left out. -/
def St.joinFrom (st other : St) : Nat → Slot → Option St
  | 0, _ => some st
  | k + 1, s =>
    match decideJoin (st.mode s) (other.mode s) with
    | none => none
    | some a =>
      match st.applyJoin s a with
      | none => none
      | some st' => st'.joinFrom other k (s + 1)

def St.join (st other : St) : Option St := st.joinFrom other st.n 0

/-- `join_entries` (state.rs:79-85) for two entries: the last one, joined with each. -/
def join2 (a b : St) : Option St := (b.join a).bind fun t => t.join b

/-! ### Bridges -/

/-- `is_fpr_vacant` (slot.rs:1202-1204). -/
def St.vacant (st : St) (x : FReg) : Bool := (st.slots x).isEmpty

/-- a register renamed by a swap (slot.rs:1462-1469). -/
def swapReg (l r x : FReg) : FReg := if x = l then r else if x = r then l else x

def Mode.swap (l r : FReg) : Mode → Mode
  | .F x => .F (swapReg l r x)
  | .Sf x g => .Sf (swapReg l r x) g
  | md => md

/-- `fpr_swap` (slot.rs:1451-1479). -/
def St.fprSwap (st : St) (l r : FReg) : St :=
  { st with vf := (st.vf.set l (st.slots r)).set r (st.slots l), mode := fun s => (st.mode s).swap l r }

/-- `grow_to` (slot.rs:214-218). -/
def St.growTo (st : St) (k : Nat) : St :=
  { st with vf := st.vf ++ List.replicate (k - st.vf.length) [] }

/-- `to_sf` (slot.rs:2055-2068). -/
def St.toSf (st : St) (s : Slot) (l r : FReg) (g : SfG) : St × List Ins :=
  if st.vacant r then (st.setSf s r g, [.fmov l r]) else (st.fprSwap l r, [.fswap l r])

/-- the class test of the `S → S` arm: a known class that is not the current one. -/
def needGuard (g g' : Guarded) : Bool := decide (g' ≠ .value) && decide (g ≠ g')

/-- a register index past the end (Rust's index panic) -/
def Mode.beyond (len : Nat) : Mode → Bool
  | .F r => decide (len ≤ r)
  | .Sf r _ => decide (len ≤ r)
  | _ => false

/-- `bridge` (slot.rs:1910-2045), with a guard that a register index of the target
exists (Rust's index panic). The exit of a guard resumes at the first instruction of the
block. -/
def St.bridge1 (st : St) (T : Mode) (s : Slot) : Option (St × List Ins) :=
  if T.beyond st.vf.length then none
  else
    match st.mode s, T with
    | .V, .V => some (st, [])
    | _, .V => (st.discard s).map fun st => (st, [])
    | .F l, .F r =>
      if l = r then some (st, [])
      else if st.vacant r then some (st.setF s r, [.fmov l r])
      else some (st.fprSwap l r, [.fswap l r])
    | .F _, .Sf _ .fixnum => none
    | .F l, .Sf r g =>
      if l = r then some (st.setSf s l g, [.x2s l s])
      else let q := st.toSf s l r g; some (q.1, .x2s l s :: q.2)
    | .F _, .S _ => st.writeBackSlot s
    | .Sf l _, .Sf r g => if l = r then some (st, []) else some (st.toSf s l r g)
    | .Sf _ g, .S _ => some (st.setS s g.toG, [])
    | .S _, .Sf x .float =>
      if st.vacant x then some (st.setSf s x .float, [.s2r s scratch, .v2x scratch x st.wb])
      else
        let q := st.alloc
        some ((q.1.setSf s q.2 .float).fprSwap x q.2, [.s2r s scratch, .v2x scratch q.2 st.wb, .fswap x q.2])
    | .S _, .F x =>
      if st.vacant x then some (st.setF s x, [.s2r s scratch, .v2x scratch x st.wb])
      else
        let q := st.alloc
        some ((q.1.setF s q.2).fprSwap x q.2, [.s2r s scratch, .v2x scratch q.2 st.wb, .fswap x q.2])
    | .Sf l _, .F r =>
      if l = r then some (st.setF s l, [])
      else if st.vacant r then some (st.setF s r, [.fmov l r])
      else some ((st.fprSwap l r).setF s r, [.fswap l r])
    | .S g, .S g' =>
      if needGuard g g' then some (st.setS s g', [.s2r s scratch, .guard g' scratch st.wb]) else some (st, [])
    | .C v, .C w => if v = w then some (st, []) else none
    | .C (.flo f), .F r => some (st.setF s r, [.f2x f r])
    | .C (.flo f), .Sf r _ => some (st.setSf s r .float, [.f2x f r, .l2s (.flo f) s])
    | .C (.fix i), .Sf r _ => some (st.setSf s r .float, [.i2both i s r])
    | .C v, .S _ => some (st.setMode s (.S (Guarded.ofVal v)), [.l2s v s])
    | .none, .none => some (st, [])
    | .maybeNone, .maybeNone => some (st, [])
    | _, _ => none

/-- the loop of `gen_bridge` (state.rs:103-105). -/
def St.bridgeFrom (st : St) (T : St) : Nat → Slot → Option (St × List Ins)
  | 0, _ => some (st, [])
  | k + 1, s =>
    match st.bridge1 (T.mode s) s with
    | none => none
    | some (st', i1) => (st'.bridgeFrom T k (s + 1)).map fun q => (q.1, i1 ++ q.2)

/-- `gen_bridge` (state.rs:90-106). -/
def St.bridge (st T : St) : Option (St × List Ins) := (st.growTo T.vf.length).bridgeFrom T st.n 0

/-! ### Structured code -/

/-- Code with two-way branches on a slot. -/
inductive Prog where
  | blk (ops : List Op)
  | seq (p q : Prog)
  | ite (c : Slot) (p q : Prog)

/-- What is emitted for it; per branch: body, flush at its end, bridge. -/
inductive Code where
  | blk (ins : List (List Ins))
  | seq (p q : Code)
  | ite (pre : List Ins) (c : Slot) (p : Code) (fp bp : List Ins) (q : Code) (fq bq : List Ins)

/-- Compile. The branch (compile.rs:991-1006) flushes the integer registers and loads the
condition; each body is compiled from the state there and flushes at its end
(compile.rs:116, 168); `merge.rs:165-172` joins the entries — the `then` side first, as
its jump is recorded first — and bridges each. Simplified: only conditions that are
boxed values of unknown class (others may be decided at compile time); the condition is
read from its stack home. -/
def compileProg (P : Prim) : St → Prog → Option (St × Code)
  | st, .blk ops => (compileBlock P st ops).map fun r => (r.1, .blk r.2)
  | st, .seq p q =>
    match compileProg P st p with
    | none => none
    | some (st1, cp) => (compileProg P st1 q).map fun r => (r.1, .seq cp r.2)
  | st, .ite c p q =>
    let f0 := st.flushGp
    if f0.1.mode c ≠ .S .value then none
    else
      match compileProg P f0.1 p, compileProg P f0.1 q with
      | some (sp, cp), some (sq, cq) =>
        let fp := sp.flushGp
        let fq := sq.flushGp
        match join2 fp.1 fq.1 with
        | none => none
        | some T =>
          match fp.1.bridge T, fq.1.bridge T with
          | some (_, bp), some (_, bq) => some (T, .ite f0.2 c cp fp.2 bp cq fq.2 bq)
          | _, _ => none
      | _, _ => none

/-- `nil` and `false` (an object of class 2 here) are falsy. -/
def Val.truthy : Val → Bool
  | .obj c _ => !(c == 1 || c == 2)
  | _ => true

/-- The interpreter. -/
def interpP (P : Prim) : (Slot → Val) → Prog → Outcome
  | L, .blk ops => interp P L ops
  | L, .seq p q => match interpP P L p with
    | .fin L' => interpP P L' q
    | .raised L' => .raised L'
  | L, .ite c p q => if (L c).truthy then interpP P L p else interpP P L q

/-- How compiled code ends: at its end, or in a side exit with what is left to do. -/
inductive Run where
  | ok (m : Mach)
  | exit (stk : Slot → Val) (rest : Prog)

def Run.bind (r : Run) (f : Mach → Run) (k : Prog → Prog) : Run :=
  match r with
  | .ok m => f m
  | .exit stk rest => .exit stk (k rest)

/-- plain code, with what the interpreter has to do from its exits -/
def runIns (P : Prim) (m : Mach) (is : List Ins) (rest : Prog) : Run :=
  match exec P m is with
  | .ok m' => .ok m'
  | .error stk => .exit stk rest

/-- a straight-line block -/
def runBlk (P : Prim) : Mach → List Op → List (List Ins) → Run
  | m, op :: ops, ins :: code =>
    match exec P m ins with
    | .ok m' => runBlk P m' ops code
    | .error stk => .exit stk (.blk (op :: ops))
  | m, _, _ => .ok m

/-- Run compiled code. -/
def runProg (P : Prim) : Mach → Prog → Code → Run
  | m, .blk ops, .blk code => runBlk P m ops code
  | m, .seq p q, .seq cp cq => (runProg P m p cp).bind (fun m' => runProg P m' q cq) (.seq · q)
  | m, .ite c p q, .ite pre _ cp fp bp cq fq bq =>
    (runIns P m pre (.ite c p q)).bind (fun m1 =>
      if (m1.stack c).truthy then
        (runProg P m1 p cp).bind (fun m2 => runIns P m2 (fp ++ bp) (.blk [])) id
      else (runProg P m1 q cq).bind (fun m2 => runIns P m2 (fq ++ bq) (.blk [])) id) id
  | m, _, _ => .ok m

/-- Run compiled code from `m` and, after a side exit, the interpreter; the slots at the
end are read through a final write-back. -/
def finish (P : Prim) (final : St) : Run → Outcome
  | .ok m => .fin (applyWB final.wb m)
  | .exit stk rest => interpP P stk rest

end Verif.JitState
