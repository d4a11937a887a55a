import Verif.JitState.Apart
import Verif.JitState.Defects

/-! C77: methods with branches. -/

namespace Verif.JitState

/-- **C77** (partial). A method body with `if`/`else`, compiled and run — through the
merge of the branches and any side exit inside one — ends as the interpreter ends,
normally or with an exception, with the same value in every local variable.
Missing: bodies with one of the hazards of `progSafe` (below), `-2^62 / -1`, conditions
known at compile time, loops, other bytecodes. -/
theorem C77_program_partial {P : Prim} (ok : P.Ok) {n args locals : Nat} (ha : args ≤ locals) (hn : locals < n)
    {m : Mach} {L : Slot → Val} (f : Frame args locals m L) {p : Prog} {stf : St} {code : Code}
    (hc : compileProg P (St.entry n args locals) p = some (stf, code))
    (hsp : ∀ op ∈ p.ops, locals < op.sp) (hlit : ∀ op ∈ p.ops, op.litOk = true)
    (hsafe : progSafe P (St.entry n args locals) p = true) (hdiv : noMinDivP P L p) :
    Outcome.agree (locals + 1) (finish P stf (runProg P m p code)) (interpP P L p) :=
  finish_agrees (compileProg_wf p _ _ _ (entry_wf n args locals) hsafe hc).1
    (prog_agree p _ _ _ L L (entry_wf n args locals) hc hsafe (entry_live ha hn) hsp (fun _ _ => rfl)).2
    (prog_run ok p _ _ m L code (entry_wf n args locals) (entry_rep f) f.range (entry_live ha hn) hsp hlit hc hsafe hdiv)

/-- **C77** (partial), one merge. If in neither branch two variables share a float
register, and no variable that is a literal in a branch is in a register after the merge,
then the code on either edge carries every variable's value to the place the merged code
expects it in, leaving no variable behind. -/
theorem C77_merge_partial {P : Prim} {a b T : St} (wa : WF a) (wb : WF b) (ga : ∀ r, a.gp r = none)
    (gb : ∀ r, b.gp r = none) (hn : a.n = b.n) (h : join2 a b = some T)
    (apa : Apart a) (apb : Apart b) (la : NoLit a T) (lb : NoLit b T) {m : Mach} {L : Slot → Val} {st' : St} {ins : List Ins}
    (e : Rep P a m L All ∧ a.bridge T = some (st', ins) ∨ Rep P b m L All ∧ b.bridge T = some (st', ins)) :
    ∃ m', exec P m ins = .ok m' ∧ Rep P T m' L All := by
  obtain ⟨wT, nT, gT, l1, l2, _⟩ := join2_ok wa wb ga gb hn h
  have aT := join2_apart wb gb apb h
  rcases e with ⟨r, e⟩ | ⟨r, e⟩
  · exact bridge_ok wa ga r wT gT nT l1 (bridgeSafe_apart wa ga apa aT la l1 e) e
  · exact bridge_ok wb gb r wT gT (nT.trans hn) l2 (bridgeSafe_apart wb gb apb aT lb l2 e) e

/-- **C77** (partial), as `C77_program_partial` but with the condition on merges stated
on the branches' ends: no two variables share a register, no literal meets a register. -/
theorem C77_plain_partial {P : Prim} (ok : P.Ok) {n args locals : Nat} (ha : args ≤ locals) (hn : locals < n)
    {m : Mach} {L : Slot → Val} (f : Frame args locals m L) {p : Prog} {stf : St} {code : Code}
    (hc : compileProg P (St.entry n args locals) p = some (stf, code))
    (hsp : ∀ op ∈ p.ops, locals < op.sp) (hlit : ∀ op ∈ p.ops, op.litOk = true)
    (hplain : progPlain P (St.entry n args locals) p) (hdiv : noMinDivP P L p) :
    Outcome.agree (locals + 1) (finish P stf (runProg P m p code)) (interpP P L p) :=
  C77_program_partial ok ha hn f hc hsp hlit (plain_safe p _ _ _ (entry_wf n args locals) hc hplain) hdiv

/-- **C77**, what a merge promises. Whatever the two branches know about the variables,
the state joined from them describes every variable both describe, and only claims of a
variable's class what both know. -/
theorem C77_join {a b T : St} (wa : WF a) (wb : WF b) (ga : ∀ r, a.gp r = none) (gb : ∀ r, b.gp r = none)
    (hn : a.n = b.n) (h : join2 a b = some T) :
    WF T ∧ (∀ t, (a.mode t).live = true → (b.mode t).live = true → (T.mode t).live = true) ∧
    (∀ {P : Prim} {m : Mach} {L : Slot → Val}, Rep P a m L All ∨ Rep P b m L All →
      ∀ t, (T.mode t).live = true → SatM (L t) (T.mode t)) := by
  obtain ⟨wT, _, _, l1, l2, l3⟩ := join2_ok wa wb ga gb hn h
  refine ⟨wT, l3, fun hr t _ => ?_⟩
  rcases hr with r | r
  · exact sat_of_le (r.slot t trivial) (l1 t)
  · exact sat_of_le (r.slot t trivial) (l2 t)

/-! ### The hypotheses are met -/

/-- `def f(c, z); x = z * 2.0; y = 1; if c; x = x * z; y = y + 1 else y = x + 1.0 end; w = x * y end`
with slots c=1 z=2 x=3 y=4 w=5. -/
def branchProg : Prog :=
  .seq (.blk [.lit 6 (.flo 2) 7, .bin .mul (some 3) 2 6 .flt .flt 6, .lit 4 (.fix 1) 6])
    (.seq (.ite 1 (.blk [.bin .mul (some 3) 3 2 .flt .flt 6, .lit 6 (.fix 1) 7, .bin .add (some 4) 4 6 .int .int 6])
      (.blk [.lit 6 (.flo 1) 7, .bin .add (some 4) 3 6 .flt .flt 6]))
      (.blk [.bin .add (some 5) 3 3 .flt .flt 6]))

def branchFrame (c : Val) (f : Flt) : Slot → Val := fun s => if s = 1 then c else if s = 2 then .flo f else nilVal

theorem branch_frame {c : Val} (hc : ∀ i, c ≠ .fix i) (f : Flt) (loc : Nat) (g : GReg → Val) (h : FReg → Flt) :
    Frame 2 loc ⟨branchFrame c f, g, h⟩ (branchFrame c f) where
  arg _ _ := rfl
  nil s h _ := by
    have h1 : ¬ s = 1 := by omega
    have h2 : ¬ s = 2 := by omega
    simp [branchFrame, h1, h2]
  range s i h := by
    unfold branchFrame nilVal at h
    split at h
    · exact absurd h (hc i)
    · split at h <;> cases h

/-- both branches are run through the theorem -/
example (b : Bool) (f : Flt) : ∃ stf code, compileProg stdPrim (St.entry 8 2 5) branchProg = some (stf, code) ∧
    Outcome.agree 6 (finish stdPrim stf (runProg stdPrim ⟨branchFrame (.obj (if b then 3 else 2) 0) f, fun _ => .fix 99, fun _ => 7⟩ branchProg code))
      (interpP stdPrim (branchFrame (.obj (if b then 3 else 2) 0) f) branchProg) := by
  have h : (compileProg stdPrim (St.entry 8 2 5) branchProg).isSome = true := by decide +kernel
  obtain ⟨⟨stf, code⟩, h⟩ := Option.isSome_iff_exists.1 h
  refine ⟨stf, code, h, C77_program_partial stdPrim_ok (by decide) (by decide) (branch_frame (by simp) f _ _ _) h ?_ ?_ ?_ ?_⟩
  · decide
  · decide
  · decide +kernel
  · simp only [noMinDivP, branchProg, noMinDiv, Op.noMinDiv, and_true, implies_true, reduceCtorEq, false_implies, ite_self, and_self]

/-- `def f(c, z); if c; x = z * 2.0; y = z * 3.0 else y = z * 5.0; x = z * 7.0 end; end`
with slots c=1 z=2 x=3 y=4: the registers of `x` and `y` are exchanged between the branches. -/
def crossProg : Prog :=
  .ite 1 (.blk [.lit 5 (.flo 2) 6, .bin .mul (some 3) 2 5 .flt .flt 5, .lit 5 (.flo 3) 6, .bin .mul (some 4) 2 5 .flt .flt 5])
    (.blk [.lit 5 (.flo 5) 6, .bin .mul (some 4) 2 5 .flt .flt 5, .lit 5 (.flo 7) 6, .bin .mul (some 3) 2 5 .flt .flt 5])

/-- decides the conditions of `progPlain` at one merge -/
def mergeCheck (sp sq T : St) : Bool :=
  let ap (st : St) := (List.range st.n).all fun s => (List.range st.n).all fun t =>
    decide (s = t) || (st.mode s).reg.isNone || decide ((st.mode s).reg ≠ (st.mode t).reg)
  let nl (st : St) := (List.range st.n).all fun s => match st.mode s with
    | .C _ => (T.mode s).reg.isNone
    | _ => true
  ap sp && ap sq && nl sp && nl sq

theorem mergeCheck_ok {sp sq T : St} (h1 : WF sp) (h2 : WF sq) (h : mergeCheck sp sq T = true) :
    Apart sp ∧ Apart sq ∧ NoLit sp T ∧ NoLit sq T := by
  have ap : ∀ st : St, WF st → ((List.range st.n).all fun s => (List.range st.n).all fun t =>
    decide (s = t) || (st.mode s).reg.isNone || decide ((st.mode s).reg ≠ (st.mode t).reg)) = true → Apart st := by
    intro st hb h s t x hs ht
    have lt : ∀ s : Nat, (st.mode s).reg = some x → s < st.n := by
      intro s hs
      by_contra hn
      rw [hb.big s (Nat.le_of_not_lt hn)] at hs
      cases hs
    have := List.all_eq_true.1 (List.all_eq_true.1 h s (List.mem_range.2 (lt s hs))) t (List.mem_range.2 (lt t ht))
    rw [hs, ht] at this
    simpa using this
  have nl : ∀ st : St, WF st → ((List.range st.n).all fun s => match st.mode s with
    | .C _ => (T.mode s).reg.isNone
    | _ => true) = true → NoLit st T := by
    intro st hb h s v hs
    have lt : s < st.n := by
      by_contra hn
      rw [hb.big s (Nat.le_of_not_lt hn)] at hs
      cases hs
    have := List.all_eq_true.1 h s (List.mem_range.2 lt)
    rw [hs] at this
    simpa using this
  unfold mergeCheck at h
  simp only [Bool.and_eq_true] at h
  exact ⟨ap sp h1 h.1.1.1, ap sq h2 h.1.1.2, nl sp h1 h.1.2, nl sq h2 h.2⟩

theorem cross_plain : progPlain stdPrim (St.entry 7 2 4) crossProg := by
  have w : WF (St.entry 7 2 4).flushGp.1 := flushGp_wf (entry_wf 7 2 4)
  have s1 : progSafe stdPrim (St.entry 7 2 4).flushGp.1 (.blk [.lit 5 (.flo 2) 6, .bin .mul (some 3) 2 5 .flt .flt 5, .lit 5 (.flo 3) 6, .bin .mul (some 4) 2 5 .flt .flt 5]) = true := by
    decide +kernel
  have s2 : progSafe stdPrim (St.entry 7 2 4).flushGp.1 (.blk [.lit 5 (.flo 5) 6, .bin .mul (some 4) 2 5 .flt .flt 5, .lit 5 (.flo 7) 6, .bin .mul (some 3) 2 5 .flt .flt 5]) = true := by
    decide +kernel
  refine ⟨s1, s2, fun sp cp sq cq T hp hq hj => ?_⟩
  refine mergeCheck_ok (compileProg_wf _ _ _ _ w s1 hp).1 (compileProg_wf _ _ _ _ w s2 hq).1 ?_
  have : (match compileProg stdPrim (St.entry 7 2 4).flushGp.1 (.blk [.lit 5 (.flo 2) 6, .bin .mul (some 3) 2 5 .flt .flt 5, .lit 5 (.flo 3) 6, .bin .mul (some 4) 2 5 .flt .flt 5]),
      compileProg stdPrim (St.entry 7 2 4).flushGp.1 (.blk [.lit 5 (.flo 5) 6, .bin .mul (some 4) 2 5 .flt .flt 5, .lit 5 (.flo 7) 6, .bin .mul (some 3) 2 5 .flt .flt 5]) with
    | some (a, _), some (b, _) => match join2 a.flushGp.1 b.flushGp.1 with
      | some T => mergeCheck a b T
      | none => false
    | _, _ => false) = true := by decide +kernel
  rw [hp, hq] at this
  simp only [hj] at this
  exact this

example (b : Bool) (f : Flt) : ∃ stf code, compileProg stdPrim (St.entry 7 2 4) crossProg = some (stf, code) ∧
    Outcome.agree 5 (finish stdPrim stf (runProg stdPrim ⟨branchFrame (.obj (if b then 3 else 2) 0) f, fun _ => .fix 99, fun _ => 7⟩ crossProg code))
      (interpP stdPrim (branchFrame (.obj (if b then 3 else 2) 0) f) crossProg) := by
  have h : (compileProg stdPrim (St.entry 7 2 4) crossProg).isSome = true := by decide +kernel
  obtain ⟨⟨stf, code⟩, h⟩ := Option.isSome_iff_exists.1 h
  refine ⟨stf, code, h, C77_plain_partial stdPrim_ok (by decide) (by decide) (branch_frame (by simp) f _ _ _) h ?_ ?_ cross_plain ?_⟩
  · decide
  · decide
  · simp only [noMinDivP, crossProg, noMinDiv, Op.noMinDiv, and_true, implies_true, reduceCtorEq, false_implies, ite_self, and_self]

/-! ### What it leaves out -/

/-- Compile and run a method body with branches. -/
def runMethodP (P : Prim) (n args locals : Nat) (L : Slot → Val) (p : Prog) : Option Outcome :=
  (compileProg P (St.entry n args locals) p).map fun r =>
    finish P r.1 (runProg P ⟨L, fun _ => nilVal, fun _ => 0⟩ p r.2)

/-- `def f(c, z); x = z * 2.0; if c; y = 1.0; else y = x; x = z * 3.0; end; end`
(slots: c=1 z=2 y=3 x=4). -/
def litProg : Prog :=
  .seq (.blk [.lit 5 (.flo 2) 6, .bin .mul (some 4) 2 5 .flt .flt 5])
    (.ite 1 (.blk [.lit 3 (.flo 1) 5])
      (.blk [.mov 3 4 5, .lit 5 (.flo 3) 6, .bin .mul (some 4) 2 5 .flt .flt 5]))

/-- **C77 fails**: with `c` true, `x` ends as `1.0` — the value of `y` — for every `z`. -/
theorem C77_clobber_fails (P : Prim) (ok : P.Ok) (f : Flt) :
    ((runMethodP P 7 2 4 (branchFrame (.obj 3 0) f) litProg).bind (Outcome.slot 4) = some (.flo 1)) ∧
    (interpP P (branchFrame (.obj 3 0) f) litProg).slot 4 = some (.flo (P.fop .mul f 2)) := by
  refine ⟨rfl, ?_⟩
  simp [interpP, interp, litProg, interp1, branchFrame, upd, ok.ff _ _ _ (rfl : Kind.isArith .mul = true), Outcome.slot,
    Val.truthy]

/-- `def f(c, z); i = z * 2.0; if c; j = i; k = z * 3.0; else j = i; i = z * 5.0; end; end`
(slots: c=1 z=2 i=3 j=4 k=5). -/
def swapProg : Prog :=
  .seq (.blk [.lit 6 (.flo 2) 7, .bin .mul (some 3) 2 6 .flt .flt 6])
    (.ite 1 (.blk [.mov 4 3 6, .lit 6 (.flo 3) 7, .bin .mul (some 5) 2 6 .flt .flt 6])
      (.blk [.mov 4 3 6, .lit 6 (.flo 5) 7, .bin .mul (some 3) 2 6 .flt .flt 6]))

/-- **C77 fails**: with `c` true, `i` ends as `z * 3.0` — the value of `k` — for every `z`. -/
theorem C77_swap_fails (P : Prim) (ok : P.Ok) (f : Flt) :
    ((runMethodP P 9 2 5 (branchFrame (.obj 3 0) f) swapProg).bind (Outcome.slot 3) =
      some (.flo (P.fop .mul f 3))) ∧
    (interpP P (branchFrame (.obj 3 0) f) swapProg).slot 3 = some (.flo (P.fop .mul f 2)) := by
  refine ⟨rfl, ?_⟩
  simp [interpP, interp, swapProg, interp1, branchFrame, upd, ok.ff _ _ _ (rfl : Kind.isArith .mul = true), Outcome.slot,
    Val.truthy]

end Verif.JitState
