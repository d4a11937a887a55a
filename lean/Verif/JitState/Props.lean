import Verif.JitState.Demo

/-! Compiled straight-line code and the interpreter: C72, C73. -/

namespace Verif.JitState

/-! ### From the entry of a method -/

theorem entry_wf (n args locals : Nat) : WF (St.entry n args locals) where
  vf x s := by
    have h1 : (St.entry n args locals).slots x = [] := by
      unfold St.slots St.entry
      simp only [List.getD_eq_getElem?_getD, List.getElem?_replicate]
      split <;> rfl
    rw [h1]
    simp only [St.entry, List.not_mem_nil, false_iff]
    split
    · simp [Mode.reg]
    · split
      · simp [Mode.reg]
      · split <;> simp [Mode.reg]
  inj r r' h h' e := by simp [St.entry] at e
  lt r h e := by simp [St.entry] at e
  dirty r h e := by simp [St.entry] at e
  big s hs := if_pos hs

/-- The frame a method starts with: the parameters are on the stack, the other locals
are `nil`. -/
structure Frame (args locals : Nat) (m : Mach) (L : Slot → Val) : Prop where
  arg : ∀ s : Nat, s ≤ args → m.stack s = L s
  nil : ∀ s : Nat, args < s → s ≤ locals → L s = nilVal
  range : Ranged L

theorem entry_rep {P : Prim} {n args locals : Nat} {m : Mach} {L : Slot → Val} (f : Frame args locals m L) :
    Rep P (St.entry n args locals) m L All where
  slot s _ := by
    unfold RepSlot
    simp only [St.entry]
    by_cases h0 : n ≤ s
    · simp [h0]
    · rw [if_neg h0]
      by_cases h1 : s ≤ args
      · rw [if_pos h1]; exact ⟨rfl, fun _ => f.arg s h1⟩
      · rw [if_neg h1]
        by_cases h2 : s ≤ locals
        · rw [if_pos h2]; exact f.nil s (Nat.lt_of_not_le h1) h2
        · rw [if_neg h2]; trivial
  hold r h e := by simp [St.entry] at e

theorem entry_live {n args locals : Nat} (h : args ≤ locals) (hn : locals < n) (s : Nat) (hs : s < locals + 1) :
    ((St.entry n args locals).mode s).live = true := by
  simp only [St.entry]
  rw [if_neg (by omega)]
  by_cases h1 : s ≤ args
  · rw [if_pos h1]; rfl
  · rw [if_neg h1, if_pos (show s ≤ locals by omega)]; rfl

/-- **C72** (partial). A method body of literals, moves and arithmetic, compiled and run,
ends as the interpreter ends — normally or with an exception — with the same value in
every local variable. Missing: bodies with one of the hazards of `Op.safe` (each is a
counterexample in `Defects.lean`), `-2^62 / -1`, other bytecodes. -/
theorem C72_block_partial {P : Prim} (ok : P.Ok) {n args locals : Nat} (ha : args ≤ locals) (hn : locals < n)
    {m : Mach} {L : Slot → Val} (f : Frame args locals m L) {ops : List Op} {stf : St} {code : List (List Ins)}
    (hc : compileBlock P (St.entry n args locals) ops = some (stf, code))
    (hsp : ∀ op ∈ ops, locals < op.sp) (hlit : ∀ op ∈ ops, op.litOk = true)
    (hsafe : blockSafe P (St.entry n args locals) ops = true) (hdiv : noMinDiv P L ops) :
    Outcome.agree (locals + 1) (runJit P stf m ops code) (interp P L ops) :=
  jit_agrees ok ops _ stf m L code (entry_wf n args locals) (entry_rep f) f.range
    (entry_live ha hn) hsp hlit hc hsafe hdiv

/-! ### Side exits -/

/-- The first side exit of a run: the index of the instruction, and the frame handed to
the interpreter. -/
def sideExit (P : Prim) : Mach → List (List Ins) → Option (Nat × (Slot → Val))
  | _, [] => none
  | m, ins :: code =>
    match exec P m ins with
    | .ok m' => (sideExit P m' code).map fun r => (r.1 + 1, r.2)
    | .error stk => some (0, stk)

theorem sideExit_ok {P : Prim} (ok : P.Ok) {loc : Nat} : ∀ (ops : List Op) (st stf : St) (m : Mach)
    (L : Slot → Val) (code : List (List Ins)), WF st → Rep P st m L All → Ranged L →
    (∀ s : Nat, s < loc → (st.mode s).live = true) → (∀ op ∈ ops, loc ≤ op.sp) → (∀ op ∈ ops, op.litOk = true) →
    compileBlock P st ops = some (stf, code) → blockSafe P st ops = true → noMinDiv P L ops →
    ∀ i stk, sideExit P m code = some (i, stk) →
    ∃ op Li, ops[i]? = some op ∧ interp P L (ops.take i) = .fin Li ∧
      (∀ s ∈ op.reads, stk s = Li s) ∧ (∀ s : Nat, s < loc → some s ≠ op.dst → stk s = Li s) ∧
      (op.result P Li = none → ∀ s : Nat, s < loc → stk s = Li s) := by
  intro ops
  induction ops with
  | nil =>
    intro st stf m L code w rep _ hloc _ _ hc _ _ i stk he
    simp only [compileBlock, Option.some.injEq, Prod.mk.injEq] at hc
    obtain ⟨rfl, rfl⟩ := hc
    simp [sideExit] at he
  | cons op ops ih =>
    intro st stf m L code w rep hrange hloc hsp hlit hc hsafe hdiv i stk he
    unfold blockSafe at hsafe
    unfold compileBlock at hc
    cases hst : st.step P op with
    | none => simp [hst] at hc
    | some p =>
      obtain ⟨st', ins⟩ := p
      simp only [hst, Bool.and_eq_true] at hsafe
      simp only [hst, Option.map_eq_some_iff, Prod.mk.injEq] at hc
      obtain ⟨⟨stf', rest⟩, hcb, rfl, rfl⟩ := hc
      obtain ⟨hr, hb', _, hlive⟩ := step_live w.toBig (safe_self hsafe.1) hst
      have hloc' : ∀ s : Nat, s < loc → (st'.mode s).live = true := fun s hs =>
        (hlive s).2 ⟨Nat.lt_of_lt_of_le hs (hsp op (by simp)), .inl (hloc s hs)⟩
      have hsp' : ∀ o ∈ ops, loc ≤ o.sp := fun o ho => hsp o (List.mem_cons_of_mem _ ho)
      have hlit' : ∀ o ∈ ops, o.litOk = true := fun o ho => hlit o (List.mem_cons_of_mem _ ho)
      unfold St.step at hst
      simp only [Option.map_eq_some_iff, Prod.mk.injEq] at hst
      obtain ⟨⟨st1, i1⟩, hc1, rfl, rfl⟩ := hst
      have hpost := compile1_ok ok w rep hrange hdiv.1 (safe_clear hsafe.1) hc1
      unfold sideExit at he
      rcases hpost with ⟨m', v, e, hres, w1, rep1⟩ | ⟨stk', e, hstk⟩
      · obtain ⟨w2, rep2⟩ := clearAbove_ok w1 rep1
        have hi : interp1 P L op = some (setD L op.dst v) := by rw [interp1_eq, hres]; rfl
        simp only [e, Option.map_eq_some_iff, Prod.mk.injEq] at he
        obtain ⟨⟨j, stk2⟩, he, rfl, rfl⟩ := he
        obtain ⟨o, Li, h1, h2, h3⟩ := ih (st1.clearAbove op.sp) stf' m' (setD L op.dst v) rest w2 rep2
          (ranged_set ok hrange (hlit op (by simp)) hres) hloc' hsp' hlit' hcb hsafe.2 (hdiv.2 _ hi) j stk2 he
        refine ⟨o, Li, by simpa using h1, ?_, h3⟩
        rw [List.take_succ_cons]
        unfold interp
        rw [hi]
        exact h2
      · simp only [e, Option.some.injEq, Prod.mk.injEq] at he
        obtain ⟨rfl, rfl⟩ := he
        refine ⟨op, L, rfl, rfl, ?_⟩
        rcases hstk with hstk | ⟨hne, hstk⟩
        · exact ⟨fun s hs => hstk s (hr s hs), fun s hs _ => hstk s (hloc s hs), fun _ s hs => hstk s (hloc s hs)⟩
        · refine ⟨fun s hs => hstk s (hr s hs) (.inr hs), fun s hs hd =>
            hstk s (hloc s hs) (.inl ⟨Nat.lt_of_lt_of_le hs (hsp op (by simp)), hd⟩), fun h => absurd h hne⟩

/-- **C73** (partial). When compiled code gives up in the middle, the interpreter gets the
frame it would have had itself at that instruction: its operands and every local variable
(but the one about to be assigned, unless the instruction is about to raise). Missing: as
for C72. -/
theorem C73_side_exit_partial {P : Prim} (ok : P.Ok) {n args locals : Nat} (ha : args ≤ locals) (hn : locals < n)
    {m : Mach} {L : Slot → Val} (f : Frame args locals m L) {ops : List Op} {stf : St} {code : List (List Ins)}
    (hc : compileBlock P (St.entry n args locals) ops = some (stf, code))
    (hsp : ∀ op ∈ ops, locals < op.sp) (hlit : ∀ op ∈ ops, op.litOk = true)
    (hsafe : blockSafe P (St.entry n args locals) ops = true) (hdiv : noMinDiv P L ops)
    {i : Nat} {stk : Slot → Val} (he : sideExit P m code = some (i, stk)) :
    ∃ op Li, ops[i]? = some op ∧ interp P L (ops.take i) = .fin Li ∧
      (∀ s ∈ op.reads, stk s = Li s) ∧ (∀ s : Nat, s ≤ locals → some s ≠ op.dst → stk s = Li s) ∧
      (op.result P Li = none → ∀ s : Nat, s ≤ locals → stk s = Li s) := by
  obtain ⟨op, Li, h1, h2, h3, h4, h5⟩ := sideExit_ok ok ops _ stf m L code (entry_wf n args locals) (entry_rep f) f.range
    (entry_live ha hn) hsp hlit hc hsafe hdiv i stk he
  exact ⟨op, Li, h1, h2, h3, fun s hs => h4 s (Nat.lt_succ_of_le hs), fun h s hs => h5 h s (Nat.lt_succ_of_le hs)⟩

/-! ### A method the theorems apply to

`def f(x, y); a = x + y; b = a * x; c = b * 2.0; a - y; end`, with `x = 7`, `y = -3`. -/

def demoOps : List Op :=
  [.bin .add (some 3) 1 2 .int .int 6, .bin .mul (some 4) 3 1 .int .int 6, .lit 6 (.flo 2) 7,
   .bin .mul (some 5) 4 6 .int .flt 6, .bin .sub (some 6) 3 2 .int .int 7]

def demoFrame : Slot → Val := fun s => if s = 1 then .fix 7 else if s = 2 then .fix (-3) else nilVal

def demoMach : Mach := ⟨demoFrame, fun _ => .fix 99, fun _ => 0⟩

theorem demo_frame : Frame 2 5 demoMach demoFrame where
  arg _ _ := rfl
  nil s h _ := by
    have h1 : ¬ s = 1 := by omega
    have h2 : ¬ s = 2 := by omega
    simp [demoFrame, h1, h2]
  range s i h := by
    unfold demoFrame nilVal at h
    split at h
    · injection h with h; subst h; decide
    · split at h
      · injection h with h; subst h; decide
      · cases h

example : ∃ stf code, compileBlock stdPrim (St.entry 8 2 5) demoOps = some (stf, code) ∧
    Outcome.agree 6 (runJit stdPrim stf demoMach demoOps code) (interp stdPrim demoFrame demoOps) := by
  have h : (compileBlock stdPrim (St.entry 8 2 5) demoOps).isSome = true := by decide +kernel
  obtain ⟨⟨stf, code⟩, h⟩ := Option.isSome_iff_exists.1 h
  refine ⟨stf, code, h, C72_block_partial stdPrim_ok (by decide) (by decide) demo_frame h ?_ ?_ ?_ ?_⟩
  · decide
  · decide
  · decide +kernel
  · simp only [noMinDiv, demoOps, Op.noMinDiv, and_true, implies_true, reduceCtorEq, false_implies]

/-- `def f(x); a = 5; b = x + x; end` with `x = 2^61`: the addition leaves the compiled
code, with `a` handed over. -/
def exitOps : List Op := [.lit 2 (.fix 5) 4, .bin .add (some 3) 1 1 .int .int 4]

def exitFrame : Slot → Val := fun s => if s = 1 then .fix (2 ^ 61) else nilVal

theorem exit_frame : Frame 1 3 ⟨exitFrame, fun _ => .fix 99, fun _ => 0⟩ exitFrame where
  arg _ _ := rfl
  nil s h _ := by
    have h1 : ¬ s = 1 := by omega
    simp [exitFrame, h1]
  range s i h := by
    unfold exitFrame nilVal at h
    split at h
    · injection h with h; subst h; decide
    · cases h

example : ∃ stf code stk, compileBlock stdPrim (St.entry 5 1 3) exitOps = some (stf, code) ∧
    sideExit stdPrim ⟨exitFrame, fun _ => .fix 99, fun _ => 0⟩ code = some (1, stk) ∧
    stk 1 = .fix (2 ^ 61) ∧ stk 2 = .fix 5 := by
  have h : (compileBlock stdPrim (St.entry 5 1 3) exitOps).isSome = true := by decide +kernel
  obtain ⟨⟨stf, code⟩, h⟩ := Option.isSome_iff_exists.1 h
  have hs : ((sideExit stdPrim ⟨exitFrame, fun _ => .fix 99, fun _ => 0⟩
      ((compileBlock stdPrim (St.entry 5 1 3) exitOps).getD (St.entry 5 1 3, [])).2).map (·.1)) = some 1 := by
    decide +kernel
  rw [h] at hs
  simp only [Option.getD_some, Option.map_eq_some_iff] at hs
  obtain ⟨⟨i, stk⟩, he, rfl⟩ := hs
  obtain ⟨op, Li, h1, h2, _, h4, _⟩ := C73_side_exit_partial stdPrim_ok (by decide) (by decide) exit_frame h
    (by decide) (by decide) (by decide +kernel) (by
      simp only [noMinDiv, exitOps, Op.noMinDiv, and_true, implies_true, reduceCtorEq, false_implies]) he
  refine ⟨stf, code, stk, h, he, ?_, ?_⟩
  · have := h4 1 (by decide) (by
      simp only [exitOps] at h1
      injection h1 with h1; subst h1; decide)
    rw [this]
    injection h2 with h2; rw [← h2]; rfl
  · have := h4 2 (by decide) (by
      simp only [exitOps] at h1
      injection h1 with h1; subst h1; decide)
    rw [this]
    injection h2 with h2; rw [← h2]; rfl

end Verif.JitState
