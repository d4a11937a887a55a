import Verif.JitState.Props
import Mathlib.Tactic.NormNum

/-! Methods whose compiled code disagrees with the interpreter: what the `_partial`
of C72 and C73 leaves out. All start from the entry of a method. -/

namespace Verif.JitState

/-- Compile and run a method body. -/
def runMethod (P : Prim) (n args locals : Nat) (L : Slot → Val) (ops : List Op) : Option Outcome :=
  (compileBlock P (St.entry n args locals) ops).map fun r =>
    runJit P r.1 ⟨L, fun _ => nilVal, fun _ => 0⟩ ops r.2

/-- the value a normal end leaves in a slot -/
def Outcome.slot (s : Slot) : Outcome → Option Val
  | .fin a => some (a s)
  | .raised _ => none

/-- `def f(x); a = x * 2.0; b = a; a = a * 3.0; end`. -/
def aliasOps : List Op :=
  [.lit 4 (.flo 2) 5, .bin .mul (some 2) 1 4 .flt .flt 4, .mov 3 2 4,
   .lit 4 (.flo 3) 5, .bin .mul (some 2) 2 4 .flt .flt 4]

def argFrame (v : Val) : Slot → Val := fun s => if s = 1 then v else nilVal

/-- **C72 fails**: after `b = a`, the assignment `a = a * 3.0` changes `b` as well, for
every Float argument. -/
theorem C72_copy_fails (P : Prim) (ok : P.Ok) (f : Flt) :
    ((runMethod P 6 1 3 (argFrame (.flo f)) aliasOps).bind (Outcome.slot 3) =
      some (.flo (P.fop .mul (P.fop .mul f 2) 3))) ∧
    (interp P (argFrame (.flo f)) aliasOps).slot 3 = some (.flo (P.fop .mul f 2)) := by
  refine ⟨rfl, ?_⟩
  simp [interp, aliasOps, interp1, argFrame, upd, ok.ff _ _ _ (rfl : Kind.isArith .mul = true), Outcome.slot]

/-- `def f(x, y); a = x / y; end`. -/
def divOps : List Op := [.bin .div (some 3) 1 2 .int .int 4]

/-- **C72 fails**: `-2^62 / -1` compiled is `-2^62`, whatever the interpreter answers. -/
theorem C72_div_fails (P : Prim) :
    (runMethod P 5 2 3 (fun s => if s = 1 then .fix (-(2 ^ 62)) else if s = 2 then .fix (-1) else nilVal)
      divOps).bind (Outcome.slot 3) = some (.fix (-(2 ^ 62))) := by
  rfl

/-- `def f(x); a = x + 1; b = x + 2; c = x + 3; d = x + 4; e = d + a; end`. -/
def spillOps : List Op :=
  [.lit 7 (.fix 1) 8, .bin .add (some 2) 1 7 .int .int 7, .lit 7 (.fix 2) 8, .bin .add (some 3) 1 7 .int .int 7,
   .lit 7 (.fix 3) 8, .bin .add (some 4) 1 7 .int .int 7, .lit 7 (.fix 4) 8, .bin .add (some 5) 1 7 .int .int 7,
   .bin .add (some 6) 5 2 .int .int 7]

/-- **C72 and C73 fail**: with `x = 2^61` the last addition overflows, and `b` (which is
`2^61 + 2`) comes out as whatever the failed addition left in a register. -/
theorem C73_spill_fails (P : Prim) (ok : P.Ok) :
    ((runMethod P 9 1 6 (argFrame (.fix (2 ^ 61))) spillOps).bind (Outcome.slot 3) =
      some (P.junk .add (2 ^ 61 + 4) (2 ^ 61 + 1))) ∧
    (interp P (argFrame (.fix (2 ^ 61))) spillOps).slot 3 = some (.fix (2 ^ 61 + 2)) := by
  have hadd : ∀ a b : Int, inFix (a + b) = true → P.arith .add (.fix a) (.fix b) = some (.fix (a + b)) :=
    fun a b h => (ok.add a b).2 h
  constructor
  · obtain ⟨stk, h1, h2⟩ : ∃ stk, runMethod P 9 1 6 (argFrame (.fix (2 ^ 61))) spillOps =
        some (interp P stk [.bin .add (some 6) 5 2 .int .int 7]) ∧
        (stk 3 = P.junk .add (2 ^ 61 + 4) (2 ^ 61 + 1) ∧ stk 5 = .fix (2 ^ 61 + 4) ∧ stk 2 = .fix (2 ^ 61 + 1)) :=
      ⟨_, rfl, rfl, rfl, rfl⟩
    rw [h1]
    cases hv : P.arith .add (stk 5) (stk 2) with
    | none => rw [h2.2.1, h2.2.2] at hv; exact absurd hv (ok.add _ _).1
    | some v => simp [interp, interp1, hv, Outcome.slot, upd, h2.1]
  · have hov := (ok.add (2 ^ 61 + 4) (2 ^ 61 + 1)).1
    obtain ⟨v, hv⟩ := Option.ne_none_iff_exists'.1 hov
    have h1 := hadd (2 ^ 61) 1 (by decide)
    have h2 := hadd (2 ^ 61) 2 (by decide)
    have h3 := hadd (2 ^ 61) 3 (by decide)
    have h4 := hadd (2 ^ 61) 4 (by decide)
    norm_num at h1 h2 h3 h4 hv ⊢
    simp [interp, spillOps, interp1, argFrame, upd, h1, h2, h3, h4, hv, Outcome.slot]

end Verif.JitState
