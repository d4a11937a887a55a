import Verif.JitState.Block
import Mathlib.Data.Int.Bitwise

/-! Primitives that satisfy `Prim.Ok`: exact integer arithmetic with a stand-in for
floating point, used by the examples and the counterexamples. -/

namespace Verif.JitState

/-- `BigInt` results as objects of class `Integer`, named by their value. -/
def bigObj (i : Int) : Val := .obj intClass (if 0 ≤ i then 2 * i.toNat else 2 * (-i).toNat + 1)

/-- Integer result: fixnum if it fits. -/
def intVal (i : Int) : Val := if inFix i then .fix i else bigObj i

/-- The bit operators on integers. -/
def bitOp : Kind → Int → Int → Int
  | .band => Int.land
  | .bor => Int.lor
  | _ => Int.xor

/-- A stand-in for the float operations: the integers. -/
def fltOp : Kind → Flt → Flt → Flt
  | .add, a, b => a + b
  | .sub, a, b => a - b
  | .mul, a, b => a * b
  | _, a, b => a.fdiv b

/-- the interpreter's operators -/
def stdArith (k : Kind) (a b : Val) : Option Val :=
  match a, b with
  | .fix a, .fix b =>
    match k with
    | .add => some (intVal (a + b))
    | .sub => some (intVal (a - b))
    | .mul => some (intVal (a * b))
    | .div => if b = 0 then none else some (intVal (a.fdiv b))
    | k => some (intVal (bitOp k a b))
  | .flo a, .flo b => if k.isArith then some (.flo (fltOp k a b)) else none
  | .flo a, .fix b => if k.isArith then some (.flo (fltOp k a b)) else none
  | .fix a, .flo b => if k.isArith then some (.flo (fltOp k a b)) else none
  | _, _ => none

def stdPrim : Prim where
  i2f := id
  fop := fltOp
  flonum _ := true
  bit := bitOp
  arith := stdArith
  junk _ _ _ := .fix (-7)
  junkR _ := .fix (-9)

theorem inFix_iff (i : Int) : inFix i = true ↔
    (∃ m : Nat, i = Int.ofNat m ∧ m < 2 ^ 62) ∨ (∃ m : Nat, i = Int.negSucc m ∧ m < 2 ^ 62) := by
  unfold inFix
  simp only [Bool.and_eq_true, decide_eq_true_eq]
  cases i with
  | ofNat m =>
    constructor
    · intro h; exact .inl ⟨m, rfl, by have := h.2; simp only [Int.ofNat_eq_natCast] at this; omega⟩
    · rintro (⟨k, hk, h⟩ | ⟨k, hk, h⟩)
      · simp only [Int.ofNat_eq_natCast] at *; omega
      · simp at hk
  | negSucc m =>
    constructor
    · intro h; exact .inr ⟨m, rfl, by have := h.1; omega⟩
    · rintro (⟨k, hk, h⟩ | ⟨k, hk, h⟩)
      · simp at hk
      · simp only [Int.negSucc.injEq] at hk; omega

theorem bitOp_inFix (k : Kind) {a b : Int} (ha : inFix a = true) (hb : inFix b = true) :
    inFix (bitOp k a b) = true := by
  have key : ∀ (f : Bool → Bool → Bool) {x y : Nat}, x < 2 ^ 62 → y < 2 ^ 62 → f false false = false →
      Nat.bitwise f x y < 2 ^ 62 := by
    intro f x y hx hy _; exact Nat.bitwise_lt_two_pow hx hy
  have hand : ∀ {x y : Nat}, x < 2 ^ 62 → y < 2 ^ 62 → x &&& y < 2 ^ 62 := fun hx _ => Nat.and_lt_two_pow _ ‹_›
  have hor : ∀ {x y : Nat}, x < 2 ^ 62 → y < 2 ^ 62 → x ||| y < 2 ^ 62 := fun hx hy => Nat.or_lt_two_pow hx hy
  have hxor : ∀ {x y : Nat}, x < 2 ^ 62 → y < 2 ^ 62 → x ^^^ y < 2 ^ 62 := fun hx hy => Nat.xor_lt_two_pow hx hy
  have hld : ∀ {x y : Nat}, x < 2 ^ 62 → y < 2 ^ 62 → Nat.ldiff x y < 2 ^ 62 := fun hx hy =>
    key _ hx hy rfl
  rcases (inFix_iff a).1 ha with ⟨x, rfl, hx⟩ | ⟨x, rfl, hx⟩ <;>
  rcases (inFix_iff b).1 hb with ⟨y, rfl, hy⟩ | ⟨y, rfl, hy⟩ <;>
  cases k <;> rw [inFix_iff] <;> simp only [bitOp, Int.land, Int.lor, Int.xor]
  all_goals first
    | exact .inl ⟨_, rfl, hand hx hy⟩
    | exact .inl ⟨_, rfl, hor hx hy⟩
    | exact .inl ⟨_, rfl, hxor hx hy⟩
    | exact .inl ⟨_, rfl, hld hx hy⟩
    | exact .inl ⟨_, rfl, hld hy hx⟩
    | exact .inr ⟨_, rfl, hand hx hy⟩
    | exact .inr ⟨_, rfl, hor hx hy⟩
    | exact .inr ⟨_, rfl, hxor hx hy⟩
    | exact .inr ⟨_, rfl, hld hx hy⟩
    | exact .inr ⟨_, rfl, hld hy hx⟩

theorem intVal_fix {i : Int} (h : inFix i = true) : intVal i = .fix i := by simp [intVal, h]

theorem intVal_range {i j : Int} (h : intVal i = .fix j) : inFix j = true := by
  unfold intVal bigObj at h
  split_ifs at h with hi <;> simp at h
  subst h; exact hi

theorem stdPrim_ok : stdPrim.Ok where
  add a b := ⟨by simp [stdPrim, stdArith], fun h => by simp [stdPrim, stdArith, intVal_fix h]⟩
  sub a b := ⟨by simp [stdPrim, stdArith], fun h => by simp [stdPrim, stdArith, intVal_fix h]⟩
  mul a b := ⟨by simp [stdPrim, stdArith], fun h => by simp [stdPrim, stdArith, intVal_fix h]⟩
  div a b h0 h := by simp [stdPrim, stdArith, h0, intVal_fix h]
  bit k a b hk ha hb := by
    refine ⟨bitOp_inFix k ha hb, ?_⟩
    have := intVal_fix (bitOp_inFix k ha hb)
    cases k <;> simp [Kind.isArith] at hk <;> simp [stdPrim, stdArith, this]
  ff k a b hk := by simp [stdPrim, stdArith, hk]
  fi k a b hk := by simp [stdPrim, stdArith, hk]
  if_ k a b hk := by simp [stdPrim, stdArith, hk]
  range k a b i h := by
    simp only [stdPrim, stdArith] at h
    split at h
    · split at h
      · exact intVal_range (Option.some.inj h)
      · exact intVal_range (Option.some.inj h)
      · exact intVal_range (Option.some.inj h)
      · split_ifs at h; exact intVal_range (Option.some.inj h)
      · exact intVal_range (Option.some.inj h)
    all_goals first
      | (split_ifs at h <;> simp at h)
      | simp at h

end Verif.JitState
