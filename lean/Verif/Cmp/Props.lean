import Verif.Cmp.Model
import Mathlib.Order.Defs.LinearOrder
import Mathlib.Order.Lattice

/-!
# C138: Comparable
-/

namespace Verif.Cmp

variable {V : Type}

/-- The `<=>` of a class ordered by a linear order. -/
def ofOrder [LinearOrder V] (a b : V) : R :=
  .num (if a < b then -1 else if b < a then 1 else 0)

/-- C138: when `<=>` gives a number, `<`, `<=`, `>`, `>=` say whether it is below, at most, above, at
least zero, and `==` of two different objects whether it is zero. -/
theorem C138_operators (cmp : V → V → R) (same : V → V → Bool) (a b : V) (i : Int)
    (h : cmp a b = .num i) :
    (lt cmp a b = .ok true ↔ i < 0) ∧ (lt cmp a b = .ok false ↔ ¬ i < 0)
    ∧ (le cmp a b = .ok true ↔ i ≤ 0) ∧ (le cmp a b = .ok false ↔ ¬ i ≤ 0)
    ∧ (gt cmp a b = .ok true ↔ 0 < i) ∧ (gt cmp a b = .ok false ↔ ¬ 0 < i)
    ∧ (ge cmp a b = .ok true ↔ 0 ≤ i) ∧ (ge cmp a b = .ok false ↔ ¬ 0 ≤ i)
    ∧ (same a b = false → (eq cmp same a b = .ok true ↔ i = 0)
        ∧ (eq cmp same a b = .ok false ↔ i ≠ 0)) := by
  simp only [lt, le, gt, ge, eq, onNum, h]
  refine ⟨by simp, by simp, by simp, by simp, by simp, by simp, by simp, by simp, ?_⟩
  intro hs
  simp [hs]

/-- C138: exactly one of `<`, `==`, `>` holds of two different objects `<=>` can compare. -/
theorem C138_trichotomy (cmp : V → V → R) (same : V → V → Bool) (a b : V) (i : Int)
    (h : cmp a b = .num i) (hs : same a b = false) :
    (lt cmp a b = .ok true ∧ eq cmp same a b = .ok false ∧ gt cmp a b = .ok false)
    ∨ (lt cmp a b = .ok false ∧ eq cmp same a b = .ok true ∧ gt cmp a b = .ok false)
    ∨ (lt cmp a b = .ok false ∧ eq cmp same a b = .ok false ∧ gt cmp a b = .ok true) := by
  obtain ⟨h1, h2, -, -, h5, h6, -, -, h9⟩ := C138_operators cmp same a b i h
  obtain ⟨h9, h10⟩ := h9 hs
  rw [h1, h2, h5, h6, h9, h10]
  omega

/-- C138: over a linear order the operators are the order's. -/
theorem C138_order [LinearOrder V] (same : V → V → Bool) (hs : ∀ x y, same x y = true → x = y)
    (a b : V) :
    lt ofOrder a b = .ok (decide (a < b)) ∧ le ofOrder a b = .ok (decide (a ≤ b))
    ∧ gt ofOrder a b = .ok (decide (b < a)) ∧ ge ofOrder a b = .ok (decide (b ≤ a))
    ∧ eq ofOrder same a b = .ok (decide (a = b)) := by
  rcases lt_trichotomy a b with h | h | h
  · have h1 : ¬ b < a := not_lt.2 h.le
    have h2 : a ≠ b := h.ne
    have h3 : same a b = false := by
      cases hh : same a b
      · rfl
      · exact absurd (hs _ _ hh) h2
    simp [lt, le, gt, ge, eq, onNum, ofOrder, h, h1, h2, h3, h.le]
  · subst h
    cases hh : same a a <;> simp [lt, le, gt, ge, eq, onNum, ofOrder, hh]
  · have h1 : ¬ a < b := not_lt.2 h.le
    have h2 : a ≠ b := h.ne'
    have h3 : same a b = false := by
      cases hh : same a b
      · rfl
      · exact absurd (hs _ _ hh) h2
    simp [lt, le, gt, ge, eq, onNum, ofOrder, h, h1, h2, h3, h.le]

example : lt (V := Int) ofOrder 3 5 = .ok true ∧ gt (V := Int) ofOrder 3 5 = .ok false := by decide

/-- C138: when `<=>` gives nil, `==` is false and `<`, `<=`, `>`, `>=` raise ArgumentError. -/
theorem C138_incomparable (cmp : V → V → R) (same : V → V → Bool) (a b : V) (h : cmp a b = .nil) :
    lt cmp a b = .err .argument ∧ le cmp a b = .err .argument ∧ gt cmp a b = .err .argument
    ∧ ge cmp a b = .err .argument ∧ (same a b = false → eq cmp same a b = .ok false) := by
  simp only [lt, le, gt, ge, eq, onNum, h]
  simp +contextual

/-- C138: an object is `==` to itself, whatever `<=>` does. -/
theorem C138_eq_self (cmp : V → V → R) (same : V → V → Bool) (a : V) (h : same a a = true) :
    eq cmp same a a = .ok true := by
  simp [eq, h]

/-- C138: an exception from `<=>` passes through the operators, but not, for NoMethodError and
ArgumentError, through `==`. -/
theorem C138_raises (cmp : V → V → R) (same : V → V → Bool) (a b : V) (e : Exc)
    (h : cmp a b = .raises e) :
    lt cmp a b = .err e ∧ le cmp a b = .err e ∧ gt cmp a b = .err e ∧ ge cmp a b = .err e
    ∧ (same a b = false → eq cmp same a b
        = if e = .noMethod ∨ e = .argument then .ok false else .err e) := by
  simp only [lt, le, gt, ge, eq, onNum, h]
  refine ⟨trivial, trivial, trivial, trivial, ?_⟩
  intro hs
  cases e <;> simp [hs]

/-- C138, in part: `!=` is the negation of `==` when the class takes `==` from Comparable and `<=>`
gives a number, zero for an object and itself.
Missing: every other case, see `C138_ne_fails` and `C138_ne_own_eq_fails`. -/
theorem C138_ne_partial (cmp : V → V → R) (same : V → V → Bool) (incl : Bool) (a b : V) (i : Int)
    (h : cmp a b = .num i) (hs : same a b = true → i = 0) :
    ∃ r, eqOf cmp same .comparable a b = .ok r ∧ neOf cmp same incl .comparable a b = .ok (!r) := by
  cases hh : same a b
  · refine ⟨i == 0, ?_, ?_⟩
    · simp [eqOf, eq, hh, h]
    · cases incl <;> simp [neOf, ne, onNum, eqOf, eq, hh, h, bne]
  · have hi := hs hh
    subst hi
    refine ⟨true, ?_, ?_⟩
    · simp [eqOf, eq, hh]
    · cases incl <;> simp [neOf, ne, onNum, eqOf, eq, hh, h, bne]

/-- C138 fails: where `<=>` gives nil, `==` is false, but `!=` raises ArgumentError (`Time.now !=
nil`), whatever the objects. -/
theorem C138_ne_fails (cmp : V → V → R) (same : V → V → Bool) (a b : V) (h : cmp a b = .nil)
    (hs : same a b = false) :
    eqOf cmp same .comparable a b = .ok false
    ∧ neOf cmp same true .comparable a b = .err .argument := by
  simp [eqOf, eq, neOf, ne, onNum, h, hs]

example : (fun (_ _ : Nat) => R.nil) 1 2 = .nil ∧ (fun (a b : Nat) => a == b) 1 2 = false := by decide

/-- C138 fails: a class with its own `==` still gets Comparable's `!=`, so both `==` and `!=` may hold. -/
theorem C138_ne_own_eq_fails : ∃ (cmp : Nat → Nat → R) (same : Nat → Nat → Bool)
    (f : Nat → Nat → Out Bool),
    eqOf cmp same (.own f) 12 22 = .ok true ∧ neOf cmp same true (.own f) 12 22 = .ok true :=
  ⟨fun a b => .num ((a : Int) - b), fun a b => a == b, fun a b => .ok (a % 10 == b % 10),
    by decide, by decide⟩

theorem ofOrder_pos [LinearOrder V] (a b : V) :
    (∃ i, ofOrder a b = .num i ∧ (0 < i ↔ b < a) ∧ (i < 0 ↔ a < b)) := by
  refine ⟨_, rfl, ?_, ?_⟩
  · split
    · rename_i h
      simp [not_lt.2 h.le]
    · split <;> simp_all
  · split
    · rename_i h
      simp [h]
    · split <;> simp_all

/-- C138: over a linear order, clamp with two bounds in order (as two arguments or a Range) gives
`self` limited to them. -/
theorem C138_clamp [LinearOrder V] (a l h : V) (hlh : l ≤ h) :
    clamp ofOrder a (.two (some l) (some h)) = .ok (max l (min a h))
    ∧ clamp ofOrder a (.range (some l) (some h) false) = .ok (max l (min a h)) := by
  have hb : boundsOk ofOrder (some l) (some h) = .ok () := by
    obtain ⟨i, hi, hp, -⟩ := ofOrder_pos l h
    have : ¬ 0 < i := fun hc => absurd (hp.1 hc) (not_lt.2 hlh)
    simp [boundsOk, hi, this]
  have hm : clampLo ofOrder a (some l) (some h) = .ok (max l (min a h)) := by
    obtain ⟨i, hi, -, hn⟩ := ofOrder_pos a l
    obtain ⟨j, hj, hp, -⟩ := ofOrder_pos a h
    simp only [clampLo, clampHi, rawNum, hi, hj]
    by_cases h1 : a < l
    · have h2 : i < 0 := hn.2 h1
      have h3 : min a h = a := min_eq_left (h1.le.trans hlh)
      simp [h2, h3, max_eq_left h1.le]
    · have h2 : ¬ i < 0 := fun hc => h1 (hn.1 hc)
      by_cases h4 : h < a
      · have h5 : 0 < j := hp.2 h4
        simp [h2, h5, min_eq_right h4.le, max_eq_right hlh]
      · have h5 : ¬ 0 < j := fun hc => h4 (hp.1 hc)
        simp [h2, h5, min_eq_left (not_lt.1 h4), max_eq_right (not_lt.1 h1)]
  constructor
  · simp only [clamp, clampWith, hb, hm]
  · simp only [clamp, clampWith, hb, hm, Bool.false_eq_true, if_false]

example : clamp (V := Int) ofOrder 9 (.two (some 1) (some 5)) = .ok 5 := by decide

/-- C138: clamp with one bound, the other nil or missing from the Range. -/
theorem C138_clamp_half [LinearOrder V] (a b : V) (excl : Bool) :
    clamp ofOrder a (.two (some b) none) = .ok (max b a)
    ∧ clamp ofOrder a (.range (some b) none excl) = .ok (max b a)
    ∧ clamp ofOrder a (.two none (some b)) = .ok (min a b)
    ∧ clamp ofOrder a (.range none (some b) false) = .ok (min a b)
    ∧ clamp ofOrder a (.two none none) = .ok a
    ∧ clamp ofOrder a (.range none none excl) = .ok a := by
  have h1 : clampLo ofOrder a (some b) none = .ok (max b a) := by
    obtain ⟨i, hi, -, hn⟩ := ofOrder_pos a b
    simp only [clampLo, clampHi, rawNum, hi]
    by_cases h1 : a < b
    · simp [hn.2 h1, max_eq_left h1.le]
    · have h2 : ¬ i < 0 := fun hc => h1 (hn.1 hc)
      simp [h2, max_eq_right (not_lt.1 h1)]
  have h2 : clampLo ofOrder a none (some b) = .ok (min a b) := by
    obtain ⟨i, hi, hp, -⟩ := ofOrder_pos a b
    simp only [clampLo, clampHi, rawNum, hi]
    by_cases h1 : b < a
    · simp [hp.2 h1, min_eq_right h1.le]
    · have h2 : ¬ 0 < i := fun hc => h1 (hp.1 hc)
      simp [h2, min_eq_left (not_lt.1 h1)]
  have h3 : clampLo (ofOrder (V := V)) a none none = .ok a := rfl
  simp [clamp, clampWith, boundsOk, h1, h2, h3]

/-- C138: bounds out of order, bounds that cannot be compared, and a Range that leaves out its end,
are refused with ArgumentError. -/
theorem C138_clamp_refuses (cmp : V → V → R) (a l h : V) (b : Option V) :
    ((∃ i, cmp l h = .num i ∧ 0 < i) ∨ cmp l h = .nil →
      clamp cmp a (.two (some l) (some h)) = .err .argument
      ∧ clamp cmp a (.range (some l) (some h) false) = .err .argument)
    ∧ clamp cmp a (.range b (some h) true) = .err .argument := by
  refine ⟨?_, by simp [clamp]⟩
  rintro (⟨i, h1, h2⟩ | h1)
  · simp [clamp, clampWith, boundsOk, h1, h2]
  · simp [clamp, clampWith, boundsOk, h1]

/-- C138: whatever `<=>` is, clamp gives `self` or one of the bounds, or raises. -/
theorem C138_clamp_one_of (cmp : V → V → R) (a : V) (lo hi : Option V) (r : V)
    (h : clamp cmp a (.two lo hi) = .ok r) : r = a ∨ some r = lo ∨ some r = hi := by
  simp only [clamp, clampWith] at h
  split at h
  · cases h
  · have hhi : ∀ r, clampHi cmp a hi = .ok r → r = a ∨ some r = hi := by
      intro r hr
      simp only [clampHi] at hr
      split at hr
      · cases hr; exact .inl rfl
      · split at hr
        · cases hr; exact .inr rfl
        · cases hr; exact .inl rfl
        · cases hr
    simp only [clampLo] at h
    split at h
    · rcases hhi _ h with h | h
      · exact .inl h
      · exact .inr (.inr h)
    · split at h
      · cases h; exact .inr (.inl rfl)
      · rcases hhi _ h with h | h
        · exact .inl h
        · exact .inr (.inr h)
      · cases h

/-- C138 fails: clamp of one object that is no Range takes it as the lower bound (CRuby: TypeError),
and clamp of nothing gives `self` (CRuby: ArgumentError), for every order. -/
theorem C138_clamp_one_fails [LinearOrder V] (a b : V) :
    clamp ofOrder a (.one (some b)) = .ok (max b a) ∧ clamp ofOrder a .none = .ok a :=
  ⟨(C138_clamp_half a b false).1, (C138_clamp_half a b false).2.2.2.2.1⟩

/-- C138 fails: clamp against a bound `self` cannot be compared with raises NoMethodError (of nil),
not ArgumentError. -/
theorem C138_clamp_incomparable_fails (cmp : V → V → R) (a l : V) (h : cmp a l = .nil) :
    clamp cmp a (.two (some l) none) = .err .noMethod := by
  simp [clamp, clampWith, boundsOk, clampLo, rawNum, h]

/-- C138, in part: over a linear order, between? says whether `self` lies between its arguments.
Missing: a `<=>` that only one of the two sides has, see `C138_between_fails`. -/
theorem C138_between_partial [LinearOrder V] (a l h : V) :
    between ofOrder a l h = .ok (decide (l ≤ a ∧ a ≤ h)) := by
  obtain ⟨i, hi, hp, -⟩ := ofOrder_pos l a
  obtain ⟨j, hj, hq, -⟩ := ofOrder_pos a h
  have e1 : (i ≤ 0) ↔ l ≤ a := by rw [← not_lt, hp, not_lt]
  have e2 : (j ≤ 0) ↔ a ≤ h := by rw [← not_lt, hq, not_lt]
  simp only [between, rawNum, hi, hj]
  by_cases h1 : l ≤ a
  · simp [e1.2 h1, h1, e2]
  · have : ¬ i ≤ 0 := fun hc => h1 (e1.1 hc)
    simp [this, h1]

/-- C138 fails: between? asks the lower bound to compare itself with `self`, so an object that can
compare itself with the bounds, but not they with it, gets a NoMethodError. -/
theorem C138_between_fails : ∃ (cmp : Int ⊕ Int → Int ⊕ Int → R) (a l h : Int ⊕ Int),
    ge cmp a l = .ok true ∧ le cmp a h = .ok true ∧ between cmp a l h = .err .noMethod :=
  ⟨fun x y => match x, y with
      | .inl m, .inl n => .num (m - n)
      | .inl m, .inr n => .num (m - n)
      | .inr m, .inr n => .num (m - n)
      | .inr _, .inl _ => .nil,
    .inl 5, .inr 1, .inr 9, by decide, by decide, by decide⟩

end Verif.Cmp
