import Verif.Callable.Model

/-! # C151: composition and currying -/

namespace Verif.Callable

variable {V S : Type}

/-- Without keywords `f >> g` calls `f` with the arguments and `g` with its result, `f << g` the other way
round; the result is a lambda exactly if the one called first is (a Method and an object with `call` count). -/
theorem C151_compose_partial (hash : List (S × V) → V) (f g : Fn V S) (args : List V) :
    (∃ h, right hash f (some g) = some h ∧ h.call ⟨args, []⟩ = g.call ⟨[f.call ⟨args, []⟩], []⟩ ∧
      h.kind.isLambda = f.kind.isLambda) ∧
    (∃ h, left hash f (some g) = some h ∧ h.call ⟨args, []⟩ = f.call ⟨[g.call ⟨args, []⟩], []⟩ ∧
      h.kind.isLambda = g.kind.isLambda) := by
  refine ⟨⟨_, rfl, by simp [viaRest], ?_⟩, ⟨_, rfl, by simp [viaRest], ?_⟩⟩
  · cases hf : f.kind <;> simp [Kind.isLambda]
  · cases hg : g.kind <;> simp [Kind.isLambda, hg]

/-- Something without `call` is refused. -/
theorem C151_compose_type (hash : List (S × V) → V) (f : Fn V S) :
    right hash f none = none ∧ left hash f none = none := ⟨rfl, rfl⟩

/-- Composition is associative. -/
theorem C151_compose_assoc (hash : List (S × V) → V) (f g k : Fn V S) (a : Args V S) :
    ((right hash f (some g)).bind (fun fg => right hash fg (some k))).map (fun x => x.call a) =
      (right hash f (right hash g (some k))).map (fun x => x.call a) := by
  cases h : a.kw.isEmpty <;> simp [right, viaRest, h]

/-- Keywords reach the first callable as a Hash, never as keywords. -/
theorem C151_compose_keywords_fails (hash : List (S × V) → V) (f g : Fn V S) (pos : List V)
    (kw : List (S × V)) (hk : kw ≠ []) :
    ∃ h, right hash f (some g) = some h ∧
      h.call ⟨pos, kw⟩ = g.call ⟨[f.call ⟨pos ++ [hash kw], []⟩], []⟩ := by
  refine ⟨_, rfl, ?_⟩
  have : kw.isEmpty = false := by cases kw <;> simp_all
  simp [viaRest, this]

/-- So a composition can differ from calling the one after the other. -/
theorem C151_compose_keywords_witness_fails :
    ∃ (f g : Fn Nat Nat) (hash : List (Nat × Nat) → Nat) (a : Args Nat Nat) (h : Fn Nat Nat),
      right hash f (some g) = some h ∧ h.call a ≠ g.call ⟨[f.call a], []⟩ :=
  ⟨⟨.lambda, fun a => a.kw.length⟩, ⟨.lambda, fun a => a.pos.headD 7⟩, fun _ => 0, ⟨[], [(1, 2)]⟩, _, rfl,
    by simp [viaRest]⟩

/-! ## arity -/

/-- Which numbers of positional arguments a lambda takes. -/
def takes (p : Params) (n : Nat) : Prop := p.req ≤ n ∧ (p.rest = true ∨ n ≤ p.req + p.opt)

/-- `arity` of a lambda without keywords: not negative if it takes one number of arguments only, which it
is; otherwise `-n-1` for the least number `n`. -/
theorem C151_arity (p : Params) (hl : p.lambda = true) (hk : p.reqKw = 0) (ho : p.otherKw = false) :
    (0 ≤ arity p → ∀ n : Nat, takes p n ↔ (n : Int) = arity p) ∧
    (arity p < 0 → takes p (-arity p - 1).toNat ∧ (∀ n, takes p n → -arity p - 1 ≤ n) ∧
      takes p ((-arity p - 1).toNat + 1)) := by
  have ha : arity p = if p.opt > 0 ∨ p.rest = true then -((p.req : Int) + 1) else p.req := by
    unfold arity
    cases hr : p.rest <;> by_cases hop : p.opt > 0 <;> simp [hl, hk, ho, hop]
  rw [ha]
  unfold takes
  cases hr : p.rest <;> by_cases hop : p.opt > 0
  · simp only [hop, true_or, if_true, Bool.false_eq_true, false_or]
    constructor
    · intro h; omega
    · intro _
      refine ⟨by omega, ?_, by omega⟩
      intro n hn; omega
  · simp only [hop, or_self, if_false, Bool.false_eq_true, false_or]
    constructor
    · intro _ n; omega
    · intro h; omega
  · simp only [or_true, if_true, true_or, and_true]
    constructor
    · intro h; omega
    · intro _
      refine ⟨by omega, ?_, by omega⟩
      intro n hn; omega
  · simp only [or_true, if_true, true_or, and_true]
    constructor
    · intro h; omega
    · intro _
      refine ⟨by omega, ?_, by omega⟩
      intro n hn; omega

/-- Of a Proc that is no lambda: negative exactly if it has a `*rest`; optional parameters do not count. -/
theorem C151_arity_proc (p : Params) (hl : p.lambda = false) (hk : p.reqKw = 0) :
    arity p = if p.rest then -(p.req + 1 : Int) else p.req := by
  unfold arity
  simp [hl, hk]

example : arity { req := 1, opt := 1, lambda := true } = -2 ∧ arity { req := 1, opt := 1, lambda := false } = 1 := by
  decide

/-! ## curry -/

/-- `curry` collects the required arguments, for any Proc or lambda without required keywords. -/
theorem C151_curry_partial (p : Params) (hk : p.reqKw = 0) :
    curry (V := V) p none = some (if p.req = 0 then .orig else .collecting [] p.req) := by
  have hn : (if arity p < 0 then -arity p - 1 else arity p) = (p.req : Int) := by
    unfold arity
    simp only [hk, Nat.lt_irrefl, gt_iff_lt, decide_false, if_false, Bool.false_or, Bool.not_false,
      Bool.and_true, Int.add_zero]
    split <;> split <;> omega
  unfold curry
  simp only [Option.getD_none, hn]
  have hc : (p.lambda && (decide ((p.req : Int) < p.req) ||
      (!p.rest && decide ((p.req : Int) > p.req + p.opt)))) = false := by
    have h1 : ¬ ((p.req : Int) < p.req) := by omega
    have h2 : ¬ ((p.req : Int) > p.req + p.opt) := by omega
    simp [h1]
    intro _ _
    omega
  rw [hc]
  by_cases h0 : p.req = 0
  · simp [h0]
  · have : ¬ ((p.req : Int) ≤ 0) := by omega
    simp [h0]

/-- `curry(n)` on a lambda raises exactly if the lambda does not take `n` arguments; a Proc takes any. -/
theorem C151_curry_arity_partial (p : Params) (n : Nat) :
    (p.lambda = true → (curry (V := V) p (some n) = none ↔ ¬ takes p n)) ∧
    ((p.lambda = true → takes p n) →
      curry (V := V) p (some n) = some (if n = 0 then .orig else .collecting [] n)) := by
  have hneg : ¬ ((n : Int) < 0) := by omega
  have hcond : (decide ((n : Int) < p.req) || (!p.rest && decide ((n : Int) > p.req + p.opt))) = true ↔
      ¬ takes p n := by
    unfold takes
    cases hr : p.rest <;> simp <;> omega
  constructor
  · intro hl
    unfold curry
    simp only [Option.getD_some, hneg, if_false, hl, Bool.true_and]
    by_cases ht : takes p n
    · rw [if_neg (fun h => hcond.mp h ht)]
      simp only [ht, not_true, iff_false]
      split <;> simp
    · rw [if_pos (hcond.mpr ht)]
      simp [ht]
  · intro ht
    unfold curry
    simp only [Option.getD_some, hneg, if_false]
    have hc : ¬ ((p.lambda && (decide ((n : Int) < p.req) ||
        (!p.rest && decide ((n : Int) > p.req + p.opt)))) = true) := by
      rw [Bool.and_eq_true, hcond]
      rintro ⟨h1, h2⟩
      exact h2 (ht h1)
    rw [if_neg hc]
    by_cases h0 : n = 0
    · simp [h0]
    · have : ¬ ((n : Int) ≤ 0) := by omega
      simp [h0]

/-- A lambda with a required keyword cannot be curried: its own arity is refused. -/
theorem C151_curry_keyword_fails (p : Params) (hl : p.lambda = true) (hk : p.reqKw > 0)
    (hr : p.rest = false) (ho : p.opt = 0) : curry (V := V) p none = none := by
  have ha : arity p = p.req + 1 := by simp [arity, hl, hk, hr, ho]
  unfold curry
  simp only [Option.getD_none, ha]
  have h1 : ¬ ((p.req : Int) + 1 < 0) := by omega
  have h2 : (p.req : Int) + 1 > p.req + (0 : Nat) := by omega
  rw [if_neg h1, if_pos]
  rw [ho, hl, hr, decide_eq_true h2]
  simp

example : curry (V := Nat) { req := 1, reqKw := 1, lambda := true } none = none := by decide

/-- A negative number is taken for the arity of a Proc with optional arguments; Ruby refuses it for a
lambda and calls a Proc at once. -/
theorem C151_curry_negative_fails :
    curry (V := V) { req := 1, lambda := true } (some (-2)) = some (.collecting [] 1) ∧
    curry (V := V) { req := 0, rest := true, lambda := false } (some (-2)) = some (.collecting [] 1) := by
  constructor <;> rfl

/-- However the arguments are spread over calls (empty ones and ones with too many arguments included), the
original is called as soon as `n` have come, with all that have come, in order; before that nothing is
called. -/
theorem C151_curry_calls (n : Nat) (cs : List (List V)) (c : List V) (rest : List (List V))
    (h1 : cs.flatten.length < n) (h2 : n ≤ (cs.flatten ++ c).length) :
    calls (.collecting [] n) (cs ++ c :: rest) = (.called (cs.flatten ++ c), rest) ∧
      calls (.collecting [] n) cs = (.more (.collecting cs.flatten n), []) := by
  have key : ∀ (cs : List (List V)) (got : List V), (got ++ cs.flatten).length < n →
      (n ≤ (got ++ cs.flatten ++ c).length →
        calls (.collecting got n) (cs ++ c :: rest) = (.called (got ++ cs.flatten ++ c), rest)) ∧
      calls (.collecting got n) cs = (.more (.collecting (got ++ cs.flatten) n), []) := by
    intro cs
    induction cs with
    | nil =>
      intro got _
      refine ⟨?_, by simp [calls]⟩
      intro h
      simp only [List.flatten_nil, List.append_nil] at h ⊢
      simp [calls, call, show n ≤ got.length + c.length by simpa using h]
    | cons a t ih =>
      intro got hlt
      have hlt' : ((got ++ a) ++ t.flatten).length < n := by
        simpa [List.append_assoc] using hlt
      have ha : ¬ ((got ++ a).length ≥ n) := by
        rw [List.length_append] at hlt'
        omega
      obtain ⟨i1, i2⟩ := ih (got ++ a) hlt'
      constructor
      · intro h
        simp only [List.cons_append, calls, call, if_neg ha]
        rw [i1 (by simpa [List.append_assoc] using h)]
        simp [List.append_assoc]
      · simp only [calls, call, if_neg ha]
        rw [i2]
        simp [List.append_assoc]
  have := key cs [] (by simpa using h1)
  simpa using ⟨this.1 (by simpa using h2), this.2⟩

example : calls (.collecting [] 3) [[1], [], [2, 3, 4]] = (.called [1, 2, 3, 4], []) := by decide

/-- With nothing to collect it is the original. -/
theorem C151_curry_zero (c : List V) (rest : List (List V)) :
    calls (.orig : Curry V) (c :: rest) = (.called c, rest) := rfl

end Verif.Callable
