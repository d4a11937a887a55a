import Verif.Cause.Model
/-!
# The chain of causes ends (C160)
-/

namespace Verif.Cause

/-- The exception reached from `x` by `k` times `.cause`. -/
def walk (cause : Nat → Option Nat) : Nat → Nat → Option Nat
  | 0, x => some x
  | k + 1, x => (cause x).bind (walk cause k)

/-- `x.cause.cause…` ends with nil. -/
def Ends (cause : Nat → Option Nat) (x : Nat) : Prop := ∃ k, walk cause k x = none

/-- Whether an exception goes to another fiber or thread. -/
def Op.remote : Op → Bool
  | .send .. | .deliver _ => true
  | _ => false

theorem ends_iff (cause : Nat → Option Nat) (x : Nat) :
    Ends cause x ↔ ∀ c, cause x = some c → Ends cause c := by
  constructor
  · rintro ⟨k, h⟩ c hc
    cases k with
    | zero => simp [walk] at h
    | succ k => exact ⟨k, by simpa [walk, hc] using h⟩
  · intro h
    cases hc : cause x with
    | none => exact ⟨1, by simp [walk, hc]⟩
    | some c =>
      obtain ⟨k, hk⟩ := h c hc
      exact ⟨k + 1, by simpa [walk, hc] using hk⟩

theorem ends_ind {cause : Nat → Option Nat} {P : Nat → Prop}
    (step : ∀ x, (∀ c, cause x = some c → P c) → P x) : ∀ x, Ends cause x → P x := by
  rintro x ⟨k, h⟩
  induction k generalizing x with
  | zero => simp [walk] at h
  | succ k ih =>
    refine step x fun c hc => ih c ?_
    simpa [walk, hc] using h

/-- `y` is reached from `x`. -/
def Reach (cause : Nat → Option Nat) (x y : Nat) : Prop := ∃ k, walk cause k x = some y

theorem Reach.cons {cause : Nat → Option Nat} {x c y : Nat} (h : cause x = some c)
    (r : Reach cause c y) : Reach cause x y := by
  obtain ⟨k, hk⟩ := r
  exact ⟨k + 1, by simpa [walk, h] using hk⟩

theorem Reach.refl (cause : Nat → Option Nat) (x : Nat) : Reach cause x x := ⟨0, rfl⟩

theorem reach_iff (cause : Nat → Option Nat) (x y : Nat) :
    Reach cause x y ↔ x = y ∨ ∃ c, cause x = some c ∧ Reach cause c y := by
  constructor
  · rintro ⟨k, h⟩
    cases k with
    | zero => exact .inl (by simpa [walk] using h)
    | succ k =>
      cases hc : cause x with
      | none => simp [walk, hc] at h
      | some c => exact .inr ⟨c, rfl, k, by simpa [walk, hc] using h⟩
  · rintro (rfl | ⟨c, hc, r⟩)
    · exact .refl ..
    · exact .cons hc r

/-- The loop ends on a chain that ends, and finds what is on the chain. -/
theorem contains_spec {cause : Nat → Option Nat} (y : Nat) : ∀ x, Ends cause x →
    ∃ f, ∀ f', f ≤ f' → ∃ b, contains cause f' x y = some b ∧ (b = true ↔ Reach cause x y) := by
  refine ends_ind fun x ih => ?_
  by_cases e : x = y
  · refine ⟨1, fun f' hf => ?_⟩
    obtain ⟨f, rfl⟩ : ∃ f, f' = f + 1 := ⟨f' - 1, by omega⟩
    exact ⟨true, by simp [contains, e], by simp [e, Reach.refl]⟩
  · cases hc : cause x with
    | none =>
      refine ⟨1, fun f' hf => ?_⟩
      obtain ⟨f, rfl⟩ : ∃ f, f' = f + 1 := ⟨f' - 1, by omega⟩
      refine ⟨false, by simp [contains, e, hc], ?_⟩
      rw [reach_iff]; simp [e, hc]
    | some c =>
      obtain ⟨f0, h0⟩ := ih c hc
      refine ⟨f0 + 1, fun f' hf => ?_⟩
      obtain ⟨f, rfl⟩ : ∃ f, f' = f + 1 := ⟨f' - 1, by omega⟩
      obtain ⟨b, hb, hr⟩ := h0 f (by omega)
      refine ⟨b, by simp [contains, e, hc, hb], ?_⟩
      rw [hr, reach_iff cause x]; simp [e, hc]

/-- Recording `c` in `v` keeps the chains finite if `v` is not on the chain of `c`. -/
theorem set_ends {s : State} {v c : Nat} (h : ∀ x, Ends s.cause x) (hr : ¬ Reach s.cause c v) :
    ∀ x, Ends (s.set v c).cause x := by
  have hc : ∀ x, Ends s.cause x → ¬ Reach s.cause x v → Ends (s.set v c).cause x := by
    refine ends_ind fun x ih hx => ?_
    rw [ends_iff]
    intro d hd
    have hne : x ≠ v := fun e => hx (e ▸ .refl ..)
    have hd : s.cause x = some d := by simpa [State.set, hne] using hd
    exact ih d hd fun r => hx (.cons hd r)
  intro x
  refine ends_ind (cause := s.cause) (P := fun x => Ends (s.set v c).cause x) (fun x ih => ?_) x (h x)
  rw [ends_iff]
  intro d hd
  by_cases hx : x = v
  · have : c = d := by simpa [State.set, hx] using hd
    exact this ▸ hc c (h c) hr
  · exact ih d (by simpa [State.set, hx] using hd)

structure Inv (s : State) : Prop where
  ends : ∀ x, Ends s.cause x
  lt : ∀ x c, s.cause x = some c → x < s.n ∧ c < s.n

theorem Inv.init : Inv State.init where
  ends x := ⟨1, by simp [walk, State.init]⟩
  lt x c h := by simp [State.init] at h

theorem Inv.alloc {s : State} (i : Inv s) : Inv s.alloc where
  ends := i.ends
  lt x c h := by have := i.lt x c h; simp only [State.alloc]; omega

theorem Inv.set {s : State} (i : Inv s) {v c : Nat} (hv : v < s.n) (hc : c < s.n)
    (hr : ¬ Reach s.cause c v) : Inv (s.set v c) where
  ends := set_ends i.ends hr
  lt x d h := by
    simp only [State.set] at h ⊢
    split at h
    · cases h; omega
    · exact i.lt x d h

theorem Inv.not_reach {s : State} (i : Inv s) {c v : Nat} (hc : c < s.n) (hv : s.n ≤ v) :
    ¬ Reach s.cause c v := by
  rintro ⟨k, h⟩
  induction k generalizing c with
  | zero => simp [walk] at h; omega
  | succ k ih =>
    cases hd : s.cause c with
    | none => simp [walk, hd] at h
    | some d => exact ih (i.lt c d hd).2 (by simpa [walk, hd] using h)

/-- What `chainCause` does: it ends, and leaves chains that end, if the explicit
cause does not lead to the exception. -/
theorem chain_spec {s : State} (i : Inv s) {v : Nat} {ex : Option (Option Nat)} {a : Option Nat}
    (hv : v < s.n) (ha : ∀ x, a = some x → x < s.n)
    (hex : ∀ c, ex = some (some c) → c < s.n ∧ ¬ Reach s.cause c v) :
    ∃ f, ∀ f', f ≤ f' → ∃ s', chainCause f' s v ex a = some s' ∧ Inv s' ∧
      s'.n = s.n ∧ s'.pending = s.pending ∧
      (s'.cause = s.cause ∨ ∃ c, (ex = some (some c) ∨ ex = none ∧ a = some c) ∧
        s'.cause = (s.set v c).cause) := by
  match ex, hex with
  | some (some c), hex =>
    obtain ⟨h1, h2⟩ := hex c rfl
    exact ⟨0, fun _ _ => ⟨_, rfl, i.set hv h1 h2, rfl, rfl, .inr ⟨c, .inl rfl, rfl⟩⟩⟩
  | some none, _ => exact ⟨0, fun _ _ => ⟨_, rfl, i, rfl, rfl, .inl rfl⟩⟩
  | none, _ =>
    cases hcv : s.cause v with
    | some d => exact ⟨0, fun _ _ => ⟨s, by simp [chainCause, hcv], i, rfl, rfl, .inl rfl⟩⟩
    | none =>
      cases a with
      | none => exact ⟨0, fun _ _ => ⟨s, by simp [chainCause, hcv], i, rfl, rfl, .inl rfl⟩⟩
      | some a =>
        by_cases e : a = v
        · exact ⟨0, fun _ _ => ⟨s, by simp [chainCause, hcv, e], i, rfl, rfl, .inl rfl⟩⟩
        · obtain ⟨f, hf⟩ := contains_spec v a (i.ends a)
          refine ⟨f, fun f' h => ?_⟩
          obtain ⟨b, hb, hr⟩ := hf f' h
          cases b with
          | true => exact ⟨s, by simp [chainCause, hcv, e, hb], i, rfl, rfl, .inl rfl⟩
          | false =>
            refine ⟨s.set v a, by simp [chainCause, hcv, e, hb], i.set hv (ha a rfl) ?_, rfl, rfl,
              .inr ⟨a, .inr ⟨rfl, rfl⟩, rfl⟩⟩
            intro r; simpa using hr.2 r

theorem target_inv {s : State} (i : Inv s) (w : What) : Inv (target s w).1 := by
  cases w <;> simp only [target] <;> first | exact i.alloc | exact i

theorem target_n (s : State) (w : What) : s.n ≤ (target s w).1.n := by
  cases w <;> simp [target, State.alloc]

theorem target_lt {s : State} {w : What} (h : ∀ x ∈ w.ids, x < s.n) :
    (target s w).2.1 < (target s w).1.n := by
  cases w <;> simp_all [target, State.alloc, What.ids]

theorem target_cause (s : State) (w : What) : (target s w).1.cause = s.cause := by
  cases w <;> rfl

/-- What `applyCause` accepts does not lead to the raised exception. -/
theorem apply_spec {s : State} (i : Inv s) {w : What} {kw : Option (Option Nat)}
    (hk : ∀ c, kw = some (some c) → c < s.n) :
    ∃ f, ∀ f', f ≤ f' → ∃ r, applyCause f' (target s w).1 (target s w).2.2 kw = some r ∧
      ∀ ex, r = .ok ex → (ex = kw ∨ ex = some none) ∧
        ∀ c, ex = some (some c) → c < (target s w).1.n ∧
          ¬ Reach (target s w).1.cause c (target s w).2.1 := by
  have hn := target_n s w
  match kw, hk with
  | none, _ =>
    exact ⟨0, fun _ _ => ⟨_, rfl, fun ex h => by cases h; exact ⟨.inl rfl, by simp⟩⟩⟩
  | some none, _ =>
    exact ⟨0, fun _ _ => ⟨_, rfl, fun ex h => by cases h; exact ⟨.inl rfl, by simp⟩⟩⟩
  | some (some c), hk =>
    have hc := hk c rfl
    have hcn : c < (target s w).1.n := by omega
    cases ho : (target s w).2.2 with
    | none =>
      refine ⟨0, fun _ _ => ⟨_, rfl, fun ex h => ?_⟩⟩
      cases h
      refine ⟨.inl rfl, fun d hd => ?_⟩
      cases hd
      refine ⟨hcn, ?_⟩
      cases w with
      | str => exact i.not_reach hc (Nat.le_refl _)
      | cls => simp [target] at ho
      | obj x => simp [target] at ho
    | some r =>
      have hr : (target s w).2.1 = r := by
        cases w with
        | str => simp [target] at ho
        | cls => simpa [target] using ho
        | obj x => simpa [target] using ho
      by_cases e : c = r
      · refine ⟨0, fun _ _ => ⟨.ok (some none), by simp [applyCause, e], fun ex h => ?_⟩⟩
        cases h
        exact ⟨.inr rfl, by simp⟩
      · obtain ⟨f, hf⟩ := contains_spec r c ((target_inv i w).ends c)
        refine ⟨f, fun f' h => ?_⟩
        obtain ⟨b, hb, hbr⟩ := hf f' h
        cases b with
        | true => exact ⟨.error (), by simp [applyCause, e, hb], fun ex h => by cases h⟩
        | false =>
          refine ⟨.ok (some (some c)), by simp [applyCause, e, hb], fun ex h => ?_⟩
          cases h
          refine ⟨.inl rfl, fun d hd => ?_⟩
          cases hd
          refine ⟨hcn, fun q => ?_⟩
          rw [hr] at q
          simpa using hbr.2 q

theorem raise_spec {s : State} (i : Inv s) {w : What} {kw : Option (Option Nat)} {a : Option Nat}
    (hw : ∀ x ∈ w.ids, x < s.n) (hk : ∀ c, kw = some (some c) → c < s.n)
    (ha : ∀ x, a = some x → x < s.n) :
    ∃ f, ∀ f', f ≤ f' → ∃ s', raiseOp f' s w kw a = some s' ∧ Inv s' ∧ s'.pending = s.pending := by
  have hn := target_n s w
  have hp : (target s w).1.pending = s.pending := by cases w <;> rfl
  have it := target_inv i w
  obtain ⟨f1, h1⟩ := apply_spec (w := w) i hk
  -- the ArgumentError
  obtain ⟨f2, h2⟩ := chain_spec (s := (target s w).1.alloc) (v := (target s w).1.n) (ex := none)
    (a := a) it.alloc (by simp [State.alloc])
    (fun x hx => by have := ha x hx; simp only [State.alloc]; omega) (by simp)
  -- the exception itself, with each possible explicit cause
  have h3 : ∀ ex, (∀ c, ex = some (some c) → c < (target s w).1.n ∧
      ¬ Reach (target s w).1.cause c (target s w).2.1) → _ := fun ex hex =>
    chain_spec (ex := ex) (a := a) it (target_lt hw) (fun x hx => by have := ha x hx; omega) hex
  by_cases hkw : ∀ c, kw = some (some c) → c < (target s w).1.n ∧
      ¬ Reach (target s w).1.cause c (target s w).2.1
  · obtain ⟨f3, h3'⟩ := h3 kw hkw
    obtain ⟨f4, h4'⟩ := h3 (some none) (by simp)
    refine ⟨max (max f1 f2) (max f3 f4), fun f' hf => ?_⟩
    obtain ⟨r, hr, hex⟩ := h1 f' (by omega)
    cases r with
    | error u =>
      obtain ⟨s', e, i', -, p, -⟩ := h2 f' (by omega)
      exact ⟨s', by simp only [raiseOp, hr]; exact e, i', p.trans hp⟩
    | ok ex =>
      rcases (hex ex rfl).1 with rfl | rfl
      · obtain ⟨s', e, i', -, p, -⟩ := h3' f' (by omega)
        exact ⟨s', by simp only [raiseOp, hr]; exact e, i', p.trans hp⟩
      · obtain ⟨s', e, i', -, p, -⟩ := h4' f' (by omega)
        exact ⟨s', by simp only [raiseOp, hr]; exact e, i', p.trans hp⟩
  · obtain ⟨f4, h4'⟩ := h3 (some none) (by simp)
    refine ⟨max (max f1 f2) f4, fun f' hf => ?_⟩
    obtain ⟨r, hr, hex⟩ := h1 f' (by omega)
    cases r with
    | error u =>
      obtain ⟨s', e, i', -, p, -⟩ := h2 f' (by omega)
      exact ⟨s', by simp only [raiseOp, hr]; exact e, i', p.trans hp⟩
    | ok ex =>
      rcases (hex ex rfl).1 with rfl | rfl
      · exact absurd (hex _ rfl).2 hkw
      · obtain ⟨s', e, i', -, p, -⟩ := h4' f' (by omega)
        exact ⟨s', by simp only [raiseOp, hr]; exact e, i', p.trans hp⟩

theorem copy_inv {s : State} (i : Inv s) {x : Nat} (hx : x < s.n) :
    Inv { s.alloc with cause := fun y => if y = s.n then s.cause x else s.cause y } where
  ends := by
    have old : ∀ y, Ends s.cause y → y < s.n →
        Ends (fun y => if y = s.n then s.cause x else s.cause y) y := by
      refine ends_ind fun y ih hy => ?_
      rw [ends_iff]
      intro c hc
      have hne : y ≠ s.n := by omega
      have hc : s.cause y = some c := by simpa [hne] using hc
      exact ih c hc (i.lt y c hc).2
    intro y
    rw [ends_iff]
    intro c hc
    have hc : s.cause (if y = s.n then x else y) = some c := by
      by_cases e : y = s.n <;> simpa [e] using hc
    exact old c (i.ends c) (i.lt _ c hc).2
  lt y c h := by
    simp only [State.alloc] at h ⊢
    split at h
    · have := i.lt x c h; omega
    · have := i.lt y c h; omega

theorem step_spec {s : State} (i : Inv s) (op : Op) (hr : op.remote = false) :
    ∃ f, ∀ f', f ≤ f' → ∃ s', step f' s op = some s' ∧ Inv s' := by
  by_cases hv : op.ids.all (· < s.n)
  · cases op with
    | raise w kw a =>
      simp only [Op.ids, List.all_eq_true, decide_eq_true_eq, List.mem_append] at hv
      obtain ⟨f, h⟩ := raise_spec (w := w) (kw := kw) (a := a) i
        (fun x hx => hv x (.inl (.inl hx)))
        (fun c hc => hv c (.inl (.inr (by simp [optIds, hc]))))
        (fun x hx => hv x (.inr (by simp [hx])))
      refine ⟨f, fun f' hf => ?_⟩
      obtain ⟨s', e, i', -⟩ := h f' hf
      refine ⟨s', ?_, i'⟩
      have : (Op.raise w kw a).ids.all (· < s.n) = true := by
        simp only [Op.ids, List.all_eq_true, decide_eq_true_eq, List.mem_append]; exact hv
      simp only [step, this, if_true]; exact e
    | copy x =>
      have hx : x < s.n := by simpa [Op.ids] using hv
      exact ⟨0, fun f' _ => ⟨_, by simp only [step, hv, if_true], copy_inv i hx⟩⟩
    | send w kw a => simp [Op.remote] at hr
    | deliver j => simp [Op.remote] at hr
  · exact ⟨0, fun f' _ => ⟨s, by simp [step, hv], i⟩⟩

theorem contains_mono {cause : Nat → Option Nat} {f f' x y : Nat} {b : Bool} (h : f ≤ f')
    (e : contains cause f x y = some b) : contains cause f' x y = some b := by
  induction f generalizing f' x with
  | zero => simp [contains] at e
  | succ f ih =>
    obtain ⟨g, rfl⟩ : ∃ g, f' = g + 1 := ⟨f' - 1, by omega⟩
    simp only [contains] at e ⊢
    split at e
    · simpa [*] using e
    · rename_i hne
      rw [if_neg hne]
      cases hc : cause x with
      | none => simpa [hc] using e
      | some c =>
        simp only [hc] at e ⊢
        exact ih (by omega) e

theorem chain_mono {s s' : State} {f f' v : Nat} {ex : Option (Option Nat)} {a : Option Nat}
    (h : f ≤ f') (e : chainCause f s v ex a = some s') : chainCause f' s v ex a = some s' := by
  match ex with
  | some (some c) => exact e
  | some none => exact e
  | none =>
    cases hcv : s.cause v with
    | some d => simpa [chainCause, hcv] using e
    | none =>
      cases a with
      | none => simpa [chainCause, hcv] using e
      | some a =>
        by_cases q : a = v
        · simpa [chainCause, hcv, q] using e
        · simp only [chainCause, hcv, q, if_false] at e ⊢
          cases hb : contains s.cause f a v with
          | none => simp [hb] at e
          | some b => rw [contains_mono h hb]; rw [hb] at e; exact e

theorem apply_mono {s : State} {f f' : Nat} {o : Option Nat} {kw : Option (Option Nat)}
    {r : Except Unit (Option (Option Nat))} (h : f ≤ f')
    (e : applyCause f s o kw = some r) : applyCause f' s o kw = some r := by
  match kw, o with
  | none, _ => exact e
  | some none, _ => exact e
  | some (some c), none => exact e
  | some (some c), some x =>
    by_cases q : c = x
    · simpa [applyCause, q] using e
    · simp only [applyCause, q, if_false] at e ⊢
      cases hb : contains s.cause f c x with
      | none => simp [hb] at e
      | some b => rw [contains_mono h hb]; rw [hb] at e; exact e

theorem step_mono {s s' : State} {f f' : Nat} {op : Op} (h : f ≤ f')
    (e : step f s op = some s') : step f' s op = some s' := by
  by_cases hv : op.ids.all (· < s.n)
  · cases op with
    | raise w kw a =>
      simp only [step, hv, if_true, raiseOp] at e ⊢
      cases hr : applyCause f (target s w).1 (target s w).2.2 kw with
      | none => simp [hr] at e
      | some r =>
        rw [apply_mono h hr]; rw [hr] at e
        cases r with
        | error u => exact chain_mono h e
        | ok ex => exact chain_mono h e
    | copy x => simpa only [step, hv, if_true] using e
    | send w kw a =>
      simp only [step, hv, if_true, sendOp] at e ⊢
      cases hr : applyCause f (target s w).1 (target s w).2.2 kw with
      | none => simp [hr] at e
      | some r =>
        rw [apply_mono h hr]; rw [hr] at e
        cases r with
        | error u => exact chain_mono h e
        | ok ex => exact e
    | deliver j =>
      simp only [step, hv, if_true] at e ⊢
      cases hp : s.pending[j]? with
      | none => simpa [hp] using e
      | some q => simp only [hp] at e ⊢; exact chain_mono h e
  · simpa [step, hv] using e

theorem run_spec {s : State} (i : Inv s) (ops : List Op) (hr : ∀ op ∈ ops, op.remote = false) :
    ∃ f s', Inv s' ∧ ∀ f', f ≤ f' → run f' s ops = some s' := by
  induction ops generalizing s with
  | nil => exact ⟨0, s, i, fun _ _ => rfl⟩
  | cons op ops ih =>
    obtain ⟨f1, h1⟩ := step_spec i op (hr op (by simp))
    obtain ⟨s1, e1, i1⟩ := h1 f1 (Nat.le_refl _)
    obtain ⟨f2, s2, i2, h2⟩ := ih i1 fun o ho => hr o (by simp [ho])
    refine ⟨max f1 f2, s2, i2, fun f' hf => ?_⟩
    rw [run, step_mono (by omega : f1 ≤ f') e1]
    exact h2 f' (by omega)

/-- The states that a program without `Fiber#raise` and `Thread#raise` reaches. -/
def Local (s : State) : Prop :=
  ∃ f ops, (∀ op ∈ ops, Op.remote op = false) ∧ run f .init ops = some s

theorem run_mono {s s' : State} {f f' : Nat} {ops : List Op} (h : f ≤ f')
    (e : run f s ops = some s') : run f' s ops = some s' := by
  induction ops generalizing s with
  | nil => exact e
  | cons op ops ih =>
    rw [run] at e ⊢
    cases hs : step f s op with
    | none => simp [hs] at e
    | some s1 => rw [step_mono h hs]; rw [hs] at e; exact ih e

theorem Local.inv {s : State} (h : Local s) : Inv s := by
  obtain ⟨f, ops, hr, e⟩ := h
  obtain ⟨f2, s2, i2, h2⟩ := run_spec .init ops hr
  have a := run_mono (Nat.le_max_left f f2) e
  rw [h2 _ (Nat.le_max_right f f2)] at a
  cases a
  exact i2

/-- C160 (partial: `Fiber#raise` and `Thread#raise` left out, see
`C160_remote_fails`).  Whatever the program raises, re-raises, wraps and copies,
with whatever causes, no `raise` hangs and from every exception `cause.cause…`
ends with nil. -/
theorem C160_ends_partial (ops : List Op) (hr : ∀ op ∈ ops, op.remote = false) :
    ∃ f s, (∀ f', f ≤ f' → run f' .init ops = some s) ∧ ∀ x, Ends s.cause x := by
  obtain ⟨f, s, i, h⟩ := run_spec .init ops hr
  exact ⟨f, s, h, i.ends⟩

/-- C160.  An exception raised while another one is handled gets it as its
cause; all others keep theirs. -/
theorem C160_implicit {s : State} (h : Local s) {a : Nat} (ha : a < s.n) {w : What}
    (hw : w = .str ∨ w = .cls) :
    ∃ f s', (∀ f', f ≤ f' → step f' s (.raise w none (some a)) = some s') ∧
      s'.n = s.n + 1 ∧ s'.cause s.n = some a ∧ ∀ x, x < s.n → s'.cause x = s.cause x := by
  have i := h.inv
  have hn : s.cause s.n = none := by
    cases q : s.cause s.n with
    | none => rfl
    | some c => have := i.lt _ _ q; omega
  obtain ⟨f, hf⟩ := contains_spec (cause := s.cause) s.n a (i.ends a)
  obtain ⟨b, hb, hbr⟩ := hf f (Nat.le_refl _)
  have hb' : b = false := by
    cases b with
    | false => rfl
    | true => exact absurd (hbr.1 rfl) (i.not_reach ha (Nat.le_refl _))
  subst hb'
  have hne : a ≠ s.n := by omega
  refine ⟨f, s.alloc.set s.n a, fun f' hf' => ?_, rfl, by simp [State.set], fun x hx => ?_⟩
  · have hb2 := contains_mono hf' hb
    rcases hw with rfl | rfl <;>
      simp [step, Op.ids, What.ids, optIds, ha, raiseOp, target, applyCause, chainCause,
        State.alloc, hn, hne, hb2]
  · have : x ≠ s.n := by omega
    simp [State.set, this, State.alloc]

/-- C160.  `raise e, cause: c` makes `c` the cause of `e`, unless `e` is on the
chain of `c`; then it records nothing in any exception, and if `e` is not `c`
itself, an ArgumentError is raised (a new exception). -/
theorem C160_explicit {s : State} (h : Local s) {e c : Nat} (he : e < s.n) (hc : c < s.n)
    {a : Option Nat} (ha : ∀ x, a = some x → x < s.n) :
    ∃ f s', (∀ f', f ≤ f' → step f' s (.raise (.obj e) (some (some c)) a) = some s') ∧
      (¬ Reach s.cause c e → s'.n = s.n ∧ s'.cause e = some c ∧
        ∀ x, x ≠ e → s'.cause x = s.cause x) ∧
      (Reach s.cause c e → (∀ x, x < s.n → s'.cause x = s.cause x) ∧
        s'.n = if c = e then s.n else s.n + 1) := by
  have i := h.inv
  have hv : (Op.raise (.obj e) (some (some c)) a).ids.all (· < s.n) = true := by
    cases a <;> simp_all [Op.ids, What.ids, optIds]
  by_cases q : c = e
  · refine ⟨0, s, fun f' _ => ?_, fun r => absurd (q ▸ .refl ..) r, fun _ => ⟨fun _ _ => rfl, ?_⟩⟩
    · simp only [step, hv, if_true]
      simp [raiseOp, target, applyCause, q, chainCause]
    · simp [q]
  · obtain ⟨f, hf⟩ := contains_spec (cause := s.cause) e c (i.ends c)
    obtain ⟨b, hb, hbr⟩ := hf f (Nat.le_refl _)
    cases b with
    | false =>
      have nr : ¬ Reach s.cause c e := fun r => by simpa using hbr.2 r
      refine ⟨f, s.set e c, fun f' hf' => ?_, fun _ => ⟨rfl, by simp [State.set], fun x hx => by
        simp [State.set, hx]⟩, fun r => absurd r nr⟩
      simp only [step, hv, if_true]
      simp [raiseOp, target, applyCause, q, chainCause, contains_mono hf' hb]
    | true =>
      obtain ⟨f2, h2⟩ := chain_spec (s := s.alloc) (v := s.n) (ex := none) (a := a) i.alloc
        (by simp [State.alloc]) (fun x hx => by have := ha x hx; simp only [State.alloc]; omega)
        (by simp)
      obtain ⟨s', e', -, n', -, cs⟩ := h2 f2 (Nat.le_refl _)
      refine ⟨max f f2, s', fun f' hf' => ?_, fun r => absurd (hbr.1 rfl) r, fun _ => ⟨?_, ?_⟩⟩
      · simp only [step, hv, if_true]
        simp only [raiseOp, target, applyCause, q, if_false,
          contains_mono (by omega : f ≤ f') hb]
        exact chain_mono (by omega) e'
      · intro x hx
        rcases cs with cs | ⟨d, -, cs⟩
        · rw [cs]; rfl
        · have : x ≠ s.n := by omega
          rw [cs]; simp [State.set, this, State.alloc]
      · simp [q, n', State.alloc]

/-- C160.  Re-raising an exception that already has a cause, without keyword,
changes nothing; neither does re-raising one that is on the chain of `$!`. -/
theorem C160_reraise {s : State} (h : Local s) {e : Nat} (he : e < s.n) {a : Option Nat}
    (ha : ∀ x, a = some x → x < s.n)
    (hc : s.cause e ≠ none ∨ a = none ∨ ∃ x, a = some x ∧ Reach s.cause x e) :
    ∃ f, ∀ f', f ≤ f' → step f' s (.raise (.obj e) none a) = some s := by
  have i := h.inv
  have hv : (Op.raise (.obj e) none a).ids.all (· < s.n) = true := by
    cases a <;> simp_all [Op.ids, What.ids, optIds]
  cases hce : s.cause e with
  | some d =>
    refine ⟨0, fun f' _ => ?_⟩
    simp only [step, hv, if_true]
    simp [raiseOp, target, applyCause, chainCause, hce]
  | none =>
    cases a with
    | none =>
      refine ⟨0, fun f' _ => ?_⟩
      simp only [step, hv, if_true]
      simp [raiseOp, target, applyCause, chainCause, hce]
    | some x =>
      have r : Reach s.cause x e := by simpa [hce] using hc
      by_cases q : x = e
      · refine ⟨0, fun f' _ => ?_⟩
        simp only [step, hv, if_true]
        simp [raiseOp, target, applyCause, chainCause, hce, q]
      · obtain ⟨f, hf⟩ := contains_spec (cause := s.cause) e x (i.ends x)
        refine ⟨f, fun f' hf' => ?_⟩
        obtain ⟨b, hb, hbr⟩ := hf f' hf'
        have : b = true := hbr.2 r
        subst this
        simp only [step, hv, if_true]
        simp [raiseOp, target, applyCause, chainCause, hce, q, hb]

theorem Reach.trans {cause : Nat → Option Nat} {x y z : Nat} (a : Reach cause x y)
    (b : Reach cause y z) : Reach cause x z := by
  obtain ⟨k, h⟩ := a
  induction k generalizing x with
  | zero => have : x = y := by simpa [walk] using h
            exact this ▸ b
  | succ k ih =>
    cases hc : cause x with
    | none => simp [walk, hc] at h
    | some c => exact .cons hc (ih (by simpa [walk, hc] using h))

theorem no_cycle {cause : Nat → Option Nat} : ∀ x, Ends cause x →
    ∀ c, cause x = some c → ¬ Reach cause c x := by
  refine ends_ind fun x ih c hc r => ?_
  rcases (reach_iff ..).1 r with rfl | ⟨d, hd, r'⟩
  · exact ih c hc c hc r
  · exact ih c hc d hd (r'.trans (.cons hc (.refl ..)))

theorem report_spec {cause : Nat → Option Nat} (hE : ∀ x, Ends cause x) : ∀ x, Ends cause x →
    ∀ seen, (∀ y ∈ seen, Reach cause y x) →
    ∃ f l, (∀ f', f ≤ f' → report cause f' x seen = l) ∧ ∀ k, l[k]? = walk cause (k + 1) x := by
  refine ends_ind fun x ih seen hs => ?_
  cases hc : cause x with
  | none =>
    refine ⟨0, [], fun f' _ => ?_, fun k => by simp [walk, hc]⟩
    cases f' <;> simp [report, hc]
  | some c =>
    have hns : c ∉ seen := fun m => no_cycle x (hE x) c hc (hs c m)
    have hxc : Reach cause x c := .cons hc (.refl ..)
    obtain ⟨f, l, h, hl⟩ := ih c hc (c :: seen) (by
      intro y hy
      rcases List.mem_cons.1 hy with rfl | hy
      · exact .refl ..
      · exact (hs y hy).trans hxc)
    refine ⟨f + 1, c :: l, fun f' hf => ?_, fun k => ?_⟩
    · obtain ⟨g, rfl⟩ : ∃ g, f' = g + 1 := ⟨f' - 1, by omega⟩
      simp only [report, hc, hns, if_false]
      rw [h g (by omega)]
    · cases k with
      | zero => simp [walk, hc]
      | succ k =>
        have := hl k
        simp only [List.getElem?_cons_succ, this]
        simp [walk, hc]

/-- C160.  The report of an uncaught exception shows its whole chain of causes,
each once, from the nearest to the last. -/
theorem C160_report_partial {s : State} (h : Local s) (x : Nat) :
    ∃ f l, (∀ f', f ≤ f' → report s.cause f' x [x] = l) ∧
      ∀ k, l[k]? = walk s.cause (k + 1) x :=
  report_spec h.inv.ends x (h.inv.ends x) [x] (by simp [Reach.refl])

/-- On every state the report shows no exception twice and ends after at most
one round per exception. -/
theorem C160_report_once {s : State} (f x : Nat) (seen : List Nat) :
    (report s.cause f x seen).Nodup ∧ ∀ y ∈ report s.cause f x seen, y ∉ seen := by
  induction f generalizing x seen with
  | zero => simp [report]
  | succ f ih =>
    simp only [report]
    cases s.cause x with
    | none => simp
    | some c =>
      by_cases m : c ∈ seen
      · simp [m]
      · obtain ⟨h1, h2⟩ := ih c (c :: seen)
        simp only [m, if_false, List.nodup_cons, List.mem_cons]
        refine ⟨⟨fun q => ?_, h1⟩, fun y hy => ?_⟩
        · simpa using h2 c q
        · rcases hy with rfl | hy
          · exact m
          · exact fun q => h2 y hy (by simp [q])

/-! ## What fails -/

/-- The state in which two exceptions are each other's cause. -/
def cyc : Nat → Option Nat
  | 0 => some 1
  | 1 => some 0
  | _ => none

theorem cyc_walk (k : Nat) : ∀ x, x = 0 ∨ x = 1 → walk cyc k x ≠ none := by
  induction k with
  | zero => simp [walk]
  | succ k ih =>
    rintro x (rfl | rfl)
    · simpa [walk, cyc] using ih 1 (.inr rfl)
    · simpa [walk, cyc] using ih 0 (.inl rfl)

theorem cyc_contains (f : Nat) : ∀ x, x = 0 ∨ x = 1 → contains cyc f x 2 = none := by
  induction f with
  | zero => simp [contains]
  | succ f ih =>
    rintro x (rfl | rfl)
    · simpa [contains, cyc] using ih 1 (.inr rfl)
    · simpa [contains, cyc] using ih 0 (.inl rfl)

/-- C160 fails with `Fiber#raise` (and `Thread#raise`): `e0` is rescued, `e1` is
raised in its rescue, and in the rescue of `e1` the program calls
`fiber.raise(e0)`.  After the delivery `e0.cause` is `e1` and `e1.cause` is
`e0`. -/
theorem C160_remote_fails : ∃ s, (∀ f, run (f + 1) .init
    [.raise .str none none, .raise .str none (some 0), .send (.obj 0) none (some 1), .deliver 0]
      = some s) ∧ ¬ Ends s.cause 0 ∧ ¬ Ends s.cause 1 := by
  refine ⟨⟨2, cyc, []⟩, fun f => ?_, fun ⟨k, h⟩ => cyc_walk k 0 (.inl rfl) h,
    fun ⟨k, h⟩ => cyc_walk k 1 (.inr rfl) h⟩
  simp [run, step, Op.ids, What.ids, optIds, raiseOp, sendOp, target, applyCause, chainCause,
    State.alloc, State.init, State.set, contains, pin]
  funext x
  match x with
  | 0 => rfl
  | 1 => rfl
  | _ + 2 => simp [cyc]

/-- From then on the first error raised while `e0` is handled hangs the
program. -/
theorem C160_remote_hangs_fails (f : Nat) : run f .init
    [.raise .str none none, .raise .str none (some 0), .send (.obj 0) none (some 1), .deliver 0,
      .raise .str none (some 0)] = none := by
  cases f with
  | zero => rfl
  | succ f =>
    have e : run (f + 1) .init [.raise .str none none, .raise .str none (some 0),
        .send (.obj 0) none (some 1), .deliver 0] = some ⟨2, cyc, []⟩ := by
      simp [run, step, Op.ids, What.ids, optIds, raiseOp, sendOp, target, applyCause, chainCause,
        State.alloc, State.init, State.set, contains, pin]
      funext x
      match x with
      | 0 => rfl
      | 1 => rfl
      | _ + 2 => simp [cyc]
    have h := cyc_contains (f + 1) 0 (.inl rfl)
    have g : step (f + 1) ⟨2, cyc, []⟩ (.raise .str none (some 0)) = none := by
      simp only [step, Op.ids, What.ids, optIds, raiseOp, target, applyCause, chainCause,
        State.alloc, cyc, h]
      rfl
    have app : ∀ (l : List Op) (s : State) o, run (f + 1) s (l ++ [o]) =
        (run (f + 1) s l).bind fun s => step (f + 1) s o := by
      intro l
      induction l with
      | nil => intro s o; simp only [List.nil_append, run, Option.bind_some]; cases step (f + 1) s o <;> rfl
      | cons a l ih =>
        intro s o
        simp only [List.cons_append, run]
        cases step (f + 1) s a with
        | none => rfl
        | some s => exact ih s o
    rw [show [Op.raise .str none none, .raise .str none (some 0), .send (.obj 0) none (some 1),
      .deliver 0, .raise .str none (some 0)] = [.raise .str none none, .raise .str none (some 0),
        .send (.obj 0) none (some 1), .deliver 0] ++ [.raise .str none (some 0)] from rfl, app, e]
    exact g

/-- The check for `cause:` does not help there, because it is made before the
exception arrives: `fiber.raise(e0, cause: e1)` is sent, then `e1` is raised with
cause `e0`, then the first one arrives. -/
theorem C160_late_fails : ∃ s, (∀ f, run (f + 1) .init
    [.raise .str none none, .raise .str none none, .send (.obj 0) (some (some 1)) none,
      .raise (.obj 1) (some (some 0)) none, .deliver 0] = some s) ∧ ¬ Ends s.cause 0 := by
  refine ⟨⟨2, cyc, []⟩, fun f => ?_, fun ⟨k, h⟩ => cyc_walk k 0 (.inl rfl) h⟩
  simp [run, step, Op.ids, What.ids, optIds, raiseOp, sendOp, target, applyCause, chainCause,
    State.alloc, State.init, State.set, contains, pin]
  funext x
  match x with
  | 0 => rfl
  | 1 => rfl
  | _ + 2 => simp [cyc]

/-- What saves a delivery: the explicit cause does not lead to the exception
when it arrives. -/
theorem C160_deliver_partial {s : State} (h : ∀ x, Ends s.cause x) {v c : Nat} :
    (∀ x, Ends (s.set v c).cause x) ↔ ¬ Reach s.cause c v := by
  refine ⟨fun hE r => ?_, set_ends h⟩
  -- the old path from `c` to `v` is still there
  have key : ∀ k x, walk s.cause k x = some v → Reach (s.set v c).cause x v := by
    intro k
    induction k with
    | zero => intro x hx
              have : x = v := by simpa [walk] using hx
              exact this ▸ .refl ..
    | succ k ih =>
      intro x hx
      by_cases q : x = v
      · exact q ▸ .refl ..
      · cases hd : s.cause x with
        | none => simp [walk, hd] at hx
        | some d =>
          exact .cons (by simpa [State.set, q] using hd) (ih d (by simpa [walk, hd] using hx))
  obtain ⟨k, hk⟩ := r
  exact no_cycle v (hE v) c (by simp [State.set]) (key k c hk)

/-- A program that wraps two errors, re-raises the first one and tries to close
the circle. -/
example : (run 5 .init [.raise .str none none, .raise .cls none (some 0),
    .raise .str (some (some 1)) none, .raise (.obj 0) none (some 2),
    .raise (.obj 0) (some (some 2)) (some 1), .copy 1]).map
      (fun s => (s.n, (List.range s.n).map s.cause, report s.cause 9 2 [2])) =
    some (5, [none, some 0, some 1, some 1, some 0], [1, 0]) := by decide

example : Local ⟨2, fun x => if x = 1 then some 0 else none, []⟩ :=
  ⟨3, [.raise .str none none, .raise .str none (some 0)], by simp [Op.remote], rfl⟩

end Verif.Cause
