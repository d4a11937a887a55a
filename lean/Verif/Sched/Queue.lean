import Verif.Sched.Basic

/-! # The run queue (helper lemmas for C24) -/

namespace Verif.Sched

/-- States of a thread that should be in the run queue. -/
def TS.active : TS → Bool
  | .created | .runnable => true
  | _ => false

/-- Every active green thread but `x` is in the queue exactly once, no other thread is, and every
started live green thread but `x` has a context to resume. -/
structure Q (thr : Nat → Thread) (ready : List Nat) (x : Nat) : Prop where
  cnt : ∀ t, ready.count t = if t ≠ 0 ∧ t ≠ x ∧ (thr t).state.active = true then 1 else 0
  res : ∀ t, t ≠ 0 → t ≠ x → ((thr t).state.parked = true ∨ (thr t).state = .runnable) →
    (thr t).resume = true

theorem Q.congr {thr thr' : Nat → Thread} {ready : List Nat} {x : Nat} (h : Q thr ready x)
    (hs : ∀ t, t ≠ 0 → (thr' t).state = (thr t).state)
    (hr : ∀ t, t ≠ 0 → (thr' t).resume = (thr t).resume) :
    Q thr' ready x := by
  constructor
  · intro t
    rw [h.cnt t]
    by_cases h0 : t = 0
    · subst h0; simp
    · rw [hs t h0]
  · intro t h0 hx hp
    rw [hs t h0] at hp; rw [hr t h0]; exact h.res t h0 hx hp

theorem parked_not_active {a : TS} (h : a.parked = true) : a.active = false := by
  cases a <;> simp_all [TS.parked, TS.active]

theorem Q.wake {s : St} {t x : Nat} (h : Q s.thr s.ready x)
    (ht : t ≠ 0 → (s.thr t).state.parked = true ∧ t ≠ x) :
    Q (s.wake t).thr (s.wake t).ready x := by
  by_cases h0 : t = 0
  · subst h0
    have : (s.wake 0).ready = s.ready := by simp [wake_ready]
    rw [this]
    exact h.congr (by intro k hk; simp [hk]) (by intro k hk; simp [hk])
  · obtain ⟨hp, hx⟩ := ht h0
    have hrd : (s.wake t).ready = s.ready ++ [t] := by simp [wake_ready, h0]
    constructor
    · intro k
      rw [hrd, List.count_append, h.cnt k]
      by_cases e : k = t
      · subst e
        have hr : TS.runnable.active = true := rfl
        simp [h0, hx, parked_not_active hp, hr]
      · simp [e, Ne.symm e]
    · intro k hk0 hkx hk
      by_cases e : k = t
      · subst e
        simp only [wake_thr, if_true]
        exact h.res k hk0 hkx (Or.inl hp)
      · simp only [wake_thr, if_neg e] at hk ⊢
        exact h.res k hk0 hkx hk

theorem Q.foldWake {l : List Nat} : ∀ {s : St}, Q s.thr s.ready 0 →
    (∀ t ∈ l, t ≠ 0 → (s.thr t).state.parked = true) → (∀ t, t ≠ 0 → l.count t ≤ 1) →
    Q (l.foldl St.wake s).thr (l.foldl St.wake s).ready 0 := by
  induction l with
  | nil => intro s h _ _; exact h
  | cons a l ih =>
    intro s h hp hc
    refine ih (s := s.wake a) (h.wake fun h0 => ⟨hp a List.mem_cons_self h0, h0⟩) ?_ ?_
    · intro t ht h0
      have hne : t ≠ a := by
        rintro rfl
        have := hc t h0
        rw [List.count_cons_self] at this
        have := List.count_pos_iff.2 ht
        omega
      simp only [wake_thr, if_neg hne]
      exact hp t (List.mem_cons_of_mem _ ht) h0
    · intro t h0
      have := hc t h0
      rw [List.count_cons] at this
      omega

theorem Q.pollOne {s : St} (fds : List Nat) (e : Nat × Nat) (h : Q s.thr s.ready 0) :
    Q (Sched.pollOne fds s e).thr (Sched.pollOne fds s e).ready 0 := by
  unfold Sched.pollOne; split
  · rename_i hc
    exact h.wake fun h0 => ⟨by rw [hc.2]; rfl, h0⟩
  · exact h

theorem Q.foldPoll {fds : List Nat} {l : List (Nat × Nat)} : ∀ {s : St}, Q s.thr s.ready 0 →
    Q (l.foldl (Sched.pollOne fds) s).thr (l.foldl (Sched.pollOne fds) s).ready 0 := by
  induction l with
  | nil => intro s h; exact h
  | cons a l ih => intro s h; exact ih (h.pollOne fds a)

theorem Q.poll {s : St} (fds : List Nat) (h : Q s.thr s.ready 0) :
    Q (Sched.poll s fds).thr (Sched.poll s fds).ready 0 :=
  Q.foldPoll (s := { s with io := s.io.filter fun e => (s.thr e.2).state == TS.ioWaiting }) h

theorem Q.foldJoin {l : List Nat} : ∀ {s : St}, Q s.thr s.ready 0 →
    Q (l.foldl joinerOne s).thr (l.foldl joinerOne s).ready 0 := by
  induction l with
  | nil => intro s h; exact h
  | cons a l ih =>
    intro s h
    refine ih (s := joinerOne s a) ?_
    unfold joinerOne; split
    · rename_i hc
      exact h.wake fun h0 => ⟨by rw [hc]; rfl, h0⟩
    · exact h

/-- A held thread that is dead or parked with a context can be let go. -/
theorem Q.release {thr : Nat → Thread} {ready : List Nat} {x : Nat} (h : Q thr ready x)
    (hx : x ≠ 0 → (thr x).state.active = false ∧
      ((thr x).state.parked = true → (thr x).resume = true)) :
    Q thr ready 0 := by
  constructor
  · intro t
    rw [h.cnt t]
    by_cases h0 : t = 0
    · simp [h0]
    · by_cases e : t = x
      · subst e; simp [(hx h0).1]
      · simp [h0, e]
  · intro t h0 _ hp
    by_cases e : t = x
    · subst e
      rcases hp with hp | hp
      · exact (hx h0).2 hp
      · have := (hx h0).1; rw [hp] at this; cases this
    · exact h.res t h0 e hp

/-- Changing the held thread only. -/
theorem Q.modHeld {s : St} {x : Nat} (f : Thread → Thread) (h : Q s.thr s.ready x) :
    Q (s.mod x f).thr s.ready x := by
  constructor
  · intro t
    rw [h.cnt t]
    by_cases e : t = x
    · simp [e]
    · simp [e]
  · intro t h0 hx hp
    simp only [mod_thr, if_neg hx] at hp ⊢
    exact h.res t h0 hx hp

/-- Taking the first thread of the queue. -/
theorem Q.pop {thr : Nat → Thread} {t : Nat} {rest : List Nat} (h : Q thr (t :: rest) 0) :
    t ≠ 0 ∧ (thr t).state.active = true ∧ ((thr t).state = .runnable → (thr t).resume = true) ∧
    Q thr rest t := by
  have hc := h.cnt t
  rw [List.count_cons_self] at hc
  have hcond : t ≠ 0 ∧ t ≠ 0 ∧ (thr t).state.active = true := by
    apply Classical.byContradiction
    intro hn; rw [if_neg hn] at hc; omega
  rw [if_pos hcond] at hc
  refine ⟨hcond.1, hcond.2.2, fun hr => h.res t hcond.1 hcond.1 (Or.inr hr), ?_⟩
  constructor
  · intro k
    have hk := h.cnt k
    rw [List.count_cons] at hk
    by_cases e : k = t
    · subst e; simp; omega
    · have : (t == k) = false := by simp [Ne.symm e]
      rw [this] at hk
      simp only [Bool.false_eq_true, if_false, Nat.add_zero] at hk
      rw [hk]
      by_cases h0 : k = 0 <;> simp [h0, e]
  · intro k h0 _ hp; exact h.res k h0 h0 hp

/-- Putting the held thread at the end of the queue. -/
theorem Q.queue {thr : Nat → Thread} {ready : List Nat} {x : Nat} (h : Q thr ready x)
    (h0 : x ≠ 0) (ha : (thr x).state.active = true) (hr : (thr x).resume = true) :
    Q thr (ready ++ [x]) 0 := by
  constructor
  · intro k
    rw [List.count_append, h.cnt k]
    by_cases e : k = x
    · subst e; simp [h0, ha]
    · simp [e, Ne.symm e]
  · intro k hk _ hp
    by_cases e : k = x
    · subst e; exact hr
    · exact h.res k hk e hp

theorem mem_active {thr : Nat → Thread} {ready : List Nat} {x t : Nat} (h : Q thr ready x)
    (ht : t ∈ ready) : t ≠ 0 ∧ t ≠ x ∧ (thr t).state.active = true := by
  have := h.cnt t
  have hp := List.count_pos_iff.2 ht
  apply Classical.byContradiction
  intro hn; rw [if_neg hn] at this; omega

/-- A thread held and dead: the rest of `finalize`. -/
theorem Q.finalize {s : St} {t : Nat} (fwd : Option Intr) (h0 : t ≠ 0) (h : Q s.thr s.ready t) :
    Q (Sched.finalize s t fwd).thr (Sched.finalize s t fwd).ready 0 := by
  have h1 : Q (s.mod t fun x => { x with pending := [], state := .dead, joiners := [] }).thr
      s.ready 0 := by
    refine (h.modHeld _).release ?_
    intro _; simp [TS.active, TS.parked]
  have h2 := Q.foldJoin (l := (s.thr t).joiners)
    (s := s.mod t fun x => { x with pending := [], state := .dead, joiners := [] }) h1
  unfold Sched.finalize
  cases fwd with
  | none => exact h2
  | some i =>
    simp only [if_neg h0]
    split
    · exact h2.congr (by intro k hk; simp [hk]) (by intro k hk; simp [hk])
    · exact h2.congr (by intro k hk; simp [hk]) (by intro k hk; simp [hk])

end Verif.Sched
