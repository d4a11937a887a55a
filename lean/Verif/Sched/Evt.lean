import Verif.Sched.Runs

/-! # What one step does to one thread's interrupts (helper lemmas for C26) -/

namespace Verif.Sched

/-- The part of a thread that concerns interrupts. -/
structure IV where
  pending : List (Nat × Intr)
  got : List Nat
  queued : Nat
  masks : List (List (Nat × Timing))
  unint : Nat

def Thread.iv (x : Thread) : IV := ⟨x.pending, x.got, x.queued, x.masks, x.unint⟩

/-- Thread `t` is at a blocking point: inside `sleep`, `join` or a wait for descriptors, entering one,
or at a checkpoint that asks for it. -/
def atBlock (s : St) (a : Act) (t : Nat) : Prop :=
  (match (s.thr t).pc with | .sleep _ | .join _ _ | .io _ => True | _ => False) ∨
  (running s = some t ∧
    match a with
    | .call (.sleep _) | .call (.waitFds _ _) | .call (.checkpoint true) => True
    | _ => False)

/-- What a step may do to the interrupts of thread `t`. -/
inductive Evt (s : St) (a : Act) (t : Nat) (x x' : Thread) : Prop
  | quiet (h : x'.iv = x.iv)
  | push (i : Intr) (h : x'.iv = (push x i).iv) (ha : a = .call (.interrupt t i) ∨ t = 0)
  | give (b : Bool) (h : x'.iv = (deliver x b).1.iv) (hb : b = true → atBlock s a t)
  | own (i : Intr) (h : x'.iv = (deliver (Sched.push x i) false).1.iv)
      (ha : a = .call (.interrupt t i))
  | die (h : x'.iv = { x.iv with pending := [] }) (hd : x'.state = .dead)
  | dieFirst (id : Nat) (i : Intr) (rest : List (Nat × Intr)) (hc : x.state = .created)
      (hp : x.pending = (id, i) :: rest)
      (h : x'.iv = { x.iv with pending := [], got := x.got ++ [id] }) (hd : x'.state = .dead)
  | mask (hp : x'.pending = x.pending) (hg : x'.got = x.got) (hq : x'.queued = x.queued)
      (hr : running s = some t)
  | born (hn : s.n ≤ t) (hp : x'.pending = []) (hg : x'.got = []) (hm : x'.masks = [])
      (hu : x'.unint = 0)

theorem Same.iv {s s' : St} (h : Same s s') (t : Nat) : (s'.thr t).iv = (s.thr t).iv := by
  rcases h.thr t with h | h <;> rw [h]; rfl

theorem wakeDue_iv (s : St) (t : Nat) : ((wakeDue s).thr t).iv = (s.thr t).iv :=
  (wakeDue_same s).iv t

theorem poll_iv (s : St) (fds : List Nat) (t : Nat) : ((poll s fds).thr t).iv = (s.thr t).iv :=
  (poll_same s fds).iv t

theorem afterPark_iv (s : St) (t k : Nat) : ((afterPark s t).thr k).iv = (s.thr k).iv := by
  by_cases e : k = t
  · subst e
    unfold afterPark
    split <;> simp [unregister, Thread.iv]
  · rw [afterPark_thr s t k e]

theorem afterErr_thr (s : St) (t : Nat) (p : PC) : (afterErr s t p).thr = s.thr :=
  (afterErr_fields s t p).2.2.2.2.2.2.2

theorem switch_iv (s : St) (c k : Nat) : ((switch s c).thr k).iv = (s.thr k).iv := by
  rw [switch_thr]; split <;> rfl

theorem deliver_iv {x y : Thread} (h : x.iv = y.iv) (b : Bool) :
    (deliver x b).1.iv = (deliver y b).1.iv := by
  simp only [Thread.iv, IV.mk.injEq] at h
  obtain ⟨h1, h2, h3, h4, h5⟩ := h
  have hd : deliverable x b = deliverable y b := by
    funext i; simp [deliverable, intrTiming, h4, h5]
  unfold deliver
  rw [hd, h1]
  cases takeFirst (deliverable y b) y.pending with
  | none => simp [Thread.iv, *]
  | some p => simp [Thread.iv, *]

/-- What `finalize` does to the interrupts of every thread. -/
theorem finalize_thr (s : St) (t : Nat) (fwd : Option Intr) (k : Nat) :
    (k = t ∧ ((finalize s t fwd).thr k).state = .dead ∧
      ((finalize s t fwd).thr k).iv = { (s.thr k).iv with pending := [] }) ∨
    (k ≠ t ∧ (((finalize s t fwd).thr k).iv = (s.thr k).iv ∨
      k = 0 ∧ ∃ i, ((finalize s t fwd).thr k).iv = (push (s.thr k) i).iv)) := by
  have hs := same_foldl joinerOne same_joinerOne (s.thr t).joiners
    (s.mod t fun x => { x with pending := [], state := .dead, joiners := [] })
  have hst : (((s.thr t).joiners.foldl joinerOne
      (s.mod t fun x => { x with pending := [], state := .dead, joiners := [] })).thr t).state
      = .dead := by
    generalize hl : (s.thr t).joiners = l
    clear hs hl
    have : ∀ (l : List Nat) (u : St), (u.thr t).state = .dead →
        ((l.foldl joinerOne u).thr t).state = .dead := by
      intro l
      induction l with
      | nil => intro u h; exact h
      | cons a l ih =>
        intro u h
        refine ih _ ?_
        unfold joinerOne; split
        · rename_i hj
          have : t ≠ a := by rintro rfl; rw [h] at hj; cases hj
          simpa [this] using h
        · exact h
    exact this l _ (by simp)
  unfold finalize
  simp only
  generalize (s.thr t).joiners.foldl joinerOne
    (s.mod t fun x => { x with pending := [], state := .dead, joiners := [] }) = u at hs hst
  have hiv := hs.iv k
  have base : (k = t ∧ (u.thr k).state = .dead ∧ (u.thr k).iv = { (s.thr k).iv with pending := [] })
      ∨ (k ≠ t ∧ (u.thr k).iv = (s.thr k).iv) := by
    by_cases e : k = t
    · left; subst e; exact ⟨rfl, hst, by rw [hiv]; simp [Thread.iv]⟩
    · right; exact ⟨e, by rw [hiv]; simp [e]⟩
  cases fwd with
  | none =>
    rcases base with h | ⟨h1, h2⟩
    · exact Or.inl h
    · exact Or.inr ⟨h1, Or.inl h2⟩
  | some i =>
    simp only
    split
    · rcases base with h | ⟨h1, h2⟩
      · exact Or.inl h
      · exact Or.inr ⟨h1, Or.inl h2⟩
    · rename_i ht0
      by_cases e0 : k = 0
      · subst e0
        rcases base with ⟨e, _⟩ | ⟨h1, h2⟩
        · exact absurd e.symm ht0
        · right
          refine ⟨h1, Or.inr ⟨rfl, i, ?_⟩⟩
          simp only [Thread.iv, IV.mk.injEq] at h2
          obtain ⟨g1, g2, g3, g4, g5⟩ := h2
          split <;> simp [Thread.iv, push, *]
      · split
        · simp only [mod_thr, if_neg e0]
          rcases base with h | ⟨h1, h2⟩
          · exact Or.inl h
          · exact Or.inr ⟨h1, Or.inl h2⟩
        · simp only [mod_thr, if_neg e0]
          rcases base with h | ⟨h1, h2⟩
          · exact Or.inl h
          · exact Or.inr ⟨h1, Or.inl h2⟩

/-- What `dispatch` does to the interrupts of every thread. -/
theorem dispatch_thr (s : St) (t k : Nat) :
    ((dispatch s t).thr k).iv = (s.thr k).iv ∨
    (k = t ∧ (s.thr k).state ≠ .created ∧ (s.thr k).resume = true ∧
      ((dispatch s t).thr k).iv = (deliver (s.thr k) (s.thr k).blocking).1.iv) ∨
    (k = 0 ∧ ∃ i, ((dispatch s t).thr k).iv = (push (s.thr k) i).iv) ∨
    (k = t ∧ ∃ id i rest, (s.thr k).state = .created ∧ (s.thr k).pending = (id, i) :: rest ∧
      ((dispatch s t).thr k).iv = { (s.thr k).iv with pending := [], got := (s.thr k).got ++ [id] } ∧
      ((dispatch s t).thr k).state = .dead) := by
  unfold dispatch
  split
  · rename_i hc
    split
    · rename_i id i rest hp
      rcases finalize_thr (s.mod t fun x => { x with got := x.got ++ [id] }) t
        (if i ≠ .kill ∧ (s.thr t).abort then some i else none) k with ⟨e, h1, h2⟩ | ⟨e, h | ⟨h0, j, h⟩⟩
      · subst e
        right; right; right
        refine ⟨rfl, id, i, rest, hc, hp, ?_, h1⟩
        rw [h2]; simp [Thread.iv]
      · left; rw [h]; simp [e]
      · right; right; left
        refine ⟨h0, j, ?_⟩
        rw [h]; simp [e]
    · left; by_cases e : k = t
      · subst e; simp [Thread.iv]
      · simp [e]
  · rename_i hc
    split
    · left; rfl
    · rename_i hr
      have hr' : (s.thr t).resume = true := by simpa using hr
      by_cases e : k = t
      · subst e
        right; left
        refine ⟨rfl, hc, hr', ?_⟩
        have hiv : ({ s.thr k with state := .runnable, resume := false } : Thread).iv =
          (s.thr k).iv := rfl
        rw [← deliver_iv hiv]
        simp only [mod_thr, if_true]
        rcases deliver_cases { s.thr k with state := .runnable, resume := false }
          (s.thr k).blocking with ⟨id, rs, _, hd⟩ | ⟨_, hd⟩
        · rw [hd]; simp only [afterErr_thr, mod_thr, if_true]
        · rw [hd]; simp only [afterPark_iv, mod_thr, if_true]
      · left
        simp only [mod_thr, if_true]
        rcases deliver_cases { s.thr t with state := .runnable, resume := false }
          (s.thr t).blocking with ⟨id, rs, _, hd⟩ | ⟨_, hd⟩
        · rw [hd]; simp [afterErr_thr, e]
        · rw [hd]; simp [afterPark_iv, e]

theorem mainBack_thr (s : St) (b : Bool) (k : Nat) :
    (k ≠ 0 ∧ ((mainBack s b).thr k).iv = (s.thr k).iv) ∨
    (k = 0 ∧ ((mainBack s b).thr k).iv = (deliver (s.thr 0) b).1.iv) := by
  unfold mainBack
  simp only
  by_cases e : k = 0
  · right; subst e
    refine ⟨rfl, ?_⟩
    rcases deliver_cases (s.thr 0) b with ⟨id, rs, _, hd⟩ | ⟨_, hd⟩
    · rw [hd]; simp [afterErr_thr]
    · rw [hd]; simp [afterPark_iv]
  · left
    refine ⟨e, ?_⟩
    rcases deliver_cases (s.thr 0) b with ⟨id, rs, _, hd⟩ | ⟨_, hd⟩
    · rw [hd]; simp [afterErr_thr, e]
    · rw [hd]; simp [afterPark_iv, e]

end Verif.Sched
