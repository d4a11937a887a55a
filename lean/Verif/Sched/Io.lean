import Verif.Sched.Nap

/-! # Registrations of descriptors (helper lemmas for C24) -/

namespace Verif.Sched

/-- Only a thread inside `wait_fds` is registered. -/
def IoInv (s : St) : Prop := ∀ e ∈ s.io, e.2 < s.n ∧ ∃ d, (s.thr e.2).pc = .io d

theorem IoInv.mono {s s' : St} (h : IoInv s) (hn : s.n ≤ s'.n)
    (hio : ∀ e ∈ s'.io, e ∈ s.io ∧ (s'.thr e.2).pc = (s.thr e.2).pc) : IoInv s' := by
  intro e he
  obtain ⟨h1, h2⟩ := hio e he
  obtain ⟨h3, d, h4⟩ := h e h1
  exact ⟨by omega, d, h2.trans h4⟩

theorem finalize_io (s : St) (t : Nat) (fwd : Option Intr) :
    (finalize s t fwd).io = s.io ∧ (finalize s t fwd).n = s.n := by
  have h := same_foldl joinerOne same_joinerOne (s.thr t).joiners
    (s.mod t fun x => { x with pending := [], state := .dead, joiners := [] })
  unfold finalize
  simp only
  split
  · exact ⟨h.io, h.n⟩
  · split
    · exact ⟨h.io, h.n⟩
    · split
      · exact ⟨h.io, h.n⟩
      · exact ⟨h.io, h.n⟩

theorem mem_unregister {s : St} {t : Nat} {e : Nat × Nat} (h : e ∈ (unregister s t).io) :
    e ∈ s.io ∧ e.2 ≠ t := by
  simpa [unregister] using h

theorem IoInv.afterErr {s : St} {t : Nat} {x : Thread} (h : IoInv s) :
    IoInv (Sched.afterErr (s.mod t fun _ => x) t (s.thr t).pc) := by
  unfold Sched.afterErr
  split
  · rename_i d hp
    refine h.mono (Nat.le_refl _) fun e he => ?_
    obtain ⟨h1, h2⟩ := mem_unregister he
    exact ⟨h1, by simp [unregister, h2]⟩
  · rename_i hp
    refine h.mono (Nat.le_refl _) fun e he => ?_
    refine ⟨he, ?_⟩
    by_cases e1 : e.2 = t
    · obtain ⟨_, d, hd⟩ := h e he
      rw [e1] at hd
      exact absurd hd (hp d)
    · simp [e1]

theorem IoInv.afterPark {s : St} {t : Nat} (h : IoInv s) : IoInv (Sched.afterPark s t) := by
  unfold Sched.afterPark
  split
  · exact h
  · refine h.mono (Nat.le_refl _) fun e he => ?_
    obtain ⟨h1, h2⟩ := mem_unregister he
    exact ⟨h1, by simp [unregister, h2]⟩
  · rename_i _ hp
    refine h.mono (Nat.le_refl _) fun e he => ?_
    refine ⟨he, ?_⟩
    by_cases e1 : e.2 = t
    · obtain ⟨_, d, hd⟩ := h e he
      rw [e1] at hd
      exact absurd hd (hp d)
    · simp [e1]

theorem IoInv.dispatch {s : St} {t : Nat} (h : IoInv s) : IoInv (Sched.dispatch s t) := by
  unfold Sched.dispatch
  split
  · split
    · refine h.mono (by rw [(finalize_io _ _ _).2]; exact Nat.le_refl _) fun e he => ?_
      rw [(finalize_io _ _ _).1] at he
      refine ⟨he, ?_⟩
      rw [finalize_pc]
      by_cases e1 : e.2 = t <;> simp [e1]
    · refine h.mono (Nat.le_refl _) fun e he => ⟨he, ?_⟩
      by_cases e1 : e.2 = t <;> simp [e1]
  · split
    · exact h
    · obtain ⟨u, hv⟩ : ∃ v : St, ({ s.mod t (fun x => { x with state := .runnable, resume := false })
          with current := t } : St) = v := ⟨_, rfl⟩
      have hu : IoInv u := by
        subst hv
        refine h.mono (Nat.le_refl _) fun e he => ⟨he, ?_⟩
        by_cases e1 : e.2 = t <;> simp [e1]
      have hp : (s.thr t).pc = (u.thr t).pc := by subst hv; simp
      suffices hg : IoInv (match deliver (u.thr t) (u.thr t).blocking with
          | (x, true) => Sched.afterErr (u.mod t fun _ => x) t (s.thr t).pc
          | (_, false) => Sched.afterPark u t) by subst hv; exact hg
      split
      · rw [hp]; exact hu.afterErr
      · exact hu.afterPark

theorem IoInv.mainBack {s : St} {b : Bool} (h : IoInv s) : IoInv (Sched.mainBack s b) := by
  have hu : IoInv ({ s with host := .main, current := 0 } : St) := h
  unfold Sched.mainBack
  simp only
  split
  · exact hu.afterErr
  · exact hu.afterPark

theorem IoInv.poll {s : St} {fds : List Nat} (h : IoInv s) : IoInv (Sched.poll s fds) := by
  have hs := poll_same s fds
  refine h.mono (Nat.le_of_eq hs.n.symm) fun e he => ?_
  rw [hs.io] at he
  exact ⟨(List.mem_filter.1 he).1, hs.pc _⟩

theorem IoInv.wakeDue {s : St} (h : IoInv s) : IoInv (Sched.wakeDue s) := by
  have hs := wakeDue_same s
  refine h.mono (Nat.le_of_eq hs.n.symm) fun e he => ?_
  rw [hs.io] at he
  exact ⟨he, hs.pc _⟩

theorem switch_io (s : St) (c : Nat) : (switch s c).io = s.io ∧ (switch s c).n = s.n := by
  unfold switch; split <;> exact ⟨rfl, rfl⟩

/-- A thread in user code is not registered, so that its own steps may do as they like with it. -/
theorem IoInv.own {s s' : St} {c : Nat} (h : IoInv s) (hc : ∀ d, (s.thr c).pc ≠ .io d)
    (hn : s.n ≤ s'.n) (hio : ∀ e ∈ s'.io, e ∈ s.io)
    (ht : ∀ k, k ≠ c → k < s.n → (s'.thr k).pc = (s.thr k).pc) : IoInv s' := by
  refine h.mono hn fun e he => ⟨hio e he, ht _ ?_ (h e (hio e he)).1⟩
  intro e1
  obtain ⟨_, d, hd⟩ := h e (hio e he)
  rw [e1] at hd
  exact hc d hd

theorem call_io {s s' : St} {c : Nat} {q : Call} (hs : doCall s c q = some s') :
    s.n ≤ s'.n ∧ (∀ e ∈ s'.io, e ∈ s.io ∨ ∃ fds dl, q = .waitFds fds dl ∧ e.2 = c ∧ e.1 ∈ fds ∧
      (s'.thr c).pc = .io dl) := by
  cases q with
  | spawn ab =>
    simp only [doCall, Option.some.injEq] at hs; subst hs
    exact ⟨Nat.le_succ _, fun e he => Or.inl he⟩
  | wakeup t p =>
    simp only [doCall] at hs
    split at hs
    · injection hs with hs; subst hs
      unfold Sched.wakeup
      split
      · exact ⟨Nat.le_refl _, fun e he => Or.inl he⟩
      · split <;> exact ⟨Nat.le_refl _, fun e he => Or.inl he⟩
      · exact ⟨Nat.le_refl _, fun e he => Or.inl he⟩
    · cases hs
  | sleep dl =>
    simp only [doCall, Option.some.injEq] at hs; subst hs
    unfold Sched.sleep
    split
    · exact ⟨Nat.le_refl _, fun e he => Or.inl he⟩
    · simp only
      split
      · exact ⟨Nat.le_refl _, fun e he => Or.inl he⟩
      · rw [(switch_io _ _).1, (switch_io _ _).2]
        exact ⟨Nat.le_refl _, fun e he => Or.inl he⟩
  | pass fds =>
    simp only [doCall, Option.some.injEq] at hs; subst hs
    unfold Sched.pass
    split
    · exact ⟨Nat.le_refl _, fun e he => Or.inl he⟩
    · simp only
      split
      · have h1 := poll_same (wakeDue (s.mod c fun x => { x with blocking := false })) fds
        have h2 := wakeDue_same (s.mod c fun x => { x with blocking := false })
        refine ⟨Nat.le_of_eq (h1.n.trans h2.n).symm, fun e he => Or.inl ?_⟩
        have he' : e ∈ (Sched.poll (wakeDue (s.mod c fun x => { x with blocking := false })) fds).io := he
        rw [h1.io] at he'
        have := (List.mem_filter.1 he').1
        rw [h2.io] at this
        exact this
      · rw [(switch_io _ _).1, (switch_io _ _).2]
        exact ⟨Nat.le_refl _, fun e he => Or.inl he⟩
  | join t dl =>
    simp only [doCall] at hs
    split at hs
    · injection hs with hs; subst hs
      unfold joinEnter
      split <;> exact ⟨Nat.le_refl _, fun e he => Or.inl he⟩
    · cases hs
  | waitFds fds dl =>
    simp only [doCall, Option.some.injEq] at hs; subst hs
    unfold Sched.waitFds
    split
    · exact ⟨Nat.le_refl _, fun e he => Or.inl he⟩
    · simp only
      rw [(switch_io _ _).1, (switch_io _ _).2]
      refine ⟨Nat.le_refl _, fun e he => ?_⟩
      rcases List.mem_append.1 he with h1 | h1
      · exact Or.inl h1
      · right
        obtain ⟨fd, h2, h3⟩ := List.mem_map.1 h1
        subst h3
        exact ⟨fds, dl, rfl, rfl, h2, by unfold switch; split <;> simp [*]⟩
  | interrupt t i =>
    simp only [doCall] at hs
    split at hs
    · injection hs with hs; subst hs
      unfold Sched.interrupt
      split
      · exact ⟨Nat.le_refl _, fun e he => Or.inl he⟩
      · split
        · exact ⟨Nat.le_refl _, fun e he => Or.inl he⟩
        · simp only
          split <;> exact ⟨Nat.le_refl _, fun e he => Or.inl he⟩
    · cases hs
  | pushMask ms =>
    simp only [doCall, Option.some.injEq] at hs; subst hs
    exact ⟨Nat.le_refl _, fun e he => Or.inl he⟩
  | popMask =>
    simp only [doCall, Option.some.injEq] at hs; subst hs
    exact ⟨Nat.le_refl _, fun e he => Or.inl he⟩
  | setUnint on =>
    simp only [doCall, Option.some.injEq] at hs; subst hs
    exact ⟨Nat.le_refl _, fun e he => Or.inl he⟩
  | checkpoint b =>
    simp only [doCall, Option.some.injEq] at hs; subst hs
    exact ⟨Nat.le_refl _, fun e he => Or.inl he⟩
  | exit fwd =>
    simp only [doCall] at hs
    split at hs
    · cases hs
    · injection hs with hs; subst hs
      rw [(finalize_io _ _ _).1, (finalize_io _ _ _).2]
      exact ⟨Nat.le_refl _, fun e he => Or.inl he⟩
  | fork =>
    simp only [doCall, Option.some.injEq] at hs; subst hs
    exact ⟨Nat.le_refl _, fun e he => Or.inl he⟩

theorem running_lt {nf : Bool} {s : St} (h : P nf s) {c : Nat} (hr : running s = some c) : c < s.n := by
  unfold running at hr
  split at hr
  · injection hr with hr; subst hr; exact h.n0
  · split at hr
    · cases hr
    · rename_i h0
      injection hr with hr; subst hr
      have := (h.cur h0).1
      apply Decidable.byContradiction
      intro hn
      have hd := h.fresh s.current (by omega)
      rw [this] at hd; cases hd

/-- Where a registration after a step comes from. -/
theorem step_io {s s' : St} {a : Act} (hs : step s a = some s') :
    ∀ e ∈ s'.io, e ∈ s.io ∨ ∃ fds dl, a = .call (.waitFds fds dl) ∧ running s = some e.2 ∧
      (s.thr e.2).pc = .user ∧ e.1 ∈ fds ∧ (s'.thr e.2).pc = .io dl := by
  have hpoll : ∀ (u : St) (fds : List Nat), ∀ e ∈ (Sched.poll u fds).io, e ∈ u.io := by
    intro u fds e he
    rw [(poll_same u fds).io] at he
    exact (List.mem_filter.1 he).1
  have hmach : ∀ (u : St) (fds : List Nat), ∀ e ∈ (Sched.poll (wakeDue u) fds).io, e ∈ u.io := by
    intro u fds e he
    have := hpoll _ _ e he
    rw [(wakeDue_same u).io] at this
    exact this
  have hAE : ∀ (u : St) (t : Nat) (pc : PC), ∀ e ∈ (Sched.afterErr u t pc).io, e ∈ u.io := by
    intro u t pc e he
    unfold Sched.afterErr at he
    split at he
    · exact (mem_unregister he).1
    · exact he
  have hAP : ∀ (u : St) (t : Nat), ∀ e ∈ (Sched.afterPark u t).io, e ∈ u.io := by
    intro u t e he
    unfold Sched.afterPark at he
    split at he
    · exact he
    · exact (mem_unregister he).1
    · exact he
  have hMB : ∀ (u : St) (b : Bool), ∀ e ∈ (Sched.mainBack u b).io, e ∈ u.io := by
    intro u b e he
    unfold Sched.mainBack at he
    simp only at he
    split at he
    · have := hAE _ _ _ e he; exact this
    · have := hAP _ _ e he; exact this
  have hD : ∀ (u : St) (t : Nat), ∀ e ∈ (Sched.dispatch u t).io, e ∈ u.io := by
    intro u t e he
    unfold Sched.dispatch at he
    split at he
    · split at he
      · rw [(finalize_io _ _ _).1] at he; exact he
      · exact he
    · split at he
      · exact he
      · simp only at he
        split at he
        · have := hAE _ _ _ e he; exact this
        · have := hAP _ _ e he; exact this
  unfold Sched.step at hs
  split at hs
  · cases hs
  cases a with
  | tick d => simp only [Option.some.injEq] at hs; subst hs; exact fun e he => Or.inl he
  | loopIter fds =>
    simp only at hs
    split at hs
    · injection hs with hs
      subst hs
      intro e he
      left
      unfold Sched.loopIter at he
      simp only at he
      split at he
      · have := hmach _ _ e (by have := hMB _ _ e he; exact this); exact this
      · split at he
        · have := hmach _ _ e (by have := hD _ _ e he; exact this); exact this
        · exact hmach _ _ e he
    · cases hs
  | idle fds =>
    simp only at hs
    split at hs
    · injection hs with hs; subst hs; exact fun e he => Or.inl (hpoll _ _ e he)
    · cases hs
  | loopErr =>
    simp only at hs
    split at hs
    · injection hs with hs
      subst hs
      exact fun e he => Or.inl (by have := hAE _ _ _ e he; exact this)
    · cases hs
  | passNext =>
    simp only at hs
    cases hh : s.host with
    | main => rw [hh] at hs; cases hs
    | loop => rw [hh] at hs; cases hs
    | idle => rw [hh] at hs; cases hs
    | pass kk =>
      rw [hh] at hs
      simp only at hs
      split at hs
      · cases kk with
        | zero => injection hs with hs; subst hs; exact fun e he => Or.inl (by have := hMB _ _ e he; exact this)
        | succ k' =>
          cases hr : s.ready with
          | nil => rw [hr] at hs; injection hs with hs; subst hs; exact fun e he => Or.inl (by have := hMB _ _ e he; exact this)
          | cons t rest =>
            rw [hr] at hs
            injection hs with hs; subst hs
            exact fun e he => Or.inl (by have := hD _ _ e he; exact this)
      · cases hs
  | joinLoop =>
    simp only at hs
    split at hs
    · rename_i c hc
      split at hs
      · rename_i t dl hpc
        injection hs with hs
        subst hs
        intro e he
        left
        unfold Sched.joinLoop at he
        split at he
        · exact he
        · simp only at he
          split at he
          · exact he
          · split at he
            · exact he
            · rw [(switch_io _ _).1] at he; exact he
      · cases hs
    · cases hs
  | call q =>
    simp only at hs
    split at hs
    · rename_i c hc
      split at hs
      · rename_i hu
        intro e he
        rcases (call_io hs).2 e he with h | ⟨fds, dl, h1, h2, h3, h4⟩
        · exact Or.inl h
        · subst h1; subst h2; exact Or.inr ⟨fds, dl, rfl, hc, hu, h3, h4⟩
      · cases hs
    · cases hs

theorem IoInv.step {nf : Bool} {s s' : St} {a : Act} (hP : P nf s) (h : IoInv s)
    (hs : step s a = some s') : IoInv s' := by
  have hn := step_n hs
  have hio := step_io hs
  have hs0 := hs
  unfold Sched.step at hs
  split at hs
  · cases hs
  cases a with
  | tick d => simp only [Option.some.injEq] at hs; subst hs; exact h
  | loopIter fds =>
    simp only at hs
    split at hs
    · injection hs with hs
      subst hs
      have hm : IoInv (Sched.poll (Sched.wakeDue s) fds) := h.wakeDue.poll
      unfold Sched.loopIter
      simp only
      split
      · exact hm.mainBack
      · split
        · rename_i t rest _
          exact IoInv.dispatch (s := { Sched.poll (Sched.wakeDue s) fds with ready := rest }) hm
        · exact hm
    · cases hs
  | idle fds =>
    simp only at hs
    split at hs
    · injection hs with hs; subst hs; exact h.poll
    · cases hs
  | loopErr =>
    simp only at hs
    split at hs
    · injection hs with hs
      subst hs
      intro e he
      unfold Sched.afterErr at he ⊢
      split at he
      · obtain ⟨h1, h2⟩ := mem_unregister he
        obtain ⟨h3, d, h4⟩ := h e h1
        exact ⟨h3, d, by rename_i hp; simp [hp, unregister, h2, h4]⟩
      · rename_i hp
        have he' : e ∈ s.io := he
        obtain ⟨h3, d, h4⟩ := h e he'
        have h0 : e.2 ≠ 0 := by
          intro e0; rw [e0] at h4; exact hp d h4
        exact ⟨h3, d, by simp [h0, h4]⟩
    · cases hs
  | passNext =>
    simp only at hs
    cases hh : s.host with
    | main => rw [hh] at hs; cases hs
    | loop => rw [hh] at hs; cases hs
    | idle => rw [hh] at hs; cases hs
    | pass kk =>
      rw [hh] at hs
      simp only at hs
      split at hs
      · cases kk with
        | zero => injection hs with hs; subst hs; exact h.mainBack
        | succ k' =>
          cases hr : s.ready with
          | nil => rw [hr] at hs; injection hs with hs; subst hs; exact h.mainBack
          | cons t rest =>
            rw [hr] at hs
            injection hs with hs; subst hs
            exact IoInv.dispatch (s := { s with ready := rest, host := .pass k' }) h
      · cases hs
  | joinLoop =>
    simp only at hs
    split at hs
    · rename_i c hc
      split at hs
      · rename_i t dl hpc
        injection hs with hs
        refine h.own (c := c) (by rw [hpc]; intro d e; cases e) hn ?_ ?_
        · intro e he
          rcases hio e he with h1 | ⟨_, _, h1, _⟩
          · exact h1
          · cases h1
        · intro k hk hkn
          rcases step_pc hs0 hkn with h1 | h1
          · exact h1
          · cases h1 with
            | join hr => rw [hc] at hr; injection hr with hr; exact absurd hr.symm hk
      · cases hs
    · cases hs
  | call q =>
    simp only at hs
    split at hs
    · rename_i c hc
      split at hs
      · rename_i hu
        have hpc : ∀ k, k ≠ c → k < s.n → (s'.thr k).pc = (s.thr k).pc := by
          intro k hk hkn
          rcases step_pc hs0 hkn with h1 | h1
          · exact h1
          · cases h1 with
            | call _ hr _ => rw [hc] at hr; injection hr with hr; exact absurd hr.symm hk
        intro e he
        rcases hio e he with h1 | ⟨fds, dl, _, h2, _, _, h3⟩
        · obtain ⟨h3, d, h4⟩ := h e h1
          have hne : e.2 ≠ c := by
            intro e1; rw [e1, hu] at h4; cases h4
          exact ⟨by omega, d, (hpc _ hne h3).trans h4⟩
        · have hlt := running_lt hP h2
          exact ⟨by omega, dl, h3⟩
      · cases hs
    · cases hs

theorem Reachable.step {s s' : St} {a : Act} (h : Reachable s) (hs : Sched.step s a = some s') :
    Reachable s' := by
  obtain ⟨as, h⟩ := h
  refine ⟨as ++ [a], ?_⟩
  have : ∀ (as : List Act) (u : St), run u as = some s → run u (as ++ [a]) = some s' := by
    intro as
    induction as with
    | nil => intro u hu; simp only [run, Option.some.injEq] at hu; subst hu; simp [run, hs]
    | cons b bs ih =>
      intro u hu
      simp only [run] at hu
      simp only [List.cons_append, run]
      cases hb : Sched.step u b with
      | none => rw [hb] at hu; cases hu
      | some v => rw [hb] at hu; exact ih v hu
  exact this as init h

theorem Reachable.io {s : St} (h : Reachable s) : IoInv s := by
  obtain ⟨as, h⟩ := h
  have : ∀ (as : List Act) (u : St), Reachable u → IoInv u → run u as = some s → IoInv s := by
    intro as
    induction as with
    | nil => intro u _ hi hu; simp only [run, Option.some.injEq] at hu; subst hu; exact hi
    | cons b bs ih =>
      intro u hr hi hu
      simp only [run] at hu
      cases hb : Sched.step u b with
      | none => rw [hb] at hu; cases hu
      | some v => rw [hb] at hu; exact ih v (hr.step hb) (hi.step hr.p hb) hu
  exact this as init ⟨[], rfl⟩ (fun e he => by cases he) h

end Verif.Sched
