import Verif.Sched.Pc

/-! # A dead thread that is not queued never runs (helper lemmas for C50) -/

namespace Verif.Sched

/-- Dead, not queued, not running, and not main. -/
structure Z (t : Nat) (s : St) : Prop where
  dead : (s.thr t).state = .dead
  nq : t ∉ s.ready
  nc : s.current ≠ t
  n0 : t ≠ 0
  lt : t < s.n

variable {t : Nat}

theorem Z.wake {s : St} (h : Z t s) {k : Nat} (hk : (s.thr k).state ≠ .dead) : Z t (s.wake k) := by
  have e : t ≠ k := by rintro rfl; exact hk h.dead
  refine ⟨by simp [wake_thr, e, h.dead], ?_, h.nc, h.n0, h.lt⟩
  rw [wake_ready]
  split
  · exact h.nq
  · simp [h.nq, e]

/-- A change that keeps the thread's state and the queue. -/
theorem Z.of {s s' : St} (h : Z t s) (hs : (s'.thr t).state = (s.thr t).state)
    (hr : s'.ready = s.ready) (hc : s'.current = s.current ∨ s'.current = 0) (hn : s'.n = s.n) :
    Z t s' := by
  refine ⟨hs.trans h.dead, by rw [hr]; exact h.nq, ?_, h.n0, by rw [hn]; exact h.lt⟩
  rcases hc with hc | hc
  · rw [hc]; exact h.nc
  · rw [hc]; exact Ne.symm h.n0

theorem Z.foldl {α : Type} (f : St → α → St) (hf : ∀ s a, Z t s → Z t (f s a)) (l : List α) :
    ∀ s, Z t s → Z t (l.foldl f s) := by
  induction l with
  | nil => intro s h; exact h
  | cons a l ih => intro s h; exact ih _ (hf s a h)

theorem Z.foldWake (l : List Nat) : ∀ s, Z t s → (∀ k ∈ l, (s.thr k).state ≠ .dead) →
    Z t (l.foldl St.wake s) := by
  induction l with
  | nil => intro s h _; exact h
  | cons a l ih =>
    intro s h hl
    refine ih _ (h.wake (hl a (by simp))) ?_
    intro k hk
    rw [wake_thr]
    split
    · simp
    · exact hl k (by simp [hk])

theorem Z.wakeDue {s : St} (h : Z t s) : Z t (wakeDue s) := by
  rw [wakeDue_eq]
  refine Z.foldWake (dueOf s) s.pruneSleepers (h.of rfl rfl (Or.inl rfl) rfl) ?_
  intro k hk
  unfold dueOf at hk
  rw [List.mem_map] at hk
  obtain ⟨e, he, rfl⟩ := hk
  rw [List.mem_filter] at he
  have := he.2
  simp only [Bool.and_eq_true] at this
  intro hd
  change (s.thr e.2).state = .dead at hd
  rw [hd] at this; simp [TS.parked] at this

theorem Z.poll {s : St} (h : Z t s) (fds : List Nat) : Z t (poll s fds) := by
  rw [poll_eq]
  refine Z.foldl (pollOne fds) ?_ _ s.pruneIo (h.of rfl rfl (Or.inl rfl) rfl)
  intro u e hu
  unfold pollOne
  split
  · rename_i hh; exact hu.wake (by rw [hh.2]; simp)
  · exact hu

theorem Z.machine {s : St} (h : Z t s) (fds : List Nat) : Z t (Sched.poll (Sched.wakeDue s) fds) :=
  (h.wakeDue).poll fds

theorem Z.finalize {s : St} (h : Z t s) (k : Nat) (fwd : Option Intr) : Z t (finalize s k fwd) := by
  have h0 : Z t (s.mod k fun x => { x with pending := [], state := .dead, joiners := [] }) := by
    refine ⟨?_, h.nq, h.nc, h.n0, h.lt⟩
    by_cases e : t = k
    · subst e; simp
    · simp [e, h.dead]
  have h1 := Z.foldl joinerOne (t := t) (by
    intro u j hu
    unfold joinerOne
    split
    · rename_i hh; exact hu.wake (by rw [hh]; simp)
    · exact hu) (s.thr k).joiners _ h0
  unfold Sched.finalize
  simp only
  split
  · exact h1
  · split
    · exact h1
    · split
      · exact h1.of (by simp [h.n0]) rfl (Or.inl rfl) rfl
      · exact h1.of (by simp [h.n0]) rfl (Or.inl rfl) rfl

theorem Z.afterPark {s : St} (h : Z t s) (k : Nat) : Z t (afterPark s k) := by
  refine h.of (afterPark_state s k t) (afterPark_ready s k) (Or.inl ?_) (afterPark_n s k)
  unfold Sched.afterPark; split <;> rfl

theorem Z.afterErr {s : St} (h : Z t s) (k : Nat) (p : PC) : Z t (afterErr s k p) := by
  refine h.of (by rw [afterErr_thr]) (afterErr_ready s k p) (Or.inl ?_) (afterErr_n s k p)
  unfold Sched.afterErr; split <;> rfl

theorem Z.dispatch {s : St} (h : Z t s) {k : Nat} (hk : k ≠ t) : Z t (dispatch s k) := by
  have hk' : t ≠ k := Ne.symm hk
  unfold Sched.dispatch
  split
  · split
    · refine Z.finalize ?_ k _
      exact h.of (by simp [hk']) rfl (Or.inl rfl) rfl
    · exact ⟨by simp [hk', h.dead], h.nq, hk, h.n0, h.lt⟩
  · split
    · exact h.of rfl rfl (Or.inl rfl) rfl
    · obtain ⟨u, hv⟩ : ∃ v : St, ({ s.mod k (fun x => { x with state := .runnable, resume := false })
          with current := k } : St) = v := ⟨_, rfl⟩
      suffices hgoal : Z t (match deliver (u.thr k) (u.thr k).blocking with
          | (x, true) => Sched.afterErr (u.mod k fun _ => x) k (s.thr k).pc
          | (_, false) => Sched.afterPark u k) by subst hv; exact hgoal
      have hu : Z t u := by subst hv; exact ⟨by simp [hk', h.dead], h.nq, hk, h.n0, h.lt⟩
      split
      · refine Z.afterErr ?_ _ _
        exact hu.of (by simp [hk']) rfl (Or.inl rfl) rfl
      · exact hu.afterPark _

theorem Z.mainBack {s : St} (h : Z t s) (b : Bool) : Z t (mainBack s b) := by
  have h0 : Z t ({ s with host := .main, current := 0 } : St) := h.of rfl rfl (Or.inr rfl) rfl
  unfold Sched.mainBack
  simp only
  rcases deliver_cases (s.thr 0) b with ⟨id, rs, _, e⟩ | ⟨_, e⟩
  · rw [e]
    refine Z.afterErr ?_ _ _
    exact h0.of (by simp [h.n0]) rfl (Or.inl rfl) rfl
  · rw [e]; exact h0.afterPark _

theorem switch_current' (s : St) (c : Nat) :
    (switch s c).current = if c = 0 then s.current else 0 := by
  unfold switch; split <;> rfl

theorem Z.switch {s : St} (h : Z t s) {c : Nat} (hc : c ≠ t) : Z t (switch s c) := by
  refine h.of ?_ (switch_ready s c) ?_ (switch_n s c)
  · rw [switch_thr]; split <;> simp [Ne.symm hc]
  · rw [switch_current']; split
    · exact Or.inl rfl
    · exact Or.inr rfl

theorem Z.step {s s' : St} {a : Act} (h : Z t s) (hs : step s a = some s') : Z t s' := by
  have hrun : ∀ c, running s = some c → c ≠ t := by
    intro c hc
    unfold running at hc
    split at hc
    · injection hc with hc; subst hc; exact Ne.symm h.n0
    · split at hc
      · cases hc
      · injection hc with hc; subst hc; exact h.nc
  unfold Sched.step at hs
  split at hs
  · cases hs
  cases a with
  | tick d => simp only [Option.some.injEq] at hs; subst hs; exact h.of rfl rfl (Or.inl rfl) rfl
  | loopIter fds =>
    simp only at hs
    split at hs
    · injection hs with hs
      subst hs
      have hm := h.machine fds
      unfold Sched.loopIter
      simp only
      generalize Sched.poll (Sched.wakeDue s) fds = u at hm
      split
      · exact hm.mainBack _
      · split
        · rename_i k rest hr
          have hq := hm.nq
          rw [hr] at hq
          simp only [List.mem_cons, not_or] at hq
          refine Z.dispatch (s := { u with ready := rest }) ?_ (Ne.symm hq.1)
          exact ⟨hm.dead, hq.2, hm.nc, hm.n0, hm.lt⟩
        · exact hm.of rfl rfl (Or.inl rfl) rfl
    · cases hs
  | idle fds =>
    simp only at hs
    split at hs
    · injection hs with hs; subst hs
      exact (h.poll fds).of rfl rfl (Or.inl rfl) rfl
    · cases hs
  | loopErr =>
    simp only at hs
    split at hs
    · injection hs with hs
      subst hs
      refine Z.afterErr ?_ _ _
      exact h.of (by simp [h.n0]) rfl (Or.inl rfl) rfl
    · cases hs
  | passNext =>
    simp only at hs
    split at hs
    · split at hs
      · split at hs
        · rename_i k' k rest hr _
          injection hs with hs; subst hs
          have hq := h.nq
          rw [‹s.ready = k :: rest›] at hq
          simp only [List.mem_cons, not_or] at hq
          refine Z.dispatch (s := { s with ready := rest, host := .pass k' }) ?_ (Ne.symm hq.1)
          exact ⟨h.dead, hq.2, h.nc, h.n0, h.lt⟩
        · injection hs with hs; subst hs; exact h.mainBack _
      · cases hs
    · cases hs
  | joinLoop =>
    simp only at hs
    split at hs
    · rename_i c hc
      have hct := Ne.symm (hrun c hc)
      split at hs
      · rename_i g dl hpc
        injection hs with hs
        subst hs
        unfold Sched.joinLoop
        rcases deliver_cases (s.thr c) true with ⟨id, rs, _, e⟩ | ⟨hn, e⟩
        · rw [e]; exact h.of (by simp [hct]) rfl (Or.inl rfl) rfl
        · rw [e]
          simp only
          split
          · exact h.of (by simp [hct]) rfl (Or.inl rfl) rfl
          · split
            · exact h.of (by simp [hct]) rfl (Or.inl rfl) rfl
            · refine Z.switch ?_ (Ne.symm hct)
              refine h.of ?_ rfl (Or.inl rfl) rfl
              by_cases e1 : t = g <;> simp [e1, hct] <;> simp_all
      · cases hs
    · cases hs
  | call q =>
    simp only at hs
    split at hs
    · rename_i c hc
      have hct := Ne.symm (hrun c hc)
      split at hs
      · cases q with
        | spawn ab =>
          simp only [doCall, Option.some.injEq] at hs; subst hs
          have := h.lt
          have hne : t ≠ s.n := by omega
          refine ⟨by simpa [Sched.spawn, hne] using h.dead, ?_, h.nc, h.n0, ?_⟩
          · simp [Sched.spawn, h.nq, hne]
          · show t < s.n + 1; omega
        | wakeup k p =>
          simp only [doCall] at hs
          split at hs
          · injection hs with hs; subst hs
            unfold Sched.wakeup
            split
            · rename_i hsl
              have hne : t ≠ k := by rintro rfl; rw [h.dead] at hsl; cases hsl
              refine Z.wake ?_ ?_
              · exact h.of (by simp [hne]) rfl (Or.inl rfl) rfl
              · simp [hsl]
            · split
              · refine h.of ?_ rfl (Or.inl rfl) rfl
                by_cases e : t = k
                · subst e; simp
                · simp [e]
              · exact h
            · exact h
          · cases hs
        | sleep dl =>
          simp only [doCall, Option.some.injEq] at hs; subst hs
          unfold Sched.sleep
          split
          · exact h.of (by simp [hct]) rfl (Or.inl rfl) rfl
          · simp only
            split
            · exact h.of (by simp [hct]) rfl (Or.inl rfl) rfl
            · refine Z.switch ?_ (Ne.symm hct)
              exact h.of (by simp [hct]) rfl (Or.inl rfl) rfl
        | pass fds =>
          simp only [doCall, Option.some.injEq] at hs; subst hs
          unfold Sched.pass
          split
          · exact h.of (by simp [hct]) rfl (Or.inl rfl) rfl
          · simp only
            split
            · have h1 : Z t (s.mod c fun x => { x with blocking := false }) :=
                h.of (by simp [hct]) rfl (Or.inl rfl) rfl
              exact (h1.machine fds).of rfl rfl (Or.inl rfl) rfl
            · refine Z.switch ?_ (Ne.symm hct)
              refine ⟨by simp [hct, h.dead], ?_, h.nc, h.n0, h.lt⟩
              show t ∉ s.ready ++ [c]
              simp [h.nq, hct]
        | join k dl =>
          simp only [doCall] at hs
          split at hs
          · injection hs with hs; subst hs
            unfold joinEnter
            split
            · exact h
            · exact h.of (by simp [hct]) rfl (Or.inl rfl) rfl
          · cases hs
        | waitFds fds dl =>
          simp only [doCall, Option.some.injEq] at hs; subst hs
          unfold Sched.waitFds
          split
          · exact h.of (by simp [hct]) rfl (Or.inl rfl) rfl
          · refine Z.switch ?_ (Ne.symm hct)
            exact h.of (by simp [hct]) rfl (Or.inl rfl) rfl
        | interrupt k i =>
          simp only [doCall] at hs
          split at hs
          · injection hs with hs; subst hs
            unfold Sched.interrupt
            split
            · exact h.of (by simp [hct]) rfl (Or.inl rfl) rfl
            · split
              · exact h
              · rename_i hd
                have hne : t ≠ k := by rintro rfl; exact hd h.dead
                simp only
                have h1 : Z t (s.mod k fun x => push x i) := h.of (by simp [hne]) rfl (Or.inl rfl) rfl
                split
                · refine Z.wake ?_ ?_
                  · exact h1.of (by simp [hne]) rfl (Or.inl rfl) rfl
                  · simpa using hd
                · exact h1
          · cases hs
        | pushMask ms =>
          simp only [doCall, Option.some.injEq] at hs; subst hs
          exact h.of (by simp [hct]) rfl (Or.inl rfl) rfl
        | popMask =>
          simp only [doCall, Option.some.injEq] at hs; subst hs
          exact h.of (by simp [hct]) rfl (Or.inl rfl) rfl
        | setUnint on =>
          simp only [doCall, Option.some.injEq] at hs; subst hs
          exact h.of (by simp [hct]) rfl (Or.inl rfl) rfl
        | checkpoint b =>
          simp only [doCall, Option.some.injEq] at hs; subst hs
          exact h.of (by simp [hct]) rfl (Or.inl rfl) rfl
        | exit fwd =>
          simp only [doCall] at hs
          split at hs
          · cases hs
          · injection hs with hs; subst hs
            exact Z.finalize (s := { s with current := 0 }) (h.of rfl rfl (Or.inr rfl) rfl) c fwd
        | fork =>
          simp only [doCall, Option.some.injEq] at hs; subst hs
          refine ⟨?_, h.nq, h.nc, h.n0, h.lt⟩
          simp [forkChild, hct]
      · cases hs
    · cases hs

theorem Z.run : ∀ (as : List Act) {s s' : St}, Z t s → run s as = some s' → Z t s' := by
  intro as
  induction as with
  | nil => intro s s' h hr; simp only [Sched.run, Option.some.injEq] at hr; subst hr; exact h
  | cons a as ih =>
    intro s s' h hr
    simp only [Sched.run] at hr
    split at hr
    · rename_i s1 hs
      exact ih (h.step hs) hr
    · cases hr

end Verif.Sched
