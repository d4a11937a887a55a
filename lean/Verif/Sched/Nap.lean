import Verif.Sched.Fork

/-! # Time goes forward, and a sleeper in a clean schedule leaves only when due or roused (C49) -/

namespace Verif.Sched

theorem afterPark_now (s : St) (t : Nat) : (afterPark s t).now = s.now := by
  unfold afterPark; split <;> rfl
theorem afterErr_now (s : St) (t : Nat) (p : PC) : (afterErr s t p).now = s.now := by
  unfold afterErr; split <;> rfl
theorem switch_now (s : St) (t : Nat) : (switch s t).now = s.now := by
  unfold switch; split <;> rfl
theorem mainBack_now (s : St) (b : Bool) : (mainBack s b).now = s.now := by
  unfold mainBack
  simp only
  split
  · rw [afterErr_now]; rfl
  · rw [afterPark_now]
theorem finalize_now (s : St) (t : Nat) (fwd : Option Intr) : (finalize s t fwd).now = s.now := by
  have h := (same_foldl joinerOne same_joinerOne (s.thr t).joiners
    (s.mod t fun x => { x with pending := [], state := .dead, joiners := [] })).now
  unfold finalize
  simp only
  split
  · exact h
  · split
    · exact h
    · split <;> exact h
theorem dispatch_now (s : St) (t : Nat) : (dispatch s t).now = s.now := by
  unfold dispatch
  split
  · split
    · exact finalize_now _ _ _
    · rfl
  · split
    · rfl
    · simp only
      split
      · rw [afterErr_now]; rfl
      · rw [afterPark_now]; rfl
theorem machine_now (s : St) (fds : List Nat) : (poll (wakeDue s) fds).now = s.now :=
  (poll_same _ fds).now.trans (wakeDue_same s).now
theorem joinLoop_now (s : St) (c t : Nat) (dl : Option Nat) : (joinLoop s c t dl).now = s.now := by
  unfold joinLoop
  split
  · rfl
  · simp only
    split
    · rfl
    · split
      · rfl
      · rw [switch_now]; rfl

theorem call_now {s s' : St} {c : Nat} {q : Call} (h : doCall s c q = some s') : s.now ≤ s'.now := by
  cases q with
  | spawn ab =>
    simp only [doCall, Option.some.injEq] at h; subst h; exact Nat.le_refl _
  | wakeup t p =>
    simp only [doCall] at h
    split at h
    · injection h with h; subst h
      unfold Sched.wakeup
      split
      · exact Nat.le_refl _
      · split <;> exact Nat.le_refl _
      · exact Nat.le_refl _
    · cases h
  | sleep dl =>
    simp only [doCall, Option.some.injEq] at h; subst h
    unfold Sched.sleep
    split
    · exact Nat.le_refl _
    · simp only
      split
      · exact Nat.le_refl _
      · rw [switch_now]; exact Nat.le_refl _
  | pass fds =>
    simp only [doCall, Option.some.injEq] at h; subst h
    unfold Sched.pass
    split
    · exact Nat.le_refl _
    · simp only
      split
      · show _ ≤ (poll _ fds).now; rw [machine_now]; exact Nat.le_refl _
      · rw [switch_now]; exact Nat.le_refl _
  | join t dl =>
    simp only [doCall] at h
    split at h
    · injection h with h; subst h
      unfold joinEnter
      split <;> exact Nat.le_refl _
    · cases h
  | waitFds fds dl =>
    simp only [doCall, Option.some.injEq] at h; subst h
    unfold Sched.waitFds
    split
    · exact Nat.le_refl _
    · simp only [switch_now]; exact Nat.le_refl _
  | interrupt t i =>
    simp only [doCall] at h
    split at h
    · injection h with h; subst h
      unfold Sched.interrupt
      split
      · exact Nat.le_refl _
      · split
        · exact Nat.le_refl _
        · simp only
          split <;> exact Nat.le_refl _
    · cases h
  | pushMask ms => simp only [doCall, Option.some.injEq] at h; subst h; exact Nat.le_refl _
  | popMask => simp only [doCall, Option.some.injEq] at h; subst h; exact Nat.le_refl _
  | setUnint on => simp only [doCall, Option.some.injEq] at h; subst h; exact Nat.le_refl _
  | checkpoint b => simp only [doCall, Option.some.injEq] at h; subst h; exact Nat.le_refl _
  | exit fwd =>
    simp only [doCall] at h
    split at h
    · cases h
    · injection h with h; subst h; rw [finalize_now]; exact Nat.le_refl _
  | fork => simp only [doCall, Option.some.injEq] at h; subst h; exact Nat.le_refl _

theorem step_now {s s' : St} {a : Act} (h : step s a = some s') : s.now ≤ s'.now := by
  unfold Sched.step at h
  split at h
  · cases h
  cases a with
  | tick d => simp only [Option.some.injEq] at h; subst h; exact Nat.le_add_right _ _
  | loopIter fds =>
    simp only at h
    split at h
    · injection h with h
      subst h
      have hm := machine_now s fds
      unfold Sched.loopIter
      simp only
      generalize Sched.poll (Sched.wakeDue s) fds = u at hm
      split
      · rw [mainBack_now, hm]; exact Nat.le_refl _
      · split
        · rw [dispatch_now]; exact hm ▸ Nat.le_refl _
        · exact hm ▸ Nat.le_refl _
    · cases h
  | idle fds =>
    simp only at h
    split at h
    · injection h with h; subst h
      show s.now ≤ (poll s fds).now
      rw [(poll_same s fds).now]; exact Nat.le_refl _
    · cases h
  | loopErr =>
    simp only at h
    split at h
    · injection h with h
      subst h
      rw [afterErr_now]; exact Nat.le_refl _
    · cases h
  | passNext =>
    simp only at h
    split at h
    · split at h
      · split at h
        · injection h with h; subst h; rw [dispatch_now]; exact Nat.le_refl _
        · injection h with h; subst h; rw [mainBack_now]; exact Nat.le_refl _
      · cases h
    · cases h
  | joinLoop =>
    simp only at h
    split at h
    · split at h
      · injection h with h
        subst h
        rw [joinLoop_now]; exact Nat.le_refl _
      · cases h
    · cases h
  | call q =>
    simp only at h
    split at h
    · split at h
      · exact call_now h
      · cases h
    · cases h


theorem clean_leave {m : Bool} {s s' : St} {a : Act} (h : CInv m s) (hcl : Clean m s a)
    (hs : step s a = some s') {k : Nat} (hk : k ≠ 0 ∨ m = true) (hn : k < s.n) {d : Option Nat}
    (hpc : (s.thr k).pc = .sleep d) (hne : (s'.thr k).pc ≠ .sleep d) :
    (s'.thr k).roused = true ∨ isDue s'.now d = true := by
  have act : ∀ {u : St} {r : List Nat}, CInv m u → u.current = 0 → u.ready = k :: r →
      (u.thr k).pc = .sleep d → k ≠ 0 ∧ ((u.thr k).roused = true ∨ isDue u.now d = true) := by
    intro u r hu h0 hr hp
    have hc := hu.q.cnt k
    rw [hr, List.count_cons_self] at hc
    by_cases hh : k ≠ 0 ∧ k ≠ u.current ∧ (u.thr k).state.active = true
    · refine ⟨hh.1, ?_⟩
      have hT : Tr m u.host k := Or.inl hh.1
      have hst : (u.thr k).state = .created ∨ (u.thr k).state = .runnable := by
        have := hh.2.2
        cases hs : (u.thr k).state <;> rw [hs] at this <;> simp [TS.active] at this <;> simp
      rcases hst with hst | hst
      · exact absurd hp (hu.r.core.c0 k hT (Or.inr (Or.inr hst)) d)
      · exact hu.r.core.c5 k hT hst d hp
    · rw [if_neg hh] at hc; omega
  rcases step_pc hs hn with e | e
  · exact absurd (e.trans hpc) hne
  · cases e with
    | call q _ hu => rw [hpc] at hu; cases hu
    | join hr =>
      unfold Sched.step at hs
      split at hs
      · cases hs
      · simp only [hr, hpc] at hs
        cases hs
    | main fds h0 hl hr he =>
      subst h0
      subst he
      have hm := (h.machine (fds := fds) (by
        by_cases e : s.current = 0
        · exact e
        · unfold Sched.step at hs
          split at hs
          · cases hs
          · simp only at hs
            split at hs
            · rename_i hh; exact absurd hh.2 e
            · cases hs) (by intro k e; rw [hl] at e; cases e) hcl).1
      have hp := machine_pc s fds 0
      rw [hpc] at hp
      have hm1 : m = true := by rcases hk with e | e; exact absurd rfl e; exact e
      have hh : (Sched.poll (Sched.wakeDue s) fds).host = .loop :=
        ((poll_same _ fds).host.trans (wakeDue_same s).host).trans hl
      have hc5 := hm.r.core.c5 0 (Or.inr ⟨hm1, Or.inl hh⟩) hr d hp
      have hcv := mainBack_cv (Sched.poll (Sched.wakeDue s) fds) true 0
      simp only [Thread.cv, CV.mk.injEq] at hcv
      rw [hcv.2.1, mainBack_now]
      exact hc5
    | green fds rest hl hc hr he =>
      subst he
      have hm := (h.machine (fds := fds) hc (by intro k e; rw [hl] at e; cases e) hcl).1
      have hcur : (Sched.poll (Sched.wakeDue s) fds).current = 0 :=
        ((poll_same _ fds).current.trans (wakeDue_same s).current).trans hc
      have hp := machine_pc s fds k
      rw [hpc] at hp
      obtain ⟨h0, hres⟩ := act hm hcur hr hp
      have hcv := (dispatch_cv { Sched.poll (Sched.wakeDue s) fds with ready := rest } k k).2.2
      rw [dispatch_now]
      rcases hcv with hcv | hcv
      · rw [hcv]; exact hres
      · exact absurd hcv h0
    | passed n h0 hl he =>
      subst h0
      have hm1 : m = true := by rcases hk with e | e; exact absurd rfl e; exact e
      exact absurd hpc ((h.r.p4 hm1 (Or.inr ⟨n, hl⟩)).2.2 d)
    | pass n rest hl hc hr he =>
      subst he
      obtain ⟨h0, hres⟩ := act h hc hr hpc
      have hcv := (dispatch_cv { s with ready := rest, host := .pass n } k k).2.2
      rw [dispatch_now]
      rcases hcv with hcv | hcv
      · rw [hcv]; exact hres
      · exact absurd hcv h0
    | err h0 =>
      subst h0
      rcases hk with e | e
      · exact absurd rfl e
      · have : m = false := hcl
        rw [e] at this; cases this

end Verif.Sched
