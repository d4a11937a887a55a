import Verif.Sched.EvtStep

/-! # Permits, joiners and the order of the run queue (helper lemmas for C25) -/

namespace Verif.Sched

/-- The part of a thread that only wakeups and joins change. -/
structure CV where
  permit : Bool
  roused : Bool
  joiners : List Nat

def Thread.cv (x : Thread) : CV := ⟨x.permit, x.roused, x.joiners⟩

theorem Same.cv {s s' : St} (h : Same s s') (t : Nat) : (s'.thr t).cv = (s.thr t).cv := by
  rcases h.thr t with h | h <;> rw [h]; rfl

theorem machine_cv (s : St) (fds : List Nat) (t : Nat) :
    ((poll (wakeDue s) fds).thr t).cv = (s.thr t).cv := by
  rcases machine_thr s fds t with e | e <;> rw [e]; rfl

theorem deliver_cv (x : Thread) (b : Bool) : (deliver x b).1.cv = x.cv := by
  rcases deliver_cases x b with ⟨_, _, _, h⟩ | ⟨_, h⟩ <;> rw [h]; rfl

theorem afterPark_cv (s : St) (t k : Nat) : ((afterPark s t).thr k).cv = (s.thr k).cv := by
  by_cases e : k = t
  · subst e
    unfold afterPark
    split <;> simp [unregister, Thread.cv]
  · rw [afterPark_thr s t k e]

theorem switch_cv (s : St) (c k : Nat) : ((switch s c).thr k).cv = (s.thr k).cv := by
  rw [switch_thr]; split <;> rfl

theorem mainBack_cv (s : St) (b : Bool) (k : Nat) : ((mainBack s b).thr k).cv = (s.thr k).cv := by
  unfold mainBack
  simp only
  have hd := deliver_cv (s.thr 0) b
  rcases deliver_cases (s.thr 0) b with ⟨id, rs, _, e⟩ | ⟨_, e⟩
  · rw [e] at hd ⊢
    simp only [afterErr_thr]
    by_cases e0 : k = 0
    · subst e0; simpa using hd
    · simp [e0]
  · rw [e]; simp [afterPark_cv]

theorem foldJoin_state {l : List Nat} : ∀ {u : St} {k : Nat},
    ((l.foldl joinerOne u).thr k).state = .joining → (u.thr k).state = .joining ∧ k ∉ l := by
  induction l with
  | nil => intro u k h; exact ⟨h, by simp⟩
  | cons a l ih =>
    intro u k h
    rw [List.foldl_cons] at h
    obtain ⟨h1, h2⟩ := ih h
    unfold joinerOne at h1
    split at h1
    · by_cases e : k = a
      · subst e; simp at h1
      · simp only [wake_thr, if_neg e] at h1
        exact ⟨h1, by simp [e, h2]⟩
    · rename_i hn
      have e : k ≠ a := by rintro rfl; exact hn h1
      exact ⟨h1, by simp [e, h2]⟩

/-- `finalize` clears the joiners of the thread and may rouse main; it touches no permit. -/
theorem finalize_cv (s : St) (t : Nat) (fwd : Option Intr) (k : Nat) :
    ((finalize s t fwd).thr k).permit = (s.thr k).permit ∧
    (k ≠ t → ((finalize s t fwd).thr k).joiners = (s.thr k).joiners) ∧
    (((finalize s t fwd).thr k).roused = (s.thr k).roused ∨ k = 0) := by
  have hs := same_foldl joinerOne same_joinerOne (s.thr t).joiners
    (s.mod t fun x => { x with pending := [], state := .dead, joiners := [] })
  unfold finalize
  simp only
  generalize (s.thr t).joiners.foldl joinerOne
    (s.mod t fun x => { x with pending := [], state := .dead, joiners := [] }) = u at hs
  have hcv := hs.cv k
  have base : (u.thr k).permit = (s.thr k).permit ∧
      (k ≠ t → (u.thr k).joiners = (s.thr k).joiners) ∧ (u.thr k).roused = (s.thr k).roused := by
    simp only [Thread.cv, CV.mk.injEq] at hcv
    obtain ⟨h1, h2, h3⟩ := hcv
    by_cases e : k = t
    · subst e; simp at h1 h2 h3; exact ⟨h1, fun e => absurd rfl e, h2⟩
    · simp [e] at h1 h2 h3; exact ⟨h1, fun _ => h3, h2⟩
  obtain ⟨b1, b2, b3⟩ := base
  cases fwd with
  | none => exact ⟨b1, b2, Or.inl b3⟩
  | some i =>
    simp only
    split
    · exact ⟨b1, b2, Or.inl b3⟩
    · by_cases e0 : k = 0
      · subst e0
        split
        · simp [b1]; exact b2
        · simp [b1]; exact b2
      · split
        · simp only [mod_thr, if_neg e0]; exact ⟨b1, b2, Or.inl b3⟩
        · simp only [mod_thr, if_neg e0]; exact ⟨b1, b2, Or.inl b3⟩

theorem dispatch_cv (s : St) (t k : Nat) :
    ((dispatch s t).thr k).permit = (s.thr k).permit ∧
    (((dispatch s t).thr k).joiners = (s.thr k).joiners ∨ k = t) ∧
    (((dispatch s t).thr k).roused = (s.thr k).roused ∨ k = 0) := by
  unfold dispatch
  split
  · split
    · rename_i id i rest hp
      obtain ⟨h1, h2, h3⟩ := finalize_cv (s.mod t fun x => { x with got := x.got ++ [id] }) t
        (if i ≠ .kill ∧ (s.thr t).abort then some i else none) k
      by_cases e : k = t
      · subst e
        simp only [mod_thr, if_true] at h1 h3
        exact ⟨h1, Or.inr rfl, h3⟩
      · simp only [mod_thr, if_neg e] at h1 h2 h3
        exact ⟨h1, Or.inl (h2 e), h3⟩
    · by_cases e : k = t <;> simp [e]
  · split
    · exact ⟨rfl, Or.inl rfl, Or.inl rfl⟩
    · have key : ((match deliver { s.thr t with state := .runnable, resume := false }
          (s.thr t).blocking with
          | (x, true) => afterErr ((({ s.mod t (fun x => { x with state := .runnable, resume := false })
              with current := t } : St)).mod t fun _ => x) t (s.thr t).pc
          | (_, false) => afterPark ({ s.mod t (fun x => { x with state := .runnable, resume := false })
              with current := t } : St) t).thr k).cv = (s.thr k).cv := by
        have hd := deliver_cv { s.thr t with state := .runnable, resume := false } (s.thr t).blocking
        rcases deliver_cases { s.thr t with state := .runnable, resume := false } (s.thr t).blocking
          with ⟨id, rs, _, e⟩ | ⟨_, e⟩
        · rw [e] at hd ⊢
          simp only [afterErr_thr]
          by_cases e0 : k = t
          · subst e0; simp only [mod_thr, if_true]; exact hd.trans rfl
          · simp [e0]
        · rw [e]
          simp only [afterPark_cv]
          by_cases e0 : k = t
          · subst e0; simp [Thread.cv]
          · simp [e0]
      simp only [Thread.cv, CV.mk.injEq] at key
      simp only [mod_thr, if_true]
      exact ⟨key.1, Or.inl key.2.2, Or.inl key.2.1⟩

/-! ## Permits and rousing -/

/-- A permit stays until the thread's own `sleep` takes it, and only a wakeup or an interrupt rouses a
thread. -/
theorem step_cv {nf : Bool} {s s' : St} {a : Act} (h : P nf s) (hs : step s a = some s') {k : Nat}
    (hk : k < s.n) :
    ((s.thr k).permit = true → (s'.thr k).permit = true ∨
      (∃ dl, a = .call (.sleep dl)) ∧ running s = some k ∧ (s'.thr k).state = (s.thr k).state ∧
        (s'.thr k).pc = .user ∧ s'.host = s.host ∧ s'.current = s.current) ∧
    ((s.thr k).roused = false → (s'.thr k).roused = true → (∃ p, a = .call (.wakeup k p)) ∨
      (∃ i, a = .call (.interrupt k i)) ∨ k = 0) := by
  unfold Sched.step at hs
  split at hs
  · cases hs
  have same : ∀ {x x' : Thread}, x'.cv = x.cv → (x.permit = true → x'.permit = true) ∧
      (x.roused = false → x'.roused = true → False) := by
    intro x x' e
    simp only [Thread.cv, CV.mk.injEq] at e
    refine ⟨fun h => by rw [e.1]; exact h, fun h h' => ?_⟩
    rw [e.2.1, h] at h'; cases h'
  have fin : (s'.thr k).cv = (s.thr k).cv →
      ((s.thr k).permit = true → (s'.thr k).permit = true ∨
      (∃ dl, a = .call (.sleep dl)) ∧ running s = some k ∧ (s'.thr k).state = (s.thr k).state ∧
        (s'.thr k).pc = .user ∧ s'.host = s.host ∧ s'.current = s.current) ∧
      ((s.thr k).roused = false → (s'.thr k).roused = true → (∃ p, a = .call (.wakeup k p)) ∨
      (∃ i, a = .call (.interrupt k i)) ∨ k = 0) := by
    intro e
    have := same e
    exact ⟨fun h => Or.inl (this.1 h), fun h h' => absurd (this.2 h h') id⟩
  cases a with
  | tick d => simp only [Option.some.injEq] at hs; subst hs; exact fin rfl
  | loopIter fds =>
    simp only at hs
    split at hs
    · injection hs with hs
      subst hs
      have hm := machine_cv s fds k
      revert fin
      unfold Sched.loopIter
      simp only
      generalize Sched.poll (Sched.wakeDue s) fds = u at hm
      split
      · intro fin; exact fin ((mainBack_cv _ _ _).trans hm)
      · split
        · rename_i t rest _
          intro _
          obtain ⟨h1, _, h3⟩ := dispatch_cv { u with ready := rest } t k
          simp only [Thread.cv, CV.mk.injEq] at hm
          refine ⟨fun hp => Or.inl (by rw [h1]; show (u.thr k).permit = true; rw [hm.1]; exact hp), ?_⟩
          intro hr hr'
          rcases h3 with h3 | h3
          · rw [h3] at hr'
            have hr'' : (u.thr k).roused = true := hr'
            rw [hm.2.1, hr] at hr''; cases hr''
          · exact Or.inr (Or.inr h3)
        · intro fin; exact fin hm
    · cases hs
  | idle fds =>
    simp only at hs
    split at hs
    · injection hs with hs; subst hs; exact fin ((poll_same s fds).cv k)
    · cases hs
  | loopErr =>
    simp only at hs
    split at hs
    · injection hs with hs
      subst hs
      refine fin ?_
      rw [afterErr_thr]
      by_cases e : k = 0
      · subst e; simp [Thread.cv]
      · simp [e]
    · cases hs
  | passNext =>
    simp only at hs
    split at hs
    · split at hs
      · split at hs
        · rename_i k' t rest _ _
          injection hs with hs; subst hs
          obtain ⟨h1, _, h3⟩ := dispatch_cv { s with ready := rest, host := .pass k' } t k
          refine ⟨fun hp => Or.inl (by rw [h1]; exact hp), ?_⟩
          intro hr hr'
          rcases h3 with h3 | h3
          · rw [h3] at hr'
            have hr'' : (s.thr k).roused = true := hr'
            rw [hr] at hr''; cases hr''
          · exact Or.inr (Or.inr h3)
        · injection hs with hs; subst hs; exact fin (mainBack_cv _ _ _)
      · cases hs
    · cases hs
  | joinLoop =>
    simp only at hs
    split at hs
    · rename_i c hc
      split at hs
      · rename_i t dl hpc
        injection hs with hs
        subst hs
        have base : ((joinLoop s c t dl).thr k).permit = (s.thr k).permit ∧
            ((joinLoop s c t dl).thr k).roused = (s.thr k).roused := by
          unfold Sched.joinLoop
          rcases deliver_cases (s.thr c) true with ⟨id, rs, _, e⟩ | ⟨hn, e⟩
          · rw [e]
            by_cases e0 : k = c
            · subst e0; simp
            · simp [e0]
          · rw [e]
            simp only
            split
            · by_cases e0 : k = c <;> simp [e0]
            · split
              · by_cases e0 : k = c <;> simp [e0]
              · rw [switch_thr]
                by_cases e0 : k = c <;> by_cases e1 : k = t <;> by_cases e2 : c = 0 <;>
                  simp [e0, e1, e2] <;> simp_all
        refine ⟨fun hp => Or.inl (by rw [base.1]; exact hp), ?_⟩
        intro hr hr'; rw [base.2, hr] at hr'; cases hr'
      · cases hs
    · cases hs
  | call q =>
    simp only at hs
    split at hs
    · rename_i c hc
      split at hs
      · rename_i hu
        cases q with
        | spawn ab =>
          simp only [doCall, Option.some.injEq] at hs; subst hs
          refine fin ?_
          have : k ≠ s.n := by omega
          simp [Sched.spawn, this]
        | wakeup t p =>
          simp only [doCall] at hs
          split at hs
          · injection hs with hs; subst hs
            by_cases e : k = t
            · subst e
              refine ⟨?_, fun _ _ => Or.inl ⟨p, rfl⟩⟩
              intro hp
              left
              unfold Sched.wakeup
              split
              · simpa using hp
              · split
                · simp
                · exact hp
              · exact hp
            · refine fin ?_
              unfold Sched.wakeup
              split
              · simp [e]
              · split <;> simp [e]
              · rfl
          · cases hs
        | sleep dl =>
          simp only [doCall, Option.some.injEq] at hs; subst hs
          unfold Sched.sleep
          rcases deliver_cases (s.thr c) true with ⟨id, rs, _, e⟩ | ⟨hn, e⟩
          · rw [e]
            by_cases e0 : k = c
            · subst e0; simp
              exact ⟨fun hp => Or.inl hp, fun h1 h2 => by rw [h1] at h2; cases h2⟩
            · simp [e0]
              exact ⟨fun hp => Or.inl hp, fun h1 h2 => by rw [h1] at h2; cases h2⟩
          · rw [e]
            simp only
            by_cases e0 : k = c
            · subst e0
              split
              · refine ⟨fun _ => Or.inr ⟨⟨dl, rfl⟩, hc, by simp, by simp [hu], by simp, by simp⟩, ?_⟩
                intro hr hr'; simp [hr] at hr'
              · rename_i hnp
                simp only [mod_thr, if_true] at hnp
                refine ⟨fun hp => absurd hp hnp, ?_⟩
                intro hr hr'
                rw [switch_thr] at hr'
                by_cases e1 : k = 0
                · exact Or.inr (Or.inr e1)
                · simp [e1] at hr'
            · have hcv : ∀ v : St, (v.thr k).cv = (s.thr k).cv → ((v.thr k).permit = (s.thr k).permit
                  ∧ (v.thr k).roused = (s.thr k).roused) := by
                intro v hv; simp only [Thread.cv, CV.mk.injEq] at hv; exact ⟨hv.1, hv.2.1⟩
              split
              · simp [e0]
                exact ⟨fun hp => Or.inl hp, fun h1 h2 => by rw [h1] at h2; cases h2⟩
              · obtain ⟨g1, g2⟩ := hcv (switch { (s.mod c fun x => { x with blocking := true }).mod c
                    (fun x => { x with state := .sleeping, pc := .sleep dl, roused := false }) with
                    sleepers := s.sleepers ++ [(dl, c)] } c) (by rw [switch_cv]; simp [e0])
                refine ⟨fun hp => Or.inl (g1.trans hp), ?_⟩
                intro hr hr'
                have := g2.symm.trans hr'
                rw [hr] at this; cases this
        | pass fds =>
          simp only [doCall, Option.some.injEq] at hs; subst hs
          refine fin ?_
          unfold Sched.pass
          have hd := deliver_cv (s.thr c) false
          rcases deliver_cases (s.thr c) false with ⟨id, rs, _, e⟩ | ⟨hn, e⟩
          · rw [e] at hd ⊢
            by_cases e0 : k = c
            · subst e0; simpa using hd
            · simp [e0]
          · rw [e]
            simp only
            split
            · show ((poll (wakeDue (s.mod c fun x => { x with blocking := false })) fds).thr k).cv = _
              rw [machine_cv]
              by_cases e : k = c
              · subst e; simp [Thread.cv]
              · simp [e]
            · rw [switch_cv]
              by_cases e : k = c
              · subst e; simp [Thread.cv]
              · simp [e]
        | join t dl =>
          simp only [doCall] at hs
          split at hs
          · injection hs with hs; subst hs
            refine fin ?_
            unfold joinEnter
            split
            · rfl
            · by_cases e : k = c
              · subst e; simp [Thread.cv]
              · simp [e]
          · cases hs
        | waitFds fds dl =>
          simp only [doCall, Option.some.injEq] at hs; subst hs
          refine fin ?_
          unfold Sched.waitFds
          have hd := deliver_cv (s.thr c) true
          rcases deliver_cases (s.thr c) true with ⟨id, rs, _, e⟩ | ⟨hn, e⟩
          · rw [e] at hd ⊢
            by_cases e0 : k = c
            · subst e0; simpa using hd
            · simp [e0]
          · rw [e]
            simp only
            rw [switch_cv]
            by_cases e : k = c
            · subst e; simp [Thread.cv]
            · simp [e]
        | interrupt t i =>
          simp only [doCall] at hs
          split at hs
          · injection hs with hs; subst hs
            by_cases e : k = t
            · subst e
              refine ⟨?_, fun _ _ => Or.inr (Or.inl ⟨i, rfl⟩)⟩
              intro hp
              left
              unfold Sched.interrupt
              split
              · rename_i e0; subst e0; simpa using hp
              · split
                · exact hp
                · simp only
                  split <;> simpa using hp
            · refine fin ?_
              unfold Sched.interrupt
              split
              · rename_i e0; subst e0; simp [e]
              · split
                · rfl
                · simp only
                  split <;> simp [e]
          · cases hs
        | pushMask ms =>
          simp only [doCall, Option.some.injEq] at hs; subst hs
          refine fin ?_
          by_cases e : k = c
          · subst e; simp [Thread.cv]
          · simp [e]
        | popMask =>
          simp only [doCall, Option.some.injEq] at hs; subst hs
          refine fin ?_
          by_cases e : k = c
          · subst e; simp [Thread.cv]
          · simp [e]
        | setUnint on =>
          simp only [doCall, Option.some.injEq] at hs; subst hs
          refine fin ?_
          by_cases e : k = c
          · subst e; simp [Thread.cv]
          · simp [e]
        | checkpoint b =>
          simp only [doCall, Option.some.injEq] at hs; subst hs
          refine fin ?_
          by_cases e : k = c
          · subst e; simpa using deliver_cv _ _
          · simp [e]
        | exit fwd =>
          simp only [doCall] at hs
          split at hs
          · cases hs
          · injection hs with hs; subst hs
            obtain ⟨h1, _, h3⟩ := finalize_cv { s with current := 0 } c fwd k
            refine ⟨fun hp => Or.inl (by rw [h1]; exact hp), ?_⟩
            intro hr hr'
            rcases h3 with h3 | h3
            · rw [h3] at hr'
              have hr'' : (s.thr k).roused = true := hr'
              rw [hr] at hr''; cases hr''
            · exact Or.inr (Or.inr h3)
        | fork =>
          simp only [doCall, Option.some.injEq] at hs; subst hs
          refine fin ?_
          unfold forkChild
          simp only
          split <;> simp [Thread.cv]
      · cases hs
    · cases hs

end Verif.Sched
