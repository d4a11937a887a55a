import Verif.Sched.PStep

/-! # Every step does one of the things of `Evt` to each thread -/

namespace Verif.Sched

theorem Same.blocking {s s' : St} (h : Same s s') (t : Nat) :
    (s'.thr t).blocking = (s.thr t).blocking := by
  rcases h.thr t with h | h <;> rw [h]

theorem machine_thr (s : St) (fds : List Nat) (t : Nat) :
    (poll (wakeDue s) fds).thr t = s.thr t ∨
    (poll (wakeDue s) fds).thr t = { s.thr t with state := .runnable } := by
  have h1 : (wakeDue s).thr t = s.thr t ∨ (wakeDue s).thr t = { s.thr t with state := .runnable } :=
    (wakeDue_same s).thr t
  have h2 : (poll (wakeDue s) fds).thr t = (wakeDue s).thr t ∨
      (poll (wakeDue s) fds).thr t = { (wakeDue s).thr t with state := .runnable } :=
    (poll_same (wakeDue s) fds).thr t
  rcases h1 with h1 | h1 <;> rcases h2 with h2 | h2 <;> rw [h2, h1] <;> simp

theorem push_iv {x y : Thread} (h : x.iv = y.iv) (i : Intr) : (push x i).iv = (push y i).iv := by
  simp only [Thread.iv, IV.mk.injEq] at h
  obtain ⟨h1, h2, h3, h4, h5⟩ := h
  simp [Thread.iv, push, *]

/-- The dispatch of a thread of `u`, a state in which threads are as in `s` or made runnable. -/
theorem evt_dispatch {nf : Bool} {s u : St} {a : Act} {t : Nat} (h : P nf s)
    (hu : ∀ k, u.thr k = s.thr k ∨ ((s.thr k).state ≠ .created ∧
      u.thr k = { s.thr k with state := .runnable })) (k : Nat) :
    Evt s a k (s.thr k) ((dispatch u t).thr k) := by
  have hiv : (u.thr k).iv = (s.thr k).iv := by
    rcases hu k with e | ⟨_, e⟩ <;> rw [e]; rfl
  rcases dispatch_thr u t k with e | ⟨e, hc, hr, e1⟩ | ⟨e, i, e1⟩ | ⟨e, id, i, rest, hc, hp, e1, e2⟩
  · exact .quiet (e.trans hiv)
  · refine .give (u.thr k).blocking (e1.trans (deliver_iv hiv _)) ?_
    intro hb
    have h1 : (s.thr k).resume = true ∧ (s.thr k).blocking = true := by
      rcases hu k with e | ⟨_, e⟩ <;> rw [e] at hr hb <;> exact ⟨hr, hb⟩
    left
    rcases (h.good k).g1 h1.1 with ⟨_, h3⟩ | h3
    · rw [h1.2] at h3; cases h3
    · unfold PC.blk at h3
      split at h3 <;> simp_all
  · exact .push i (e1.trans (push_iv hiv i)) (Or.inr e)
  · have hs : u.thr k = s.thr k := by
      rcases hu k with e | ⟨_, e⟩
      · exact e
      · rw [e] at hc; cases hc
    rw [hs] at hc hp e1
    exact .dieFirst id i rest hc hp e1 e2

theorem evt_deliver {s : St} {a : Act} {c k : Nat} (b : Bool) (hb : b = true → atBlock s a c) :
    Evt s a k (s.thr k) ((s.mod c fun _ => (deliver (s.thr c) b).1).thr k) := by
  by_cases e : k = c
  · subst e; exact .give b (by simp) hb
  · exact .quiet (by simp [e])

theorem step_evt {nf : Bool} {s s' : St} {a : Act} (h : P nf s) (hs : step s a = some s')
    (k : Nat) : Evt s a k (s.thr k) (s'.thr k) := by
  unfold Sched.step at hs
  split at hs
  · cases hs
  -- a thread that is made runnable was not in the state `created`
  have hmach : ∀ fds k, (poll (wakeDue s) fds).thr k = s.thr k ∨ ((s.thr k).state ≠ .created ∧
      (poll (wakeDue s) fds).thr k = { s.thr k with state := .runnable }) := by
    intro fds k
    by_cases hc : (s.thr k).state = .created
    · left
      have h1 : (wakeDue s).thr k = s.thr k := by
        rw [wakeDue_thr, if_neg]
        intro hm
        have := ((mem_dueOf s k).1 hm).1
        rw [hc] at this; cases this
      have h2 : ∀ (l : List (Nat × Nat)) (u : St), (u.thr k).state = .created →
          (l.foldl (pollOne fds) u).thr k = u.thr k := by
        intro l
        induction l with
        | nil => intro u _; rfl
        | cons e l ih =>
          intro u hu
          have hk : (pollOne fds u e).thr k = u.thr k := by
            unfold pollOne; split
            · rename_i hcond
              have : k ≠ e.2 := by rintro rfl; rw [hu] at hcond; cases hcond.2
              simp [this]
            · rfl
          rw [List.foldl_cons, ih _ (by rw [hk]; exact hu), hk]
      rw [poll_eq, h2 _ _ (by show ((wakeDue s).thr k).state = _; rw [h1]; exact hc)]
      exact h1
    · rcases machine_thr s fds k with e | e
      · exact Or.inl e
      · exact Or.inr ⟨hc, e⟩
  have hmiv : ∀ fds, ((poll (wakeDue s) fds).thr k).iv = (s.thr k).iv :=
    fun fds => (poll_iv _ _ _).trans (wakeDue_iv _ _)
  cases a with
  | tick d => simp only [Option.some.injEq] at hs; subst hs; exact .quiet rfl
  | loopIter fds =>
    simp only at hs
    split at hs
    · rename_i hc
      injection hs with hs
      subst hs
      have hm := hmach fds
      have hmk := hmiv fds
      have hm0 : ((poll (wakeDue s) fds).thr 0).iv = (s.thr 0).iv :=
        (poll_iv _ _ _).trans (wakeDue_iv _ _)
      unfold Sched.loopIter
      simp only
      generalize Sched.poll (Sched.wakeDue s) fds = u at hm hmk hm0
      split
      · rcases mainBack_thr u true k with ⟨e, e1⟩ | ⟨e, e1⟩
        · exact .quiet (e1.trans hmk)
        · subst e
          refine .give true (e1.trans (deliver_iv hm0 _)) ?_
          intro _
          left
          have := h.hst (Or.inl hc.1)
          unfold PC.blk at this
          split at this <;> simp_all
      · split
        · refine evt_dispatch h ?_ k; exact hm
        · exact .quiet hmk
    · cases hs
  | idle fds =>
    simp only at hs
    split at hs
    · injection hs with hs; subst hs; exact .quiet (poll_iv _ _ _)
    · cases hs
  | loopErr =>
    simp only at hs
    split at hs
    · injection hs with hs
      subst hs
      refine .quiet ?_
      rw [afterErr_thr]
      by_cases e : k = 0
      · subst e; simp [Thread.iv]
      · simp [e]
    · cases hs
  | passNext =>
    simp only at hs
    split at hs
    · split at hs
      · split at hs
        · injection hs with hs; subst hs
          refine evt_dispatch h ?_ k; exact fun _ => Or.inl rfl
        · injection hs with hs; subst hs
          rcases mainBack_thr s false k with ⟨e, e1⟩ | ⟨e, e1⟩
          · exact .quiet e1
          · subst e; exact .give false e1 (by intro e; cases e)
      · cases hs
    · cases hs
  | joinLoop =>
    simp only at hs
    split at hs
    · rename_i c hc
      split at hs
      · rename_i t dl hpc
        injection hs with hs
        subst hs
        unfold Sched.joinLoop
        rcases deliver_cases (s.thr c) true with ⟨id, rs, _, e⟩ | ⟨hn, e⟩
        · have := evt_deliver (s := s) (a := .joinLoop) (c := c) (k := k) true
            (fun _ => Or.inl (by rw [hpc]; trivial))
          rw [e] at this ⊢; exact this
        · rw [e]
          simp only
          split
          · refine .quiet ?_
            by_cases e : k = c
            · subst e; simp [Thread.iv]
            · simp [e]
          · split
            · refine .quiet ?_
              by_cases e : k = c
              · subst e; simp [Thread.iv]
              · simp [e]
            · refine .quiet ?_
              rw [switch_iv]
              by_cases e : k = c <;> by_cases e2 : k = t <;> simp [e, e2, Thread.iv] <;>
                simp_all
      · cases hs
    · cases hs
  | call q =>
    simp only at hs
    split at hs
    · rename_i c hc
      split at hs
      · cases q with
        | spawn ab =>
          simp only [doCall, Option.some.injEq] at hs; subst hs
          by_cases e : k = s.n
          · subst e
            refine .born (Nat.le_refl _) ?_ ?_ ?_ ?_ <;> simp [Sched.spawn]
          · exact .quiet (by simp [Sched.spawn, e])
        | wakeup t p =>
          simp only [doCall] at hs
          split at hs
          · injection hs with hs; subst hs
            refine .quiet ?_
            unfold Sched.wakeup
            split
            · by_cases e : k = t
              · subst e; simp [Thread.iv]
              · simp [e]
            · split
              · by_cases e : k = t
                · subst e; simp [Thread.iv]
                · simp [e]
              · rfl
            · rfl
          · cases hs
        | sleep dl =>
          simp only [doCall, Option.some.injEq] at hs; subst hs
          unfold Sched.sleep
          rcases deliver_cases (s.thr c) true with ⟨id, rs, _, e⟩ | ⟨hn, e⟩
          · have := evt_deliver (s := s) (a := .call (.sleep dl)) (c := c) (k := k) true
              (fun _ => Or.inr ⟨hc, trivial⟩)
            rw [e] at this ⊢; exact this
          · rw [e]
            simp only
            split
            · refine .quiet ?_
              by_cases e : k = c
              · subst e; simp [Thread.iv]
              · simp [e]
            · refine .quiet ?_
              rw [switch_iv]
              by_cases e : k = c
              · subst e; simp [Thread.iv]
              · simp [e]
        | pass fds =>
          simp only [doCall, Option.some.injEq] at hs; subst hs
          unfold Sched.pass
          rcases deliver_cases (s.thr c) false with ⟨id, rs, _, e⟩ | ⟨hn, e⟩
          · have := evt_deliver (s := s) (a := .call (.pass fds)) (c := c) (k := k) false
              (by intro e; cases e)
            rw [e] at this ⊢; exact this
          · rw [e]
            simp only
            split
            · refine .quiet ?_
              show ((poll (wakeDue (s.mod c fun x => { x with blocking := false })) fds).thr k).iv = _
              rw [poll_iv, wakeDue_iv]
              by_cases e : k = c
              · subst e; simp [Thread.iv]
              · simp [e]
            · refine .quiet ?_
              rw [switch_iv]
              by_cases e : k = c
              · subst e; simp [Thread.iv]
              · simp [e]
        | join t dl =>
          simp only [doCall] at hs
          split at hs
          · injection hs with hs; subst hs
            refine .quiet ?_
            unfold joinEnter
            split
            · rfl
            · by_cases e : k = c
              · subst e; simp [Thread.iv]
              · simp [e]
          · cases hs
        | waitFds fds dl =>
          simp only [doCall, Option.some.injEq] at hs; subst hs
          unfold Sched.waitFds
          rcases deliver_cases (s.thr c) true with ⟨id, rs, _, e⟩ | ⟨hn, e⟩
          · have := evt_deliver (s := s) (a := .call (.waitFds fds dl)) (c := c) (k := k) true
              (fun _ => Or.inr ⟨hc, trivial⟩)
            rw [e] at this ⊢; exact this
          · rw [e]
            simp only
            refine .quiet ?_
            rw [switch_iv]
            by_cases e : k = c
            · subst e; simp [Thread.iv]
            · simp [e]
        | interrupt t i =>
          simp only [doCall] at hs
          split at hs
          · injection hs with hs; subst hs
            unfold Sched.interrupt
            split
            · rename_i e0
              subst e0
              by_cases e : k = t
              · subst e; exact .own i (by simp) rfl
              · exact .quiet (by simp [e])
            · split
              · exact .quiet rfl
              · simp only
                split
                · by_cases e : k = t
                  · subst e; exact .push i (by simp [Thread.iv, Sched.push]) (Or.inl rfl)
                  · exact .quiet (by simp [e])
                · by_cases e : k = t
                  · subst e; exact .push i (by simp) (Or.inl rfl)
                  · exact .quiet (by simp [e])
          · cases hs
        | pushMask ms =>
          simp only [doCall, Option.some.injEq] at hs; subst hs
          by_cases e : k = c
          · subst e; refine .mask ?_ ?_ ?_ hc <;> simp
          · exact .quiet (by simp [e])
        | popMask =>
          simp only [doCall, Option.some.injEq] at hs; subst hs
          by_cases e : k = c
          · subst e; refine .mask ?_ ?_ ?_ hc <;> simp
          · exact .quiet (by simp [e])
        | setUnint on =>
          simp only [doCall, Option.some.injEq] at hs; subst hs
          by_cases e : k = c
          · subst e; refine .mask ?_ ?_ ?_ hc <;> simp
          · exact .quiet (by simp [e])
        | checkpoint b =>
          simp only [doCall, Option.some.injEq] at hs; subst hs
          by_cases e : k = c
          · subst e
            refine .give b (by simp) ?_
            intro hb; subst hb; exact Or.inr ⟨hc, trivial⟩
          · exact .quiet (by simp [e])
        | exit fwd =>
          simp only [doCall] at hs
          split at hs
          · cases hs
          · injection hs with hs; subst hs
            rcases finalize_thr { s with current := 0 } c fwd k with ⟨e, h1, h2⟩ | ⟨e, h1 | ⟨h0, i, h1⟩⟩
            · exact .die h2 h1
            · exact .quiet h1
            · exact .push i h1 (Or.inr h0)
        | fork =>
          simp only [doCall, Option.some.injEq] at hs; subst hs
          refine .quiet ?_
          unfold forkChild
          simp only
          split <;> simp [Thread.iv]
      · cases hs
    · cases hs

end Verif.Sched
