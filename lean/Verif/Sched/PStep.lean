import Verif.Sched.Pos

/-! # The invariant of all schedules, step by step -/

namespace Verif.Sched

theorem takeFirst_none {p : Intr → Bool} : ∀ {l : List (Nat × Intr)}, takeFirst p l = none →
    ∀ q ∈ l, p q.2 = false := by
  intro l
  induction l with
  | nil => intro _ q hq; cases hq
  | cons a l ih =>
    obtain ⟨id, i⟩ := a
    intro h q hq
    unfold takeFirst at h
    split at h
    · cases h
    · rename_i hp
      split at h
      · cases h
      · rename_i hn
        rcases List.mem_cons.1 hq with e | e
        · subst e; simpa using hp
        · exact ih hn q e

theorem takeFirst_some {p : Intr → Bool} : ∀ {l : List (Nat × Intr)} {id : Nat}
    {rest : List (Nat × Intr)}, takeFirst p l = some (id, rest) →
    ∃ pre i post, l = pre ++ (id, i) :: post ∧ rest = pre ++ post ∧
      (∀ q ∈ pre, p q.2 = false) ∧ p i = true := by
  intro l
  induction l with
  | nil => intro _ _ h; cases h
  | cons a l ih =>
    obtain ⟨id0, i⟩ := a
    intro id rest h
    unfold takeFirst at h
    split at h
    · rename_i hp
      simp only [Option.some.injEq, Prod.mk.injEq] at h
      obtain ⟨rfl, rfl⟩ := h
      exact ⟨[], i, l, rfl, rfl, by simp, hp⟩
    · rename_i hp
      split at h
      · rename_i d r hr
        simp only [Option.some.injEq, Prod.mk.injEq] at h
        obtain ⟨rfl, rfl⟩ := h
        obtain ⟨pre, j, post, e1, e2, e3, e4⟩ := ih hr
        refine ⟨(id0, i) :: pre, j, post, by rw [e1]; rfl, by rw [e2]; rfl, ?_, e4⟩
        intro q hq
        rcases List.mem_cons.1 hq with e | e
        · subst e; simpa using hp
        · exact e3 q e
      · cases h

theorem not_deliverable {x : Thread} {i : Intr} (h : deliverable x true i = false) :
    intrTiming x i = .never := by
  unfold deliverable at h
  cases e : intrTiming x i <;> rw [e] at h <;> simp_all

theorem none_never {x : Thread} (h : takeFirst (deliverable x true) x.pending = none) :
    ∀ p ∈ x.pending, intrTiming x p.2 = .never :=
  fun p hp => not_deliverable (takeFirst_none h p hp)

theorem P.sleep {nf : Bool} {s : St} {c : Nat} (dl : Option Nat) (h : P nf s)
    (hc : running s = some c) : P nf (sleep s c dl) := by
  obtain ⟨f1, f2, f3, f4, f5, f6⟩ := h.runs hc
  unfold Sched.sleep
  rcases deliver_cases (s.thr c) true with ⟨id, rs, _, e⟩ | ⟨hn, e⟩
  · rw [e]; exact h.own hc rfl rfl
  · rw [e]
    have h1 : P nf (s.mod c fun x => { x with blocking := true }) := h.own hc rfl rfl
    simp only
    split
    · exact h1.own (running_mod _ _ hc) rfl rfl
    · refine h.park (c := c) hc ?_ ?_ ?_ ?_ ?_ (switch_host _ _) ?_ (switch_rest _ _).1
        (Or.inl (switch_rest _ _).2.1)
      · intro t ht; rw [switch_thr]; simp [ht]; exact Alike.rfl' _
      · rw [switch_thr]; by_cases e0 : c = 0
        · subst e0; simpa using f2
        · simp [e0]
      · left; rw [switch_thr]; by_cases e0 : c = 0 <;> simp [e0, PC.blk]
      · left; rw [switch_thr]; by_cases e0 : c = 0 <;> simp [e0, TS.parked]
      · intro _ p hp
        rw [switch_thr] at hp ⊢
        have := none_never hn p
        by_cases e0 : c = 0
        · subst e0; simp [intrTiming] at hp this ⊢; exact this hp
        · simp [e0, intrTiming] at hp this ⊢; exact this hp
      · exact switch_current _ _ fun e0 => by simp [← f1, e0]

theorem P.waitFds {nf : Bool} {s : St} {c : Nat} (fds : List Nat) (dl : Option Nat) (h : P nf s)
    (hc : running s = some c) : P nf (waitFds s c fds dl) := by
  obtain ⟨f1, f2, f3, f4, f5, f6⟩ := h.runs hc
  unfold Sched.waitFds
  rcases deliver_cases (s.thr c) true with ⟨id, rs, _, e⟩ | ⟨hn, e⟩
  · rw [e]; exact h.own hc rfl rfl
  · rw [e]
    simp only
    refine h.park (c := c) hc ?_ ?_ ?_ ?_ ?_ (switch_host _ _) ?_ (switch_rest _ _).1
      (Or.inl (switch_rest _ _).2.1)
    · intro t ht; rw [switch_thr]; simp [ht]; exact Alike.rfl' _
    · rw [switch_thr]; by_cases e0 : c = 0
      · subst e0; simpa using f2
      · simp [e0]
    · left; rw [switch_thr]; by_cases e0 : c = 0 <;> simp [e0, PC.blk]
    · left; rw [switch_thr]; by_cases e0 : c = 0 <;> simp [e0, TS.parked]
    · intro _ p hp
      rw [switch_thr] at hp ⊢
      have := none_never hn p
      by_cases e0 : c = 0
      · subst e0; simp [intrTiming] at hp this ⊢; exact this hp
      · simp [e0, intrTiming] at hp this ⊢; exact this hp
    · exact switch_current _ _ fun e0 => by simp [← f1, e0]

theorem P.joinLoop {nf : Bool} {s : St} {c t : Nat} {dl : Option Nat} (h : P nf s)
    (hc : running s = some c) (hpc : (s.thr c).pc = .join t dl) :
    P nf (joinLoop s c t dl) := by
  obtain ⟨f1, f2, f3, f4, f5, f6⟩ := h.runs hc
  unfold Sched.joinLoop
  rcases deliver_cases (s.thr c) true with ⟨id, rs, _, e⟩ | ⟨hn, e⟩
  · rw [e]; exact h.own hc rfl rfl
  · rw [e]
    have h1 : P nf (s.mod c fun x => { x with blocking := true }) := h.own hc rfl rfl
    simp only
    split
    · exact h1.own (running_mod _ _ hc) rfl rfl
    · split
      · exact h1.own (running_mod _ _ hc) rfl rfl
      · generalize hv : (((s.mod c fun x => { x with blocking := true }).mod c
          fun x => { x with state := .joining }).mod t
            fun x => { x with joiners := x.joiners ++ [c] }) = v
        have hvc : (v.thr c).state = .joining ∧ (v.thr c).pc = .join t dl ∧
            (v.thr c).resume = (s.thr c).resume ∧ (v.thr c).pending = (s.thr c).pending ∧
            (v.thr c).masks = (s.thr c).masks ∧ (v.thr c).unint = (s.thr c).unint := by
          rw [← hv]; by_cases e0 : c = t <;> simp [e0] <;> (try (rw [← e0])) <;> simp [hpc] <;>
            simp [e0]
        have hvo : ∀ k, k ≠ c → Alike (s.thr k) (v.thr k) := by
          intro k hk; rw [← hv]; by_cases e0 : k = t
          · constructor <;> simp [e0] <;> simp [← e0, hk]
          · constructor <;> simp [e0, hk]
        have hvs : v.host = s.host ∧ v.current = s.current ∧ v.n = s.n ∧ v.ready = s.ready := by
          rw [← hv]; simp
        obtain ⟨v2, v3, v4, v7⟩ := hvs
        obtain ⟨w1, w2, w3, w4, w5, w6⟩ := hvc
        refine h.park (c := c) hc ?_ ?_ ?_ ?_ ?_ ?_ ?_ ((switch_rest _ _).1.trans v4)
          (Or.inl ((switch_rest _ _).2.1.trans v7))
        · intro k hk; rw [switch_thr]; simp [hk]; exact hvo k hk
        · rw [switch_thr]; by_cases e0 : c = 0
          · subst e0; simpa using w3.trans f2
          · simp [e0]
        · left; rw [switch_thr]; by_cases e0 : c = 0
          · subst e0; simp [w2, PC.blk]
          · simp [e0, w2, PC.blk]
        · left; rw [switch_thr]; by_cases e0 : c = 0
          · subst e0; simp [w1, TS.parked]
          · simp [e0, w1, TS.parked]
        · intro _ p hp
          rw [switch_thr] at hp ⊢
          have := none_never hn p
          by_cases e0 : c = 0
          · subst e0; simp [intrTiming, w4, w5, w6] at hp this ⊢; exact this hp
          · simp [e0, intrTiming, w4, w5, w6] at hp this ⊢; exact this hp
        · rw [switch_host]; show (if c = 0 then Host.loop else v.host) = _; rw [v2]
        · exact switch_current _ _ fun e0 => by show v.current = 0; rw [v3, ← f1, e0]

/-- Changing what main's stack does. -/
theorem P.rehost {nf : Bool} {s : St} {hst : Host} {rd : List Nat} (h : P nf s)
    (h0 : s.current = 0) (hl : hst.low → s.host.low) (hr : ∀ t ∈ rd, t ∈ s.ready) :
    P nf { s with host := hst, ready := rd } := by
  refine ⟨?_, fun e => absurd h0 e, h.r0, h.s0, fun e => h.hst (hl e), h.n0, h.fresh,
    fun t ht => h.rdy t (hr t ht)⟩
  intro t
  exact (h.good t).mono fun e => e.imp id hl

theorem P.pass {nf : Bool} {s : St} {c : Nat} (fds : List Nat) (h : P nf s)
    (hc : running s = some c) : P nf (pass s c fds) := by
  obtain ⟨f1, f2, f3, f4, f5, f6⟩ := h.runs hc
  unfold Sched.pass
  rcases deliver_cases (s.thr c) false with ⟨id, rs, _, e⟩ | ⟨hn, e⟩
  · rw [e]; exact h.own hc rfl rfl
  · rw [e]
    have h1 : P nf (s.mod c fun x => { x with blocking := false }) := h.own hc rfl rfl
    simp only
    split
    · rename_i h0
      subst h0
      have h2 := (h1.wakeDue).poll fds
      have hc2 : (Sched.poll (Sched.wakeDue (s.mod 0 fun x => { x with blocking := false }))
          fds).current = 0 :=
        (poll_same _ _).current.trans ((wakeDue_same _).current.trans f1.symm)
      refine P.rehost h2 hc2 ?_ (fun _ h => h)
      rintro (e | e) <;> cases e
    · rename_i h0
      refine h.park (c := c) hc ?_ ?_ ?_ ?_ ?_ (switch_host _ _) ?_ (switch_rest _ _).1
        (Or.inr ⟨h0, (switch_rest _ _).2.1⟩)
      · intro t ht; rw [switch_thr]; simp [ht]; exact Alike.rfl' _
      · rw [switch_thr]; simp [h0]
      · right; refine ⟨h0, ?_⟩; rw [switch_thr]; simp [h0]
      · right; refine ⟨h0, ?_⟩; rw [switch_thr]; simp [h0, f5 h0]
      · intro hp; rw [switch_thr] at hp; simp [h0, f5 h0, TS.parked] at hp
      · exact switch_current _ _ fun e0 => absurd e0 h0

theorem P.spawn {nf : Bool} {s : St} (ab : Bool) (h : P nf s) : P nf (spawn s ab) := by
  have hn0 := h.n0
  have hcn : s.current ≠ s.n := by
    intro e
    have : s.current ≠ 0 := by omega
    have h1 := (h.cur this).1
    rw [e, h.fresh s.n (Nat.le_refl _)] at h1; cases h1
  have h0n : (0 : Nat) ≠ s.n := by omega
  refine ⟨?_, ?_, ?_, ?_, ?_, Nat.succ_pos _, ?_, ?_⟩
  · intro t; by_cases e : t = s.n
    · subst e
      simp only [Sched.spawn, if_true]
      refine ⟨?_, fun _ => ⟨rfl, rfl, rfl⟩, ?_, ?_⟩
      · intro e; cases e
      · intro _ e; cases e
      · intro _ e; cases e
    · simpa [Sched.spawn, e] using h.good t
  · intro e; simpa [Sched.spawn, hcn] using h.cur e
  · simpa [Sched.spawn, h0n] using h.r0
  · simpa [Sched.spawn, h0n] using h.s0
  · simpa [Sched.spawn, h0n] using h.hst
  · intro t ht
    have : t ≠ s.n := by simp [Sched.spawn] at ht; omega
    have h2 : s.n ≤ t := by simp [Sched.spawn] at ht; omega
    simpa [Sched.spawn, this] using h.fresh t h2
  · intro t ht
    simp only [Sched.spawn, List.mem_append, List.mem_singleton] at ht ⊢
    rcases ht with ht | ht
    · exact ⟨(h.rdy t ht).1, Nat.lt_succ_of_lt (h.rdy t ht).2⟩
    · subst ht; exact ⟨Ne.symm h0n, Nat.lt_succ_self _⟩

theorem P.wakeup {nf : Bool} {s : St} (t : Nat) (p : Bool) (h : P nf s) : P nf (wakeup s t p) := by
  unfold Sched.wakeup
  split
  · rename_i hs
    exact (h.modAlike (t := t) (f := fun x => { x with roused := true })
      ⟨rfl, rfl, rfl, rfl, rfl, rfl, rfl⟩).wake (by simp [hs])
  · split
    · exact h.modAlike ⟨rfl, rfl, rfl, rfl, rfl, rfl, rfl⟩
    · exact h
  · exact h

theorem P.interrupt {nf : Bool} {s : St} {c : Nat} (t : Nat) (i : Intr) (h : P nf s)
    (hc : running s = some c) : P nf (interrupt s c t i) := by
  obtain ⟨f1, f2, f3, f4, f5, f6⟩ := h.runs hc
  unfold Sched.interrupt
  split
  · rename_i e
    subst e
    have h1 : P nf (s.mod t fun x => push x i) := h.own hc rfl rfl
    exact h1.own (running_mod _ _ hc) (by simp) (by simp)
  · rename_i htc
    split
    · exact h
    · rename_i hd
      simp only
      -- pushing is harmless unless the thread is parked and the interrupt can be delivered
      have hpush : ∀ y : Thread, y.state = .runnable ∨
          (y.state = (s.thr t).state ∧ ((s.thr t).state.parked = true →
            ∀ p ∈ y.pending, intrTiming y p.2 = .never)) →
          y.resume = (s.thr t).resume → y.pc = (s.thr t).pc → y.blocking = (s.thr t).blocking →
          y.masks = (s.thr t).masks → y.unint = (s.thr t).unint →
          Good nf (t ≠ 0 ∨ s.host.low) y := by
        intro y hy e1 e2 e3 e4 e5
        have g := h.good t
        refine ⟨?_, ?_, ?_, ?_⟩
        · rw [e1, e2, e3]; exact g.g1
        · rcases hy with hy | ⟨hy, _⟩
          · rw [hy]; intro e; cases e
          · rw [hy, e4, e5, e1]; exact g.g2
        · rcases hy with hy | ⟨hy, hy2⟩
          · rw [hy]; intro _ e; cases e
          · rw [hy]; intro _ e; exact hy2 e
        · rcases hy with hy | ⟨hy, _⟩
          · rw [hy]; intro _ e; cases e
          · rw [hy]; intro _ e; exact absurd e hd
      have main : ∀ y : Thread, y.state = .runnable ∨
          (y.state = (s.thr t).state ∧ ((s.thr t).state.parked = true →
            ∀ p ∈ y.pending, intrTiming y p.2 = .never)) →
          y.resume = (s.thr t).resume → y.pc = (s.thr t).pc → y.blocking = (s.thr t).blocking →
          y.masks = (s.thr t).masks → y.unint = (s.thr t).unint →
          P nf (s.mod t fun _ => y) := by
        intro y hy e1 e2 e3 e4 e5
        have hg := hpush y hy e1 e2 e3 e4 e5
        have hcur : s.current ≠ t := by rw [← f1]; exact Ne.symm htc
        refine ⟨?_, ?_, ?_, ?_, ?_, h.n0, ?_, h.rdy⟩
        · intro k; by_cases e : k = t
          · subst e; simpa using hg
          · simpa [e] using h.good k
        · intro e; simpa [hcur] using h.cur e
        · by_cases e : 0 = t
          · subst e; simpa using e1.trans h.r0
          · simpa [e] using h.r0
        · by_cases e : 0 = t
          · subst e
            simp only [mod_thr, if_true]
            rcases hy with hy | ⟨hy, _⟩
            · rw [hy]; simp
            · rw [hy]; exact h.s0
          · simpa [e] using h.s0
        · intro hl
          by_cases e : 0 = t
          · subst e; simpa [e2] using h.hst hl
          · simpa [e] using h.hst hl
        · intro k hk
          have e : k ≠ t := by
            rintro rfl; exact hd (h.fresh k hk)
          simpa [e] using h.fresh k hk
      have hthr : ((s.mod t fun x => push x i).thr t) = push (s.thr t) i := by simp
      rw [hthr]
      by_cases hw : (wakeWorthy (push (s.thr t) i) && (push (s.thr t) i).state.parked) = true
      · rw [if_pos hw]
        have hlt := h.lt hd
        have h2 := main { push (s.thr t) i with state := .runnable, roused := true } (Or.inl rfl)
          rfl rfl rfl rfl rfl
        have h3 : P nf ((s.mod t fun _ => { push (s.thr t) i with
            state := .runnable, roused := true }).wake t) := h2.wake (by simp)
        refine h3.congr ?_ rfl rfl rfl rfl
        intro k
        by_cases e : k = t
        · subst e; constructor <;> simp [push]
        · constructor <;> simp [e]
      · rw [if_neg hw]
        have h2 := main (push (s.thr t) i) (Or.inr ⟨rfl, ?_⟩) rfl rfl rfl rfl rfl
        · refine h2.congr ?_ rfl rfl rfl rfl
          intro k
          by_cases e : k = t
          · subst e; simpa using Alike.rfl' _
          · simpa [e] using Alike.rfl' _
        · intro hp p hpp
          have hnw : wakeWorthy (push (s.thr t) i) = false := by
            cases e : wakeWorthy (push (s.thr t) i) with
            | false => rfl
            | true => rw [e] at hw; simp [hp] at hw
          unfold wakeWorthy at hnw
          rw [List.any_eq_false] at hnw
          simpa using hnw p hpp

theorem P.step {nf : Bool} {s s' : St} {a : Act} (h : P nf s)
    (hf : nf = true → a ≠ .call .fork) (hs : step s a = some s') : P nf s' := by
  unfold Sched.step at hs
  split at hs
  · cases hs
  cases a with
  | tick d =>
    simp only [Option.some.injEq] at hs
    subst hs
    exact h.congr (fun _ => Alike.rfl' _) rfl rfl rfl rfl
  | loopIter fds =>
    simp only at hs
    split at hs
    · rename_i hc
      injection hs with hs
      subst hs
      have h1 := h.wakeDue.poll fds
      have hc1 : (Sched.poll (Sched.wakeDue s) fds).current = 0 :=
        (poll_same _ _).current.trans ((wakeDue_same s).current.trans hc.2)
      have hh1 : (Sched.poll (Sched.wakeDue s) fds).host = .loop :=
        (poll_same _ _).host.trans ((wakeDue_same s).host.trans hc.1)
      unfold Sched.loopIter
      simp only
      generalize Sched.poll (Sched.wakeDue s) fds = u at h1 hc1 hh1
      split
      · exact h1.mainBack true hc1
      · split
        · rename_i t rest hrd
          have hr := h1.rdy t (by rw [hrd]; exact List.mem_cons_self)
          have h2 : P nf { u with host := .loop, ready := rest } :=
            h1.rehost hc1 (fun _ => Or.inl hh1) (by
              intro t ht; rw [hrd]; exact List.mem_cons_of_mem _ ht)
          have h3 := h2.dispatch hr.1 hr.2 hc1 (by simp)
          rw [← hh1] at h3; exact h3
        · exact h1.rehost hc1 (fun _ => Or.inl hh1) (fun _ h => h)
    · cases hs
  | idle fds =>
    simp only at hs
    split at hs
    · rename_i hh
      injection hs with hs
      subst hs
      have h0 : s.current = 0 := by
        apply Classical.byContradiction
        intro h0; exact (h.cur h0).2.2.2 hh
      have h1 := h.poll fds
      exact h1.rehost ((poll_same s fds).current.trans h0)
        (fun _ => Or.inr ((poll_same s fds).host.trans hh)) (fun _ h => h)
    · cases hs
  | loopErr =>
    simp only at hs
    split at hs
    · rename_i hc
      injection hs with hs
      subst hs
      have h1 : P nf { s with host := .main } := by
        refine h.rehost (hst := .main) (rd := s.ready) hc.2 ?_ (fun _ h => h)
        rintro (e | e) <;> cases e
      refine P.afterErr 0 _ (h1.own (c := 0) ?_ rfl rfl)
      rfl
    · cases hs
  | passNext =>
    simp only at hs
    split at hs
    · rename_i k hh
      split at hs
      · rename_i h0
        split at hs
        · rename_i k' t rest hrd
          injection hs with hs
          subst hs
          have hr := h.rdy t (by rw [hrd]; exact List.mem_cons_self)
          have h2 : P nf { s with host := .pass k', ready := rest } := by
            refine h.rehost h0 ?_ (by intro t ht; rw [hrd]; exact List.mem_cons_of_mem _ ht)
            rintro (e | e) <;> cases e
          exact h2.dispatch hr.1 hr.2 h0 (by simp)
        · injection hs with hs
          subst hs
          exact h.mainBack false h0
      · cases hs
    · cases hs
  | joinLoop =>
    simp only at hs
    split at hs
    · rename_i c hc
      split at hs
      · rename_i t dl hpc
        injection hs with hs
        subst hs
        exact h.joinLoop hc hpc
      · cases hs
    · cases hs
  | call k =>
    simp only at hs
    split at hs
    · rename_i c hc
      split at hs
      · cases k with
        | spawn ab => simp only [doCall, Option.some.injEq] at hs; subst hs; exact h.spawn ab
        | wakeup t p =>
          simp only [doCall] at hs
          split at hs
          · injection hs with hs; subst hs; exact h.wakeup t p
          · cases hs
        | sleep dl => simp only [doCall, Option.some.injEq] at hs; subst hs; exact h.sleep dl hc
        | pass fds => simp only [doCall, Option.some.injEq] at hs; subst hs; exact h.pass fds hc
        | join t dl =>
          simp only [doCall] at hs
          split at hs
          · injection hs with hs; subst hs
            unfold joinEnter
            split
            · exact h
            · exact h.own hc rfl rfl
          · cases hs
        | waitFds fds dl =>
          simp only [doCall, Option.some.injEq] at hs; subst hs; exact h.waitFds fds dl hc
        | interrupt t i =>
          simp only [doCall] at hs
          split at hs
          · injection hs with hs; subst hs; exact h.interrupt t i hc
          · cases hs
        | pushMask ms =>
          simp only [doCall, Option.some.injEq] at hs; subst hs; exact h.own hc rfl rfl
        | popMask =>
          simp only [doCall, Option.some.injEq] at hs; subst hs; exact h.own hc rfl rfl
        | setUnint on =>
          simp only [doCall, Option.some.injEq] at hs; subst hs; exact h.own hc rfl rfl
        | checkpoint b =>
          simp only [doCall, Option.some.injEq] at hs; subst hs
          exact h.own hc (by simp) (by simp)
        | exit fwd =>
          simp only [doCall] at hs
          split at hs
          · cases hs
          · rename_i h0
            injection hs with hs
            subst hs
            obtain ⟨f1, f2, f3, f4, f5, f6⟩ := h.runs hc
            have h1 : P nf { s with current := 0 } :=
              ⟨h.good, fun e => absurd rfl e, h.r0, h.s0, h.hst, h.n0, h.fresh, h.rdy⟩
            exact h1.finalize fwd h0 rfl f2
        | fork =>
          simp only [doCall, Option.some.injEq] at hs; subst hs
          have hnf : nf = false := by
            cases nf with
            | false => rfl
            | true => exact absurd rfl (hf rfl)
          subst hnf
          obtain ⟨f1, f2, f3, f4, f5, f6⟩ := h.runs hc
          refine ⟨?_, ?_, ?_, ?_, ?_, h.n0, ?_, h.rdy⟩
          · intro t; by_cases e : t = c
            · simpa [forkChild, e] using h.good c
            · have g := h.good t
              simp only [forkChild, if_neg e]
              refine ⟨g.g1, ?_, ?_, ?_⟩
              · intro e; cases e
              · intro _ e; cases e
              · intro e; cases e
          · intro e
            have := h.cur e
            simpa [forkChild, f1] using this
          · by_cases e : 0 = c
            · simpa [forkChild, e] using (e ▸ h.r0)
            · simpa [forkChild, e] using h.r0
          · by_cases e : 0 = c
            · simpa [forkChild, e] using (e ▸ h.s0.1)
            · simp [forkChild, e]
          · intro hl
            by_cases e : 0 = c
            · simpa [forkChild, e] using (e ▸ h.hst hl)
            · simpa [forkChild, e] using h.hst hl
          · intro t ht
            by_cases e : t = c
            · simpa [forkChild, e] using (e ▸ h.fresh t ht)
            · simp [forkChild, e]
      · cases hs
    · cases hs

theorem P.init (nf : Bool) : P nf Sched.init := by
  refine ⟨?_, fun e => absurd rfl e, rfl, ?_, ?_, Nat.one_pos, ?_, ?_⟩
  · intro t
    by_cases e : t = 0
    · subst e; refine ⟨?_, ?_, ?_, ?_⟩ <;> simp [Sched.init, TS.parked]
    · refine ⟨?_, ?_, ?_, ?_⟩ <;> simp [Sched.init, e, TS.parked]
  · simp [Sched.init]
  · rintro (e | e) <;> cases e
  · intro t ht
    have : t ≠ 0 := by simp [Sched.init] at ht; omega
    simp [Sched.init, this]
  · intro t ht; cases ht

/-- Schedules without fork. -/
def NoFork (as : List Act) : Prop := Act.call .fork ∉ as

theorem P.run {nf : Bool} : ∀ {as : List Act} {s s' : St}, P nf s → (nf = true → NoFork as) →
    run s as = some s' → P nf s' := by
  intro as
  induction as with
  | nil => intro s s' h _ hr; simp only [Sched.run, Option.some.injEq] at hr; subst hr; exact h
  | cons a as ih =>
    intro s s' h hf hr
    simp only [Sched.run] at hr
    split at hr
    · rename_i s1 hs
      refine ih (h.step ?_ hs) ?_ hr
      · intro e e2; exact hf e (by rw [e2]; exact List.mem_cons_self)
      · intro e e2; exact hf e (List.mem_cons_of_mem _ e2)
    · cases hr

theorem Reachable.p {s : St} (h : Reachable s) : P false s := by
  obtain ⟨as, hr⟩ := h
  exact (P.init false).run (by intro e; cases e) hr

end Verif.Sched
