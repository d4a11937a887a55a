import Verif.Sched.Hist

/-! # A dead thread stays dead, in a process that has not forked (helper lemmas for C26, C50) -/

namespace Verif.Sched

/-- Dead threads stay dead. -/
def D (s s' : St) : Prop := ∀ t, (s.thr t).state = .dead → (s'.thr t).state = .dead

theorem D.trans {a b c : St} (h : D a b) (k : D b c) : D a c := fun t ht => k t (h t ht)

theorem D.wake {s : St} {t : Nat} (h : (s.thr t).state ≠ .dead) : D s (s.wake t) := by
  intro k hk
  have e : k ≠ t := by rintro rfl; exact h hk
  simp [wake_thr, e, hk]

theorem D.joinerOne (s : St) (j : Nat) : D s (joinerOne s j) := by
  unfold Sched.joinerOne
  split
  · rename_i h; exact D.wake (by rw [h]; simp)
  · exact fun _ h => h

theorem D.pollOne (fds : List Nat) (s : St) (e : Nat × Nat) : D s (pollOne fds s e) := by
  unfold Sched.pollOne
  split
  · rename_i h; exact D.wake (by rw [h.2]; simp)
  · exact fun _ h => h

theorem D.foldl {α : Type} (f : St → α → St) (hf : ∀ s a, D s (f s a)) (l : List α) :
    ∀ s, D s (l.foldl f s) := by
  induction l with
  | nil => intro s; exact fun _ h => h
  | cons a l ih => intro s; exact (hf s a).trans (ih _)

theorem D.foldWake (l : List Nat) : ∀ s, (∀ t ∈ l, (s.thr t).state ≠ .dead) →
    D s (l.foldl St.wake s) := by
  induction l with
  | nil => intro s _; exact fun _ h => h
  | cons a l ih =>
    intro s hl
    refine (D.wake (hl a (by simp))).trans (ih _ ?_)
    intro t ht
    rw [wake_thr]
    split
    · simp
    · exact hl t (by simp [ht])

theorem D.machine (s : St) (fds : List Nat) : D s (poll (wakeDue s) fds) := by
  have h1 : D s (Sched.wakeDue s) := by
    rw [wakeDue_eq]
    refine D.foldWake (dueOf s) s.pruneSleepers ?_
    intro t ht
    unfold dueOf at ht
    rw [List.mem_map] at ht
    obtain ⟨e, he, rfl⟩ := ht
    rw [List.mem_filter] at he
    have := he.2
    simp only [Bool.and_eq_true] at this
    intro hd
    change (s.thr e.2).state = .dead at hd
    rw [hd] at this; simp [TS.parked] at this
  refine h1.trans ?_
  exact D.foldl (Sched.pollOne fds) (D.pollOne fds) _ (Sched.wakeDue s).pruneIo

theorem D.poll (s : St) (fds : List Nat) : D s (poll s fds) :=
  D.foldl (Sched.pollOne fds) (D.pollOne fds) _ s.pruneIo

theorem D.afterPark (s : St) (t : Nat) : D s (afterPark s t) :=
  fun k hk => by rw [afterPark_state]; exact hk

theorem D.afterErr (s : St) (t : Nat) (p : PC) : D s (afterErr s t p) :=
  fun k hk => by rw [afterErr_thr]; exact hk

theorem D.finalize (s : St) (t : Nat) (fwd : Option Intr) : D s (finalize s t fwd) := by
  have h0 : D s (s.mod t fun x => { x with pending := [], state := .dead, joiners := [] }) := by
    intro k hk
    by_cases e : k = t
    · subst e; simp
    · simp [e, hk]
  have h1 := h0.trans (D.foldl Sched.joinerOne D.joinerOne (s.thr t).joiners _)
  unfold Sched.finalize
  simp only
  split
  · exact h1
  · split
    · exact h1
    · generalize (s.thr t).joiners.foldl Sched.joinerOne
        (s.mod t fun x => { x with pending := [], state := .dead, joiners := [] }) = u at h1
      rename_i i _
      have h2 : D u (u.mod 0 fun x => push x i) := by
        intro k hk
        by_cases e : k = 0
        · subst e; simpa using hk
        · simpa [e] using hk
      split
      · rename_i hp
        refine (h1.trans h2).trans ?_
        intro k hk
        have e : k ≠ 0 := by rintro rfl; rw [hk] at hp; simp [TS.parked] at hp
        simpa [e] using hk
      · exact h1.trans h2

theorem D.dispatch {s : St} (t : Nat) (hP : ∀ t, (s.thr t).state = .dead → (s.thr t).resume = false) :
    D s (dispatch s t) := by
  unfold Sched.dispatch
  split
  · rename_i hc
    split
    · rename_i id i rest _
      refine D.trans ?_ (D.finalize _ _ _)
      intro k hk
      by_cases e : k = t
      · subst e; simpa using hk
      · simpa [e] using hk
    · intro k hk
      have e : k ≠ t := by rintro rfl; rw [hc] at hk; cases hk
      simpa [e] using hk
  · split
    · exact fun _ h => h
    · rename_i hr
      have hd : (s.thr t).state ≠ .dead := fun e => hr (hP t e)
      have h1 : D s ({ s.mod t (fun x => { x with state := .runnable, resume := false }) with
          current := t } : St) := by
        intro k hk
        have e : k ≠ t := by rintro rfl; exact hd hk
        simpa [e] using hk
      obtain ⟨u, hv⟩ : ∃ v : St, ({ s.mod t (fun x => { x with state := .runnable, resume := false })
          with current := t } : St) = v := ⟨_, rfl⟩
      suffices hgoal : D u (match deliver (u.thr t) (u.thr t).blocking with
          | (x, true) => Sched.afterErr (u.mod t fun _ => x) t (s.thr t).pc
          | (_, false) => Sched.afterPark u t) by
        rw [hv] at h1; subst hv; exact h1.trans hgoal
      split
      · rename_i x e
        refine D.trans ?_ (D.afterErr _ _ _)
        intro k hk
        by_cases e' : k = t
        · subst e'; subst hv; simp at hk
        · simpa [e'] using hk
      · exact D.afterPark _ _

theorem D.mainBack (s : St) (b : Bool) : D s (mainBack s b) := by
  unfold Sched.mainBack
  simp only
  rcases deliver_cases (s.thr 0) b with ⟨id, rs, _, e⟩ | ⟨_, e⟩
  · rw [e]
    refine D.trans ?_ (D.afterErr _ _ _)
    intro k hk
    by_cases e' : k = 0
    · subst e'; simpa using hk
    · simpa [e'] using hk
  · rw [e]; exact D.trans (b := { s with host := .main, current := 0 }) (fun _ h => h) (D.afterPark _ _)

/-- Changing only one thread that is not dead, or not reviving it. -/
theorem D.one {s s' : St} (c : Nat) (ht : ∀ k, k ≠ c → (s'.thr k).state = (s.thr k).state)
    (hc : (s.thr c).state = .dead → (s'.thr c).state = .dead) : D s s' := by
  intro k hk
  by_cases e : k = c
  · subst e; exact hc hk
  · rw [ht k e]; exact hk

theorem D.step {s s' : St} {a : Act} (hP : P true s) (hs : step s a = some s') :
    ∀ t, t < s.n → (s.thr t).state = .dead → (s'.thr t).state = .dead := by
  have hg4 : ∀ t, (s.thr t).state = .dead → (s.thr t).resume = false :=
    fun t ht => ((hP.good t).g4 rfl ht).1
  have hrun : ∀ c, running s = some c → (s.thr c).state ≠ .dead := by
    intro c hc
    unfold running at hc
    split at hc
    · injection hc with hc; subst hc; exact hP.s0.2 rfl
    · split at hc
      · cases hc
      · rename_i h0; injection hc with hc; subst hc; rw [(hP.cur h0).1]; simp
  suffices hD : (∀ t, t < s.n → (s.thr t).state = .dead → (s'.thr t).state = .dead) ∨ D s s' by
    rcases hD with h | h
    · exact h
    · exact fun t _ => h t
  unfold Sched.step at hs
  split at hs
  · cases hs
  cases a with
  | tick d => simp only [Option.some.injEq] at hs; subst hs; exact Or.inr fun _ h => h
  | loopIter fds =>
    right
    simp only at hs
    split at hs
    · injection hs with hs
      subst hs
      have hm := D.machine s fds
      have hres : ∀ t, ((Sched.poll (Sched.wakeDue s) fds).thr t).state = .dead →
          ((Sched.poll (Sched.wakeDue s) fds).thr t).resume = false := by
        intro t ht
        rcases machine_thr s fds t with e | e
        · rw [e] at ht ⊢; exact hg4 t ht
        · rw [e] at ht; cases ht
      unfold Sched.loopIter
      simp only
      generalize Sched.poll (Sched.wakeDue s) fds = u at hm hres
      split
      · exact hm.trans (D.mainBack _ _)
      · split
        · rename_i t rest _
          refine D.trans (b := { u with ready := rest }) hm (D.dispatch t hres)
        · exact hm
    · cases hs
  | idle fds =>
    right
    simp only at hs
    split at hs
    · injection hs with hs; subst hs
      exact D.poll s fds
    · cases hs
  | loopErr =>
    right
    simp only at hs
    split at hs
    · injection hs with hs
      subst hs
      refine D.trans ?_ (D.afterErr _ _ _)
      exact D.one 0 (fun k hk => by simp [hk]) (by simp)
    · cases hs
  | passNext =>
    right
    simp only at hs
    split at hs
    · split at hs
      · split at hs
        · rename_i k' t rest _ _
          injection hs with hs; subst hs
          exact D.trans (b := { s with ready := rest, host := .pass k' }) (fun _ h => h)
            (D.dispatch t hg4)
        · injection hs with hs; subst hs; exact D.mainBack _ _
      · cases hs
    · cases hs
  | joinLoop =>
    right
    simp only at hs
    split at hs
    · rename_i c hc
      have hnd := hrun c hc
      split at hs
      · rename_i t dl hpc
        injection hs with hs
        subst hs
        unfold Sched.joinLoop
        rcases deliver_cases (s.thr c) true with ⟨id, rs, _, e⟩ | ⟨hn, e⟩
        · rw [e]; exact D.one c (fun k hk => by simp [hk]) (fun e => absurd e hnd)
        · rw [e]
          simp only
          split
          · exact D.one c (fun k hk => by simp [hk]) (fun e => absurd e hnd)
          · split
            · exact D.one c (fun k hk => by simp [hk]) (fun e => absurd e hnd)
            · intro k hk
              show ((joinPark s c t dl).thr k).state = .dead
              rw [(joinPark_thr s c t dl k).2.1]
              have e : k ≠ c := by rintro rfl; exact hnd hk
              rw [if_neg e]; exact hk
      · cases hs
    · cases hs
  | call q =>
    simp only at hs
    split at hs
    · rename_i c hc
      have hnd := hrun c hc
      split at hs
      · cases q with
        | spawn ab =>
          left
          simp only [doCall, Option.some.injEq] at hs; subst hs
          intro t ht hd
          have : t ≠ s.n := by omega
          simpa [Sched.spawn, this] using hd
        | wakeup t p =>
          right
          simp only [doCall] at hs
          split at hs
          · injection hs with hs; subst hs
            unfold Sched.wakeup
            split
            · rename_i hsl
              refine D.trans (b := s.mod t fun x => { x with roused := true })
                (D.one t (fun k hk => by simp [hk]) (by simp)) (D.wake ?_)
              simp [hsl]
            · split
              · exact D.one t (fun k hk => by simp [hk]) (by simp)
              · exact fun _ h => h
            · exact fun _ h => h
          · cases hs
        | sleep dl =>
          right
          simp only [doCall, Option.some.injEq] at hs; subst hs
          refine D.one c (fun k hk => ?_) (fun e => absurd e hnd)
          unfold Sched.sleep
          split
          · simp [hk]
          · simp only
            split
            · simp [hk]
            · rw [switch_thr]; simp [hk]
        | pass fds =>
          right
          simp only [doCall, Option.some.injEq] at hs; subst hs
          unfold Sched.pass
          split
          · exact D.one c (fun k hk => by simp [hk]) (fun e => absurd e hnd)
          · simp only
            split
            · refine D.trans (b := s.mod c fun x => { x with blocking := false }) ?_ (D.machine _ fds)
              exact D.one c (fun k hk => by simp [hk]) (fun e => absurd e hnd)
            · exact D.one c (fun k hk => by rw [switch_thr]; simp [hk]) (fun e => absurd e hnd)
        | join t dl =>
          right
          simp only [doCall] at hs
          split at hs
          · injection hs with hs; subst hs
            unfold joinEnter
            split
            · exact fun _ h => h
            · exact D.one c (fun k hk => by simp [hk]) (fun e => absurd e hnd)
          · cases hs
        | waitFds fds dl =>
          right
          simp only [doCall, Option.some.injEq] at hs; subst hs
          refine D.one c (fun k hk => ?_) (fun e => absurd e hnd)
          unfold Sched.waitFds
          split
          · simp [hk]
          · simp only [switch_thr]; simp [hk]
        | interrupt t i =>
          right
          simp only [doCall] at hs
          split at hs
          · injection hs with hs; subst hs
            unfold Sched.interrupt
            split
            · exact D.one c (fun k hk => by simp [hk]) (fun e => absurd e hnd)
            · split
              · exact fun _ h => h
              · rename_i hd
                simp only
                have h1 : D s (s.mod t fun x => push x i) :=
                  D.one t (fun k hk => by simp [hk]) (by simp)
                split
                · refine h1.trans (D.trans (b := (s.mod t fun x => push x i).mod t
                    fun x => { x with roused := true })
                    (D.one t (fun k hk => by simp [hk]) (by simp)) (D.wake ?_))
                  simpa using hd
                · exact h1
          · cases hs
        | pushMask ms =>
          right
          simp only [doCall, Option.some.injEq] at hs; subst hs
          exact D.one c (fun k hk => by simp [hk]) (by simp)
        | popMask =>
          right
          simp only [doCall, Option.some.injEq] at hs; subst hs
          exact D.one c (fun k hk => by simp [hk]) (by simp)
        | setUnint on =>
          right
          simp only [doCall, Option.some.injEq] at hs; subst hs
          exact D.one c (fun k hk => by simp [hk]) (by simp)
        | checkpoint b =>
          right
          simp only [doCall, Option.some.injEq] at hs; subst hs
          exact D.one c (fun k hk => by simp [hk]) (fun e => absurd e hnd)
        | exit fwd =>
          right
          simp only [doCall] at hs
          split at hs
          · cases hs
          · injection hs with hs; subst hs
            exact D.trans (b := { s with current := 0 }) (fun _ h => h) (D.finalize _ c fwd)
        | fork =>
          right
          simp only [doCall, Option.some.injEq] at hs; subst hs
          intro k hk
          by_cases e : k = c
          · subst e; simpa [forkChild] using hk
          · simp [forkChild, e]
      · cases hs
    · cases hs

end Verif.Sched
