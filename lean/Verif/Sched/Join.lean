import Verif.Sched.Order

/-! # A joining thread waits for a live thread that knows it (helper lemmas for C25) -/

namespace Verif.Sched

/-- The thread's stack is parked by the scheduler's book-keeping: any green thread, and main while the
scheduler loop runs on its stack. -/
def St.down (s : St) (t : Nat) : Prop := t ≠ 0 ∨ s.host.low

/-- A thread that is `Joining` is inside `join` on a thread that is alive and has it in its list. -/
def J (s : St) : Prop := ∀ t, s.down t → (s.thr t).state = .joining →
  ∃ g dl, (s.thr t).pc = .join g dl ∧ (s.thr g).state ≠ .dead ∧ t ∈ (s.thr g).joiners

/-- What keeps `J`. -/
structure F (s s' : St) : Prop where
  f1 : ∀ t, s'.down t → (s'.thr t).state = .joining →
    s.down t ∧ (s.thr t).state = .joining ∧ (s'.thr t).pc = (s.thr t).pc
  f2 : ∀ g, (s'.thr g).state = .dead → (s.thr g).state = .dead
  f3 : ∀ g, (s.thr g).state ≠ .dead → ∀ j ∈ (s.thr g).joiners, j ∈ (s'.thr g).joiners

theorem J.frame {s s' : St} (h : J s) (f : F s s') : J s' := by
  intro t hd hj
  obtain ⟨hd', hj', hpc⟩ := f.f1 t hd hj
  obtain ⟨g, dl, h1, h2, h3⟩ := h t hd' hj'
  exact ⟨g, dl, hpc.trans h1, fun e => h2 (f.f2 g e), f.f3 g h2 t h3⟩

theorem F.trans {a b c : St} (h : F a b) (k : F b c) : F a c := by
  refine ⟨?_, fun g e => h.f2 g (k.f2 g e), ?_⟩
  · intro t hd hj
    obtain ⟨x1, x2, x3⟩ := k.f1 t hd hj
    obtain ⟨y1, y2, y3⟩ := h.f1 t x1 x2
    exact ⟨y1, y2, x3.trans y3⟩
  · intro g hg j hj
    exact k.f3 g (fun e => hg (h.f2 g e)) j (h.f3 g hg j hj)

theorem F.ofThr {s s' : St} (hh : ∀ t, s'.down t → s.down t) (ht : s'.thr = s.thr) : F s s' := by
  refine ⟨fun t hd hj => ⟨hh t hd, ?_, by rw [ht]⟩, fun g e => ?_, fun g _ j hj => ?_⟩
  · rw [ht] at hj; exact hj
  · rw [ht] at e; exact e
  · rw [ht]; exact hj

theorem F.same {s s' : St} (h : Same s s') : F s s' := by
  refine ⟨?_, ?_, ?_⟩
  · intro t hd hj
    rw [St.down, h.host] at hd
    rcases h.thr t with e | e
    · rw [e] at hj ⊢; exact ⟨hd, hj, rfl⟩
    · rw [e] at hj; cases hj
  · intro g e
    rcases h.thr g with e' | e'
    · rw [e'] at e; exact e
    · rw [e'] at e; cases e
  · intro g _ j hj
    have := h.cv g
    simp only [Thread.cv, CV.mk.injEq] at this
    rw [this.2.2]; exact hj

theorem F.wakeDue (s : St) : F s (wakeDue s) :=
  (F.ofThr (s := s) (s' := s.pruneSleepers) (fun _ h => h) rfl).trans (F.same (wakeDue_same s))

theorem F.poll (s : St) (fds : List Nat) : F s (poll s fds) :=
  (F.ofThr (s := s) (s' := s.pruneIo) (fun _ h => h) rfl).trans (F.same (poll_same s fds))

theorem F.mod (s : St) (t : Nat) (f : Thread → Thread)
    (h1 : (f (s.thr t)).state = .joining → (s.thr t).state = .joining ∧ (f (s.thr t)).pc = (s.thr t).pc)
    (h2 : (f (s.thr t)).state = .dead → (s.thr t).state = .dead)
    (h3 : (f (s.thr t)).joiners = (s.thr t).joiners) : F s (s.mod t f) := by
  refine ⟨?_, ?_, ?_⟩
  · intro k hd hj
    refine ⟨hd, ?_⟩
    by_cases e : k = t
    · subst e; simp at hj ⊢; exact h1 hj
    · simp [e] at hj ⊢; exact hj
  · intro g e
    by_cases e' : g = t
    · subst e'; simp at e; exact h2 e
    · simp [e'] at e; exact e
  · intro g _ j hj
    by_cases e' : g = t
    · subst e'; simp [h3]; exact hj
    · simp [e']; exact hj

/-- A change of a thread that is not joining, or whose state is left alone. -/
theorem J.mod {s : St} (h : J s) (t : Nat) (f : Thread → Thread)
    (h1 : (f (s.thr t)).state = .joining → (s.thr t).state = .joining ∧ (f (s.thr t)).pc = (s.thr t).pc)
    (h2 : (f (s.thr t)).state = .dead → (s.thr t).state = .dead)
    (h3 : (f (s.thr t)).joiners = (s.thr t).joiners) : J (s.mod t f) := h.frame (F.mod s t f h1 h2 h3)

theorem J.ofThr {s s' : St} (h : J s) (hh : ∀ t, s'.down t → s.down t) (ht : s'.thr = s.thr) : J s' :=
  h.frame (F.ofThr hh ht)

theorem J.finalize {s : St} (h : J s) (t : Nat) (fwd : Option Intr) : J (finalize s t fwd) := by
  intro k hd hj
  have hcv := fun g => (finalize_cv s t fwd g).2.1
  have hs := same_foldl joinerOne same_joinerOne (s.thr t).joiners
    (s.mod t fun x => { x with pending := [], state := .dead, joiners := [] })
  have hfj := fun k => @foldJoin_state (s.thr t).joiners
    (s.mod t fun x => { x with pending := [], state := .dead, joiners := [] }) k
  have key : s.down k ∧ (s.thr k).state = .joining ∧ k ∉ (s.thr t).joiners ∧
      ((Sched.finalize s t fwd).thr k).pc = (s.thr k).pc ∧
      ∀ g, g ≠ t → ((Sched.finalize s t fwd).thr g).state = .dead → (s.thr g).state = .dead := by
    revert hd hj
    clear hcv
    unfold Sched.finalize
    simp only
    generalize (s.thr t).joiners.foldl joinerOne
      (s.mod t fun x => { x with pending := [], state := .dead, joiners := [] }) = u at hs hfj
    have base : u.down k → (u.thr k).state = .joining → s.down k ∧ (s.thr k).state = .joining ∧
        k ∉ (s.thr t).joiners ∧ (u.thr k).pc = (s.thr k).pc := by
      intro hd hj
      obtain ⟨a1, a2⟩ := hfj k hj
      have hkt : k ≠ t := by rintro rfl; simp at a1
      simp only [mod_thr, if_neg hkt] at a1
      refine ⟨?_, a1, a2, ?_⟩
      · rw [St.down, hs.host] at hd; exact hd
      · rw [hs.pc]; simp [hkt]
    have base2 : ∀ g, g ≠ t → (u.thr g).state = .dead → (s.thr g).state = .dead := by
      intro g hg e
      rcases hs.state g with e' | e'
      · rw [e'] at e; simpa [hg] using e
      · rw [e'] at e; cases e
    cases fwd with
    | none =>
      intro hd hj
      obtain ⟨b1, b2, b3, b4⟩ := base hd hj
      exact ⟨b1, b2, b3, b4, base2⟩
    | some i =>
      simp only
      split
      · intro hd hj
        obtain ⟨b1, b2, b3, b4⟩ := base hd hj
        exact ⟨b1, b2, b3, b4, base2⟩
      · split
        · intro hd hj
          by_cases e0 : k = 0
          · subst e0; simp at hj
          · simp only [mod_thr, if_neg e0] at hj ⊢
            obtain ⟨b1, b2, b3, b4⟩ := base hd hj
            refine ⟨b1, b2, b3, b4, ?_⟩
            intro g hg e
            by_cases e1 : g = 0
            · subst e1; simp at e
            · simp only [if_neg e1] at e; exact base2 g hg e
        · intro hd hj
          by_cases e0 : k = 0
          · subst e0
            simp only [mod_thr, if_true, push_state, push_pc] at hj ⊢
            obtain ⟨b1, b2, b3, b4⟩ := base hd hj
            refine ⟨b1, b2, b3, b4, ?_⟩
            intro g hg e
            by_cases e1 : g = 0
            · subst e1; simp at e; exact base2 0 hg e
            · simp only [if_neg e1] at e; exact base2 g hg e
          · simp only [mod_thr, if_neg e0] at hj ⊢
            obtain ⟨b1, b2, b3, b4⟩ := base hd hj
            refine ⟨b1, b2, b3, b4, ?_⟩
            intro g hg e
            by_cases e1 : g = 0
            · subst e1; simp at e; exact base2 0 hg e
            · simp only [if_neg e1] at e; exact base2 g hg e
  obtain ⟨k1, k2, k3, k4, k5⟩ := key
  obtain ⟨g, dl, h1, h2, h3⟩ := h k k1 k2
  have hg : g ≠ t := by rintro rfl; exact k3 h3
  exact ⟨g, dl, k4.trans h1, fun e => h2 (k5 g hg e), by rw [hcv g hg]; exact h3⟩

theorem afterPark_state (s : St) (t k : Nat) : ((afterPark s t).thr k).state = (s.thr k).state := by
  by_cases e : k = t
  · subst e; unfold afterPark; split <;> simp [unregister]
  · rw [afterPark_thr s t k e]

theorem F.afterPark (s : St) (t : Nat) (ht : (s.thr t).state ≠ .joining ∨ ¬ s.down t) :
    F s (afterPark s t) := by
  have hh : (Sched.afterPark s t).host = s.host := by unfold Sched.afterPark; split <;> rfl
  refine ⟨?_, ?_, ?_⟩
  · intro k hd hj
    rw [St.down, hh] at hd
    rw [afterPark_state] at hj
    refine ⟨hd, hj, ?_⟩
    have e : k ≠ t := by
      rintro rfl
      rcases ht with ht | ht
      · exact ht hj
      · exact ht hd
    rw [afterPark_thr s t k e]
  · intro g e; rwa [afterPark_state] at e
  · intro g _ j hj
    have := afterPark_cv s t g
    simp only [Thread.cv, CV.mk.injEq] at this
    rw [this.2.2]; exact hj

theorem afterErr_host (s : St) (t : Nat) (pc : PC) : (afterErr s t pc).host = s.host := by
  unfold afterErr; split <;> rfl

theorem F.afterErr (s : St) (t : Nat) (pc : PC) : F s (afterErr s t pc) := by
  refine F.ofThr ?_ ?_
  · intro k h; rw [St.down, afterErr_host] at h; exact h
  · funext k; rw [afterErr_thr]

theorem J.dispatch {s : St} (h : J s) (t : Nat) : J (dispatch s t) := by
  unfold Sched.dispatch
  split
  · rename_i hc
    split
    · refine J.finalize (h.mod t _ ?_ ?_ rfl) t _
      · intro e; exact ⟨e, rfl⟩
      · exact fun e => e
    · have h1 := h.mod t (fun x => { x with state := .runnable }) (by simp) (by simp) rfl
      exact h1.ofThr (fun _ h => h) rfl
  · split
    · exact h.frame (F.ofThr (fun _ h => h) rfl)
    · have h1 : J ({ s.mod t (fun x => { x with state := .runnable, resume := false }) with
          current := t } : St) := by
        have h1 := h.mod t (fun x => { x with state := .runnable, resume := false })
          (by simp) (by simp) rfl
        exact h1.ofThr (fun _ h => h) rfl
      obtain ⟨u, hv⟩ : ∃ v : St, ({ s.mod t (fun x => { x with state := .runnable, resume := false })
          with current := t } : St) = v := ⟨_, rfl⟩
      suffices hgoal : J (match deliver (u.thr t) (u.thr t).blocking with
          | (x, true) => Sched.afterErr (u.mod t fun _ => x) t (s.thr t).pc
          | (_, false) => Sched.afterPark u t) by subst hv; exact hgoal
      have hr : (u.thr t).state = .runnable := by subst hv; simp
      rw [hv] at h1
      rcases deliver_cases (u.thr t) (u.thr t).blocking with ⟨id, rs, _, e⟩ | ⟨_, e⟩
      · rw [e]
        refine (h1.mod t _ ?_ ?_ rfl).frame (F.afterErr _ _ _)
        · intro e'; rw [show _ = TS.runnable from hr] at e'; cases e'
        · intro e'; exact e'
      · rw [e]
        exact h1.frame (F.afterPark _ _ (Or.inl (by rw [hr]; simp)))

theorem J.mainBack {s : St} (h : J s) (b : Bool) : J (mainBack s b) := by
  unfold Sched.mainBack
  simp only
  have h1 : J ({ s with host := .main, current := 0 } : St) := by
    refine h.frame (F.ofThr ?_ rfl)
    intro t hd
    rcases hd with hd | hd
    · exact Or.inl hd
    · simp [Host.low] at hd
  have hn : ¬ ({ s with host := .main, current := 0 } : St).down 0 := by
    simp [St.down, Host.low]
  rcases deliver_cases (s.thr 0) b with ⟨id, rs, _, e⟩ | ⟨_, e⟩
  · rw [e]
    simp only
    refine J.frame ?_ (F.afterErr _ _ _)
    intro k hd hj
    have hk : k ≠ 0 := by rintro rfl; exact hn hd
    simp only [mod_thr, if_neg hk] at hj ⊢
    obtain ⟨g, dl, a1, a2, a3⟩ := h1 k hd hj
    refine ⟨g, dl, a1, ?_, ?_⟩
    · by_cases e0 : g = 0
      · subst e0; simpa using a2
      · simpa [e0] using a2
    · by_cases e0 : g = 0
      · subst e0; simpa using a3
      · simpa [e0] using a3
  · rw [e]
    simp only
    exact h1.frame (F.afterPark _ _ (Or.inr hn))

/-- The current thread parks in a state other than `Joining`. -/
theorem J.park {s s' : St} (h : J s) (c : Nat) (ht : ∀ k, k ≠ c → s'.thr k = s.thr k)
    (hc : (s'.thr c).state ≠ .joining ∨ (c = 0 ∧ ¬ s'.host.low))
    (hd : (s'.thr c).state = .dead → (s.thr c).state = .dead)
    (hj : (s'.thr c).joiners = (s.thr c).joiners)
    (hh : ∀ k, k ≠ c → s'.down k → s.down k) : J s' := by
  refine h.frame ⟨?_, ?_, ?_⟩
  · intro k hk hjn
    have e : k ≠ c := by
      rintro rfl
      rcases hc with hc | ⟨rfl, hc⟩
      · exact hc hjn
      · rcases hk with hk | hk
        · exact hk rfl
        · exact hc hk
    rw [ht k e] at hjn ⊢
    exact ⟨hh k e hk, hjn, rfl⟩
  · intro g e
    by_cases e' : g = c
    · subst e'; exact hd e
    · rw [ht g e'] at e; exact e
  · intro g _ j hj'
    by_cases e' : g = c
    · subst e'; rw [hj]; exact hj'
    · rw [ht g e']; exact hj'

theorem switch_host' (s : St) (c : Nat) :
    (switch s c).host = if c = 0 then .loop else s.host := by
  unfold switch; split <;> rfl

theorem switch_down {s u : St} {c k : Nat} (hk : k ≠ c)
    (h : (switch u c).down k) (hu : u.host = s.host) : s.down k := by
  by_cases e : c = 0
  · subst e; exact Or.inl hk
  · rw [St.down, switch_host', if_neg e, hu] at h; exact h

/-- The state `join` parks in. -/
def joinPark (s : St) (c t : Nat) (dl : Option Nat) : St :=
  let s := s.mod c fun x => { x with blocking := true }
  let s := s.mod c fun x => { x with state := .joining }
  let s := s.mod t fun x => { x with joiners := x.joiners ++ [c] }
  switch { s with sleepers :=
    if dl.isSome then s.sleepers ++ [(dl, c)] else s.sleepers } c

theorem joinPark_thr (s : St) (c t : Nat) (dl : Option Nat) (g : Nat) :
    ((joinPark s c t dl).thr g).pc = (s.thr g).pc ∧
    ((joinPark s c t dl).thr g).state = (if g = c then .joining else (s.thr g).state) ∧
    ((joinPark s c t dl).thr g).joiners =
      (if g = t then (s.thr g).joiners ++ [c] else (s.thr g).joiners) := by
  unfold joinPark
  simp only
  rw [switch_thr]
  by_cases e1 : g = c <;> by_cases e2 : g = t <;> by_cases e3 : c = 0 <;>
    simp [e1, e2, e3] <;> simp_all

/-- The running thread is not joining, except possibly main. -/
theorem running_facts' {nf : Bool} {s : St} (hP : P nf s) {c : Nat} (hc : running s = some c) :
    ((s.thr c).state ≠ .joining ∨ (c = 0 ∧ ¬ s.host.low)) ∧ (c ≠ 0 → (s.thr c).state ≠ .joining) := by
  unfold running at hc
  split at hc
  · rename_i hm
    injection hc with hc; subst hc
    exact ⟨Or.inr ⟨rfl, by simp [hm, Host.low]⟩, fun e => absurd rfl e⟩
  · split at hc
    · cases hc
    · rename_i hcur
      injection hc with hc; subst hc
      have := (hP.cur hcur).1
      exact ⟨Or.inl (by rw [this]; simp), fun _ => by rw [this]; simp⟩

theorem J.step {nf : Bool} {s s' : St} {a : Act} (hP : P nf s) (h : J s)
    (hs : step s a = some s') : J s' := by
  have hrun := fun c (hc : running s = some c) => running_facts' hP hc
  unfold Sched.step at hs
  split at hs
  · cases hs
  cases a with
  | tick d =>
    simp only [Option.some.injEq] at hs; subst hs
    exact h.frame (F.ofThr (fun _ h => h) rfl)
  | loopIter fds =>
    simp only at hs
    split at hs
    · injection hs with hs
      subst hs
      have hm : J (Sched.poll (Sched.wakeDue s) fds) := h.frame ((F.wakeDue s).trans (F.poll _ fds))
      rename_i hl
      have hh : (Sched.poll (Sched.wakeDue s) fds).host = s.host :=
        (poll_same _ fds).host.trans (wakeDue_same s).host
      unfold Sched.loopIter
      simp only
      generalize Sched.poll (Sched.wakeDue s) fds = u at hm hh
      split
      · exact hm.mainBack true
      · split
        · rename_i t rest _
          have h1 : J { u with ready := rest } := hm.ofThr (fun _ h => h) rfl
          exact h1.dispatch t
        · refine hm.frame (F.ofThr (fun t hd => ?_) rfl)
          rcases hd with hd | _
          · exact Or.inl hd
          · exact Or.inr (Or.inl (hh.trans hl.1))
    · cases hs
  | idle fds =>
    simp only at hs
    split at hs
    · rename_i hl
      injection hs with hs; subst hs
      refine (h.frame (F.poll s fds)).frame (F.ofThr (fun t hd => ?_) rfl)
      rcases hd with hd | _
      · exact Or.inl hd
      · exact Or.inr (Or.inr ((poll_same s fds).host.trans hl))
    · cases hs
  | loopErr =>
    simp only at hs
    split at hs
    · injection hs with hs
      subst hs
      refine J.frame ?_ (F.afterErr _ _ _)
      refine h.park 0 (fun k hk => by simp [hk]) (Or.inr ⟨rfl, by simp [Host.low]⟩) ?_ ?_ ?_
      · simp
      · simp
      · intro k hk _; exact Or.inl hk
    · cases hs
  | passNext =>
    simp only at hs
    split at hs
    · split at hs
      · split at hs
        · rename_i k' t rest _ _
          injection hs with hs; subst hs
          have h1 : J { s with ready := rest, host := .pass k' } := by
            refine h.ofThr (fun t hd => ?_) rfl
            rcases hd with hd | hd
            · exact Or.inl hd
            · simp [Host.low] at hd
          exact h1.dispatch t
        · injection hs with hs; subst hs; exact h.mainBack false
      · cases hs
    · cases hs
  | joinLoop =>
    simp only at hs
    split at hs
    · rename_i c hc
      split at hs
      · rename_i t dl hpc
        injection hs with hs
        subst hs
        obtain ⟨r1, r2⟩ := hrun c hc
        unfold Sched.joinLoop
        rcases deliver_cases (s.thr c) true with ⟨id, rs, _, e⟩ | ⟨hn, e⟩
        · rw [e]
          refine h.park c (fun k hk => by simp [hk]) ?_ (by simp) (by simp) (fun _ _ h => h)
          simpa using r1
        · rw [e]
          simp only
          split
          · refine h.park c (fun k hk => by simp [hk]) ?_ (by simp) (by simp) (fun _ _ h => h)
            simpa using r1
          · rename_i hnd
            split
            · refine h.park c (fun k hk => by simp [hk]) ?_ (by simp) (by simp) (fun _ _ h => h)
              simpa using r1
            · intro k hd hj
              have hst := joinPark_thr s c t dl
              change ((joinPark s c t dl).thr k).state = .joining at hj
              change ∃ g dl', ((joinPark s c t dl).thr k).pc = .join g dl' ∧
                ((joinPark s c t dl).thr g).state ≠ .dead ∧ k ∈ ((joinPark s c t dl).thr g).joiners
              have hnd' : (s.thr t).state ≠ .dead := by
                intro e'; apply hnd; by_cases e1 : t = c
                · subst e1; simpa using e'
                · simpa [e1] using e'
              rw [(hst k).2.1] at hj
              rw [(hst k).1]
              by_cases e1 : k = c
              · subst e1
                refine ⟨t, dl, hpc, ?_, ?_⟩
                · rw [(hst t).2.1]; split
                  · simp
                  · exact hnd'
                · rw [(hst t).2.2]; simp
              · have hd' : s.down k := switch_down e1 hd rfl
                rw [if_neg e1] at hj
                obtain ⟨g, dl', a1, a2, a3⟩ := h k hd' hj
                refine ⟨g, dl', a1, ?_, ?_⟩
                · rw [(hst g).2.1]; split
                  · simp
                  · exact a2
                · rw [(hst g).2.2]; split
                  · simp [a3]
                  · exact a3
      · cases hs
    · cases hs
  | call q =>
    simp only at hs
    split at hs
    · rename_i c hc
      obtain ⟨r1, r2⟩ := hrun c hc
      split at hs
      · rename_i hu
        cases q with
        | spawn ab =>
          simp only [doCall, Option.some.injEq] at hs; subst hs
          have hfr := hP.fresh s.n (Nat.le_refl _)
          refine h.frame ⟨?_, ?_, ?_⟩
          · intro t hd hj
            by_cases e : t = s.n
            · subst e; simp [Sched.spawn] at hj
            · simp [Sched.spawn, e] at hj ⊢; exact ⟨hd, hj⟩
          · intro g e
            by_cases e' : g = s.n
            · subst e'; exact hfr
            · simpa [Sched.spawn, e'] using e
          · intro g hg j hj
            have e' : g ≠ s.n := by rintro rfl; exact hg hfr
            simpa [Sched.spawn, e'] using hj
        | wakeup t p =>
          simp only [doCall] at hs
          split at hs
          · injection hs with hs; subst hs
            unfold Sched.wakeup
            split
            · rename_i hsl
              refine J.frame (h.mod t _ ?_ (fun e => e) rfl) (F.same (Same.wake _ _))
              intro e; exact ⟨e, rfl⟩
            · split
              · exact h.mod t _ (fun e => ⟨e, rfl⟩) (fun e => e) rfl
              · exact h
            · exact h
          · cases hs
        | sleep dl =>
          simp only [doCall, Option.some.injEq] at hs; subst hs
          unfold Sched.sleep
          rcases deliver_cases (s.thr c) true with ⟨id, rs, _, e⟩ | ⟨hn, e⟩
          · rw [e]
            refine h.park c (fun k hk => by simp [hk]) ?_ (by simp) (by simp) (fun _ _ h => h)
            simpa using r1
          · rw [e]
            simp only
            split
            · refine h.park c (fun k hk => by simp [hk]) ?_ (by simp) (by simp) (fun _ _ h => h)
              simpa using r1
            · refine h.park c (fun k hk => by rw [switch_thr]; simp [hk]) ?_ ?_ ?_ ?_
              · rw [switch_thr]; left; split <;> simp
              · rw [switch_thr]; split <;> simp
              · rw [switch_thr]; split <;> simp
              · intro k hk hd; exact switch_down hk hd rfl
        | pass fds =>
          simp only [doCall, Option.some.injEq] at hs; subst hs
          unfold Sched.pass
          rcases deliver_cases (s.thr c) false with ⟨id, rs, _, e⟩ | ⟨hn, e⟩
          · rw [e]
            refine h.park c (fun k hk => by simp [hk]) ?_ (by simp) (by simp) (fun _ _ h => h)
            simpa using r1
          · rw [e]
            simp only
            have h1 : J (s.mod c fun x => { x with blocking := false }) := by
              refine h.park c (fun k hk => by simp [hk]) ?_ (by simp) (by simp) (fun _ _ h => h)
              simpa using r1
            split
            · have h2 := h1.frame ((F.wakeDue _).trans (F.poll _ fds))
              refine h2.frame (F.ofThr (fun t hd => ?_) rfl)
              rcases hd with hd | hd
              · exact Or.inl hd
              · simp [Host.low] at hd
            · rename_i e0
              refine h.park c (fun k hk => by rw [switch_thr]; simp [hk]) ?_ ?_ ?_ ?_
              · rw [switch_thr]; left; simp [e0]; exact r2 e0
              · rw [switch_thr]; split <;> simp
              · rw [switch_thr]; split <;> simp
              · intro k hk hd; exact switch_down hk hd rfl
        | join t dl =>
          simp only [doCall] at hs
          split at hs
          · injection hs with hs; subst hs
            unfold joinEnter
            split
            · exact h
            · refine h.park c (fun k hk => by simp [hk]) ?_ (by simp) (by simp) (fun _ _ h => h)
              simpa using r1
          · cases hs
        | waitFds fds dl =>
          simp only [doCall, Option.some.injEq] at hs; subst hs
          unfold Sched.waitFds
          rcases deliver_cases (s.thr c) true with ⟨id, rs, _, e⟩ | ⟨hn, e⟩
          · rw [e]
            refine h.park c (fun k hk => by simp [hk]) ?_ (by simp) (by simp) (fun _ _ h => h)
            simpa using r1
          · rw [e]
            simp only
            refine h.park c (fun k hk => by rw [switch_thr]; simp [hk]) ?_ ?_ ?_ ?_
            · rw [switch_thr]; left; split <;> simp
            · rw [switch_thr]; split <;> simp
            · rw [switch_thr]; split <;> simp
            · intro k hk hd; exact switch_down hk hd rfl
        | interrupt t i =>
          simp only [doCall] at hs
          split at hs
          · injection hs with hs; subst hs
            unfold Sched.interrupt
            split
            · rename_i e0
              refine h.park c (fun k hk => by simp [hk]) ?_ (by simp) ?_ (fun _ _ h => h)
              · simpa using r1
              · have := deliver_cv (push (s.thr c) i) false
                simp only [Thread.cv, CV.mk.injEq] at this
                simpa [push] using this.2.2
            · split
              · exact h
              · simp only
                have h1 : J (s.mod t fun x => push x i) := h.mod t _ (fun e => ⟨e, rfl⟩) (fun e => e) rfl
                split
                · refine J.frame (h1.mod t _ ?_ (fun e => e) rfl) (F.same (Same.wake _ _))
                  intro e; exact ⟨e, rfl⟩
                · exact h1
          · cases hs
        | pushMask ms =>
          simp only [doCall, Option.some.injEq] at hs; subst hs
          exact h.mod c _ (fun e => ⟨e, rfl⟩) (fun e => e) rfl
        | popMask =>
          simp only [doCall, Option.some.injEq] at hs; subst hs
          exact h.mod c _ (fun e => ⟨e, rfl⟩) (fun e => e) rfl
        | setUnint on =>
          simp only [doCall, Option.some.injEq] at hs; subst hs
          exact h.mod c _ (fun e => ⟨e, rfl⟩) (fun e => e) rfl
        | checkpoint b =>
          simp only [doCall, Option.some.injEq] at hs; subst hs
          refine h.park c (fun k hk => by simp [hk]) ?_ (by simp) ?_ (fun _ _ h => h)
          · simpa using r1
          · have := deliver_cv (s.thr c) b
            simp only [Thread.cv, CV.mk.injEq] at this
            simpa using this.2.2
        | exit fwd =>
          simp only [doCall] at hs
          split at hs
          · cases hs
          · injection hs with hs; subst hs
            exact J.finalize (h.frame (F.ofThr (s' := { s with current := 0 }) (fun _ h => h) rfl)) c fwd
        | fork =>
          simp only [doCall, Option.some.injEq] at hs; subst hs
          intro t hd hj
          exfalso
          by_cases e : t = c
          · subst e
            simp only [forkChild, if_true] at hj
            rcases r1 with r1 | ⟨rfl, r1⟩
            · exact r1 hj
            · rcases hd with hd | hd
              · exact hd rfl
              · exact r1 hd
          · simp [forkChild, e] at hj
      · cases hs
    · cases hs

theorem J.init : J init := by
  intro t _ hj
  exfalso
  by_cases e : t = 0 <;> simp [Sched.init, e] at hj

theorem J.run : ∀ (as : List Act) {s s' : St}, P false s → J s → run s as = some s' → J s' := by
  intro as
  induction as with
  | nil => intro s s' _ h hr; simp only [Sched.run, Option.some.injEq] at hr; subst hr; exact h
  | cons a as ih =>
    intro s s' hP h hr
    simp only [Sched.run] at hr
    split at hr
    · rename_i s1 hs
      exact ih (hP.step (by simp) hs) (J.step hP h hs) hr
    · cases hr

theorem Reachable.j {s : St} (h : Reachable s) : J s := by
  obtain ⟨as, ha⟩ := h
  exact J.run as (P.init false) J.init ha

end Verif.Sched
