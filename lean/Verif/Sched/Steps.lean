import Verif.Sched.Clean

/-! # Steps of schedules without early-ended timed waits -/

namespace Verif.Sched

theorem R.wakeDue {m : Bool} {s : St} (h : R m s) (hh : ∀ k, s.host ≠ .pass k) :
    R m (Sched.wakeDue s) := by
  have hs := wakeDue_same s
  have hhost : (Sched.wakeDue s).host = s.host := hs.host
  refine ⟨hs.crashed.trans h.ncr, by rw [hs.n]; exact h.n0, ?_, ?_, ?_, ?_⟩
  · intro t ht
    rw [hs.n] at ht
    have hd := h.fresh t ht
    rw [wakeDue_thr]
    split
    · rename_i hm
      have := ((mem_dueOf s t).1 hm).1
      rw [hd] at this; cases this
    · exact hd
  · rw [hhost]; exact h.core.wakeDue
  · intro k hk; rw [hhost] at hk; exact absurd hk (hh k)
  · intro hm hup
    rw [hhost] at hup
    obtain ⟨h1, h2, h3⟩ := h.p4 hm hup
    refine ⟨?_, ?_, ?_⟩
    · rw [ents_wakeDue, h1]; simp
    · rcases hs.state 0 with e | e
      · rw [e]; exact h2
      · exact e
    · rw [hs.pc]; exact h3

theorem R.foldPoll {m : Bool} {fds : List Nat} {l : List (Nat × Nat)} : ∀ {s : St}, R m s →
    R m (l.foldl (Sched.pollOne fds) s) := by
  induction l with
  | nil => intro s h; exact h
  | cons a l ih =>
    intro s h
    refine ih (s := Sched.pollOne fds s a) ?_
    unfold Sched.pollOne; split
    · rename_i hc
      exact h.wake (by rw [hc.2]; simp) fun hT d hd =>
        absurd hd (h.core.c0 a.2 hT (Or.inr (Or.inl hc.2)) d)
    · exact h

theorem R.poll {m : Bool} {s : St} (fds : List Nat) (h : R m s) : R m (Sched.poll s fds) := by
  rw [poll_eq]
  refine R.foldPoll (s := s.pruneIo) ?_
  exact h.congr rfl h.ncr (Nat.le_refl _) (fun _ _ h => h) (fun _ => Or.inl (Mild.rfl' _)) rfl
    (Nat.le_refl _) ⟨[], by simp [St.pruneIo]⟩

/-- The poll ends no timed wait of a tracked thread. -/
def Polite (m : Bool) (s : St) (fds : List Nat) : Prop :=
  ∀ e ∈ s.io, e.1 ∈ fds → (e.2 ≠ 0 ∨ m = true) → (s.thr e.2).state = .ioWaiting →
    (s.thr e.2).pc = .io none

theorem CInv.poll {m : Bool} {s : St} (fds : List Nat) (h : CInv m s) (h0 : s.current = 0) :
    CInv m (Sched.poll s fds) := by
  have hs := poll_same s fds
  have hc : (Sched.poll s fds).current = 0 := hs.current.trans h0
  refine ⟨?_, h.r.poll fds, ?_⟩
  · rw [hc]; exact (h0 ▸ h.q).poll fds
  · intro e; exact absurd hc e

theorem CInv.machine {m : Bool} {s : St} {fds : List Nat} (h : CInv m s) (h0 : s.current = 0)
    (hh : ∀ k, s.host ≠ .pass k) (hp : Polite m s fds) :
    CInv m (Sched.poll (wakeDue s) fds) ∧
    ∀ t, Tr m s.host t → ((Sched.poll (wakeDue s) fds).thr t).state.parked = false →
      ents (Sched.poll (wakeDue s) fds).sleepers t = [] := by
  have hs := wakeDue_same s
  have hc : (wakeDue s).current = 0 := hs.current.trans h0
  have h1 : CInv m (wakeDue s) := by
    refine ⟨?_, h.r.wakeDue hh, fun e => absurd hc e⟩
    rw [hc]; exact (h0 ▸ h.q).wakeDue h.r.core (fun t ht => Or.inl ht)
  refine ⟨h1.poll fds hc, ?_⟩
  intro t hT hnp
  have hsl : (Sched.poll (wakeDue s) fds).sleepers = (wakeDue s).sleepers :=
    (poll_same (wakeDue s) fds).sleepers
  rw [hsl]
  by_cases hpk : ((wakeDue s).thr t).state.parked = true
  · obtain ⟨hio, e, he, het, hfd⟩ := poll_woken hpk hnp
    have hio' : (s.thr t).state = .ioWaiting := by
      rcases hs.state t with e | e
      · rw [hio] at e; exact e.symm
      · rw [hio] at e; cases e
    have hpc : (s.thr t).pc = .io none := by
      subst het
      refine hp e (by rw [hs.io] at he; exact he) hfd ?_ hio'
      rcases hT with h | h
      · exact Or.inl h
      · exact Or.inr h.1
    have hhost : (wakeDue s).host = s.host := hs.host
    rw [h1.r.core.c1 t (by rw [hhost]; exact hT) hpk, hs.pc t]
    show want (s.thr t).pc = []
    rw [hpc]; rfl
  · exact wakeDue_clears h.r.core hT (by simpa using hpk)

/-- Changing what main's stack does, between two positions of the same kind or with main's facts at
hand. -/
theorem R.rehost {m : Bool} {s : St} {hst : Host} {rd : List Nat} (h : R m s)
    (hT : m = true → (hst = .loop ∨ hst = .idle) → s.host = .loop ∨ s.host = .idle)
    (h3 : ∀ k, hst = .pass k → k ≤ rd.length ∧ ∀ t ∈ rd.take k, ents s.sleepers t = [])
    (h4 : m = true → hst.up →
      ents s.sleepers 0 = [] ∧ (s.thr 0).state = .runnable ∧ ∀ d, (s.thr 0).pc ≠ .sleep d) :
    R m { s with host := hst, ready := rd } := by
  refine ⟨h.ncr, h.n0, h.fresh, ?_, h3, h4⟩
  have : Core (Tr m hst) s := by
    refine h.core.mono ?_
    rintro t (h1 | ⟨h1, h2⟩)
    · exact Or.inl h1
    · exact Or.inr ⟨h1, hT h1 h2⟩
  exact ⟨this.c0, this.c1, this.c5⟩

theorem afterPark_thr (s : St) (t k : Nat) (h : k ≠ t) : (afterPark s t).thr k = s.thr k := by
  unfold afterPark
  split <;> simp [unregister, h]

theorem afterPark_fields (s : St) (t : Nat) : (afterPark s t).n = s.n ∧
    (afterPark s t).ready = s.ready ∧ (afterPark s t).sleepers = s.sleepers ∧
    (afterPark s t).current = s.current ∧ (afterPark s t).host = s.host ∧
    (afterPark s t).now = s.now ∧ (afterPark s t).crashed = s.crashed := by
  unfold afterPark
  split <;> simp [unregister]

theorem afterPark_self (s : St) (t : Nat) : ((afterPark s t).thr t).state = (s.thr t).state ∧
    ((afterPark s t).thr t).resume = (s.thr t).resume ∧
    (((afterPark s t).thr t).pc = .user ∨
      ∃ a d, (s.thr t).pc = .join a d ∧ ((afterPark s t).thr t).pc = .join a d) := by
  unfold afterPark
  split <;> rename_i hpc <;> simp [unregister, hpc]

theorem afterErr_fields (s : St) (t : Nat) (p : PC) : (afterErr s t p).n = s.n ∧
    (afterErr s t p).ready = s.ready ∧ (afterErr s t p).sleepers = s.sleepers ∧
    (afterErr s t p).current = s.current ∧ (afterErr s t p).host = s.host ∧
    (afterErr s t p).now = s.now ∧ (afterErr s t p).crashed = s.crashed ∧
    (afterErr s t p).thr = s.thr := by
  unfold afterErr
  split <;> simp [unregister]

theorem CInv.afterPark {m : Bool} {s : St} {t : Nat} (h : CInv m s)
    (hr : (s.thr t).state = .runnable) : CInv m (afterPark s t) := by
  obtain ⟨e1, e2, e3, e4, e5, e6, e7⟩ := afterPark_fields s t
  obtain ⟨f1, f2, f3⟩ := afterPark_self s t
  refine h.congr e5 e7 e1 e4 ?_ ?_ ?_ e3 (by omega) e2
  · intro k; by_cases e : k = t
    · subst e; exact f1
    · rw [afterPark_thr s t k e]
  · intro k; by_cases e : k = t
    · subst e; exact f2
    · rw [afterPark_thr s t k e]
  · intro k; by_cases e : k = t
    · subst e
      refine Or.inl (Or.inr ⟨f1.trans hr, ?_⟩)
      intro d
      rcases f3 with f | ⟨_, _, _, f⟩ <;> rw [f] <;> simp
    · rw [afterPark_thr s t k e]; exact Or.inl (Mild.rfl' _)

theorem CInv.afterErr {m : Bool} {s : St} (t : Nat) (p : PC) (h : CInv m s) :
    CInv m (afterErr s t p) := by
  obtain ⟨e1, e2, e3, e4, e5, e6, e7, e8⟩ := afterErr_fields s t p
  refine h.congr e5 e7 e1 e4 ?_ ?_ ?_ e3 (by omega) e2
  · intro k; rw [e8]
  · intro k; rw [e8]
  · intro k; rw [e8]; exact Or.inl (Mild.rfl' _)

/-- Dispatching the first thread of the queue. -/
theorem CInv.dispatch {m : Bool} {s : St} {t : Nat} {rest : List Nat} {hst : Host}
    (hq : Q s.thr (t :: rest) 0) (hr : R m { s with ready := rest, host := hst })
    (h0 : s.current = 0) (hhost : hst ≠ .main ∧ hst ≠ .idle) (he : ents s.sleepers t = []) :
    CInv m (dispatch { s with ready := rest, host := hst } t) := by
  obtain ⟨ht0, hact, hres, hq'⟩ := hq.pop
  have hnd : (s.thr t).state ≠ .dead := by intro e; rw [e] at hact; cases hact
  have hfr : ∀ k, s.n ≤ k → k ≠ t := by
    intro k hk e; subst e; exact hnd (hr.fresh k hk)
  unfold Sched.dispatch
  simp only
  split
  · rename_i hcr
    split
    · rename_i id i _ _
      have hq2 : Q (({ s with ready := rest, host := hst } : St).mod t
          fun x => { x with got := x.got ++ [id] }).thr rest t :=
        Q.modHeld (s := { s with ready := rest, host := hst }) _ hq'
      have hr2 : R m (({ s with ready := rest, host := hst } : St).mod t
          fun x => { x with got := x.got ++ [id] }) := by
        refine hr.congr rfl hr.ncr (Nat.le_refl _) ?_ ?_ rfl (Nat.le_refl _) ⟨[], by simp⟩
        · intro k _ hk; by_cases e : k = t <;> simp_all
        · intro k; left; by_cases e : k = t
          · subst e; simp [Mild]
          · simpa [e] using Mild.rfl' _
      have hcur : (Sched.finalize (({ s with ready := rest, host := hst } : St).mod t
          fun x => { x with got := x.got ++ [id] }) t
          (if i ≠ .kill ∧ (s.thr t).abort then some i else none)).current = 0 := by
        generalize (if i ≠ .kill ∧ (s.thr t).abort = true then some i else none) = fwd
        unfold Sched.finalize
        have := fun u => (same_foldl joinerOne same_joinerOne (s.thr t).joiners u).current
        cases fwd with
        | none => simp [this, h0]
        | some i => simp only [if_neg ht0]; split <;> simp [this, h0]
      refine ⟨?_, hr2.finalize _ ht0, fun e => absurd hcur e⟩
      rw [hcur]; exact Q.finalize _ ht0 hq2
    · have hr2 : R m (({ s with ready := rest, host := hst } : St).mod t
          fun x => { x with state := .runnable }) := by
        refine hr.congr rfl hr.ncr (Nat.le_refl _) ?_ ?_ rfl (Nat.le_refl _) ⟨[], by simp⟩
        · intro k hk hd; simp [hfr k hk]; exact hd
        · intro k; left; by_cases e : k = t
          · subst e
            refine Or.inr ⟨by simp, ?_⟩
            simpa using hr.core.c0 k (Or.inl ht0) (Or.inr (Or.inr hcr))
          · simpa [e] using Mild.rfl' _
      refine ⟨?_, ?_, ?_⟩
      · exact Q.modHeld (s := { s with ready := rest, host := hst })
          (fun x => { x with state := .runnable }) hq'
      · exact ⟨hr2.ncr, hr2.n0, hr2.fresh, ⟨hr2.core.c0, hr2.core.c1, hr2.core.c5⟩, hr2.p3, hr2.p4⟩
      · intro _; exact ⟨by simp, he, hhost⟩
  · rename_i hcr
    have hrun : (s.thr t).state = .runnable := by
      cases hst : (s.thr t).state <;> rw [hst] at hact hcr <;> simp_all [TS.active]
    simp only [hres hrun, Bool.true_eq_false, if_false]
    obtain ⟨v, hv⟩ : ∃ v : St, ({ ({ s with ready := rest, host := hst } : St).mod t
      (fun x => { x with state := .runnable, resume := false }) with current := t } : St) = v :=
      ⟨_, rfl⟩
    suffices hgoal : CInv m (match deliver (v.thr t) (v.thr t).blocking with
        | (x, true) => Sched.afterErr (v.mod t fun _ => x) t (s.thr t).pc
        | (_, false) => Sched.afterPark v t) by
      subst hv; exact hgoal
    have hvt : v.thr t = { s.thr t with state := .runnable, resume := false } := by
      rw [← hv]; simp
    -- a position outside `sleep` makes the rest mild
    have key : ∀ (f : Thread → Thread), (f (v.thr t)).state = .runnable →
        (∀ d, (f (v.thr t)).pc ≠ .sleep d) → (f (v.thr t)).resume = false → CInv m (v.mod t f) := by
      intro f hf1 hf2 hf3
      have hr2 : R m (({ s with ready := rest, host := hst } : St).mod t
          fun _ => f (v.thr t)) := by
        refine hr.congr rfl hr.ncr (Nat.le_refl _) ?_ ?_ rfl (Nat.le_refl _) ⟨[], by simp⟩
        · intro k hk hd; simp [hfr k hk]; exact hd
        · intro k; left; by_cases e : k = t
          · subst e; simp only [mod_thr, if_true]; exact Or.inr ⟨hf1, hf2⟩
          · simpa [e] using Mild.rfl' _
      have hth : (v.mod t f).thr = (({ s with ready := rest, host := hst } : St).mod t
          fun _ => f (v.thr t)).thr := by
        funext k; by_cases e : k = t
        · subst e; simp
        · simp [e, ← hv]
      have hc : (v.mod t f).current = t := by rw [← hv]; rfl
      have e1 : (v.mod t f).ready = rest := by rw [← hv]; rfl
      have e2 : (v.mod t f).host = hst := by rw [← hv]; rfl
      have e3 : (v.mod t f).sleepers = s.sleepers := by rw [← hv]; rfl
      have e4 : (v.mod t f).n = s.n := by rw [← hv]; rfl
      have e5 : (v.mod t f).now = s.now := by rw [← hv]; rfl
      have e6 : (v.mod t f).crashed = s.crashed := by rw [← hv]; rfl
      refine ⟨?_, ?_, ?_⟩
      · rw [hth, hc, e1]; exact Q.modHeld (s := { s with ready := rest, host := hst }) _ hq'
      · refine ⟨e6.trans hr.ncr, by rw [e4]; exact hr.n0, ?_, ⟨?_, ?_, ?_⟩, ?_, ?_⟩
        · rw [e4, hth]; exact hr2.fresh
        · rw [e2, hth]; exact hr2.core.c0
        · rw [e2, hth, e3]; exact hr2.core.c1
        · rw [e2, hth, e5]; exact hr2.core.c5
        · rw [e2, e1, e3]; exact hr2.p3
        · rw [e2, hth, e3]; exact hr2.p4
      · intro _
        rw [hc, e2, e3]
        refine ⟨?_, he, hhost⟩
        rw [hth]; simpa using hf1
    rcases deliver_cases (v.thr t) (v.thr t).blocking with ⟨id, rs, _, hd⟩ | ⟨_, hd⟩
    · rw [hd]
      refine CInv.afterErr t _ (key _ ?_ ?_ ?_)
      · simp [hvt]
      · simp
      · simp [hvt]
    · rw [hd]
      show CInv m (Sched.afterPark v t)
      by_cases hj : ∃ a d, (v.thr t).pc = .join a d
      · obtain ⟨a, d, hj⟩ := hj
        have e : Sched.afterPark v t = v.mod t id := by
          unfold Sched.afterPark; rw [hj]
          simp only [St.mod, id, ite_self]
        rw [e]
        refine key id (by simp [hvt]) (by simp [hj]) (by simp [hvt])
      · have hu := key (fun x => { x with pc := .user }) (by simp [hvt]) (by simp) (by simp [hvt])
        unfold Sched.afterPark
        split
        · rename_i a d hpc; exact absurd ⟨a, d, hpc⟩ hj
        · refine hu.congr rfl rfl rfl rfl (fun _ => rfl) (fun _ => rfl) (fun _ => Or.inl (Mild.rfl' _)) rfl
            (Nat.le_refl _) rfl
        · exact hu

/-- Main goes back to its own code. -/
theorem CInv.mainBack {m : Bool} {s : St} (b : Bool) (h : CInv m s) (h0 : s.current = 0)
    (hr : m = true → (s.thr 0).state = .runnable) (he : m = true → ents s.sleepers 0 = []) :
    CInv m (mainBack s b) := by
  have key : ∀ (f : Thread → Thread), (m = true → (f (s.thr 0)).state = .runnable) →
      (∀ d, (f (s.thr 0)).pc ≠ .sleep d) →
      CInv m (({ s with host := .main, current := 0 } : St).mod 0 f) := by
    intro f hf1 hf2
    have hr1 : R m (s.mod 0 f) := by
      refine h.r.congr rfl h.r.ncr (Nat.le_refl _) ?_ ?_ rfl (Nat.le_refl _) ⟨[], by simp⟩
      · intro k hk hd
        have : k ≠ 0 := by have := h.r.n0; simp at hk; omega
        simpa [this] using hd
      · intro k; by_cases e : k = 0
        · subst e
          cases m with
          | false => right; left; exact ⟨rfl, rfl⟩
          | true => left; exact Or.inr ⟨by simpa using hf1 rfl, by simpa using hf2⟩
        · left; simpa [e] using Mild.rfl' _
    have hr2 := R.rehost (hst := .main) (rd := s.ready) hr1 (by simp) (by simp)
      (fun hm _ => ⟨he hm, by simpa using hf1 hm, by simpa using hf2⟩)
    refine ⟨?_, ?_, fun e => absurd rfl e⟩
    · show Q _ s.ready 0
      exact (h0 ▸ h.q).congr (by intro k hk; simp [hk]) (by intro k hk; simp [hk])
    · exact ⟨hr2.ncr, hr2.n0, hr2.fresh, ⟨hr2.core.c0, hr2.core.c1, hr2.core.c5⟩, hr2.p3, hr2.p4⟩
  unfold Sched.mainBack
  simp only
  rcases deliver_cases (s.thr 0) b with ⟨id, rs, _, hd⟩ | ⟨_, hd⟩
  · rw [hd]
    exact CInv.afterErr 0 _ (key _ hr (by simp))
  · rw [hd]
    show CInv m (Sched.afterPark _ 0)
    unfold Sched.afterPark
    have hu := key (fun x => { x with pc := .user }) hr (by simp)
    split
    · rename_i a d hpc
      have hpc' : (s.thr 0).pc = .join a d := hpc
      have := key id hr (by simp [hpc'])
      refine this.congr rfl rfl rfl rfl ?_ ?_ ?_ rfl (Nat.le_refl _) rfl
      · intro k; by_cases e : k = 0 <;> simp [e]
      · intro k; by_cases e : k = 0 <;> simp [e]
      · intro k; left; by_cases e : k = 0
        · subst e; simp [Mild]
        · simpa [e] using Mild.rfl' _
    · refine hu.congr rfl rfl rfl rfl (fun _ => rfl) (fun _ => rfl) (fun _ => Or.inl (Mild.rfl' _)) rfl
        (Nat.le_refl _) rfl
    · exact hu

theorem CInv.loopIter {m : Bool} {s : St} {fds : List Nat} (h : CInv m s) (hh : s.host = .loop)
    (h0 : s.current = 0) (hp : Polite m s fds) : CInv m (loopIter s fds) := by
  obtain ⟨h1, h2⟩ := h.machine h0 (by simp [hh]) hp
  have hc : (Sched.poll (wakeDue s) fds).current = 0 :=
    (poll_same _ _).current.trans ((wakeDue_same s).current.trans h0)
  have hho : (Sched.poll (wakeDue s) fds).host = .loop :=
    (poll_same _ _).host.trans ((wakeDue_same s).host.trans hh)
  unfold Sched.loopIter
  simp only
  generalize Sched.poll (wakeDue s) fds = u at h1 h2 hc hho
  split
  · rename_i hr
    refine h1.mainBack true hc (fun _ => hr) fun hm => h2 0 (Or.inr ⟨hm, Or.inl hh⟩) (by rw [hr]; rfl)
  · split
    · rename_i t rest hrd
      have hq : Q u.thr (t :: rest) 0 := by rw [← hrd, ← hc]; exact h1.q
      obtain ⟨ht0, hact, _, _⟩ := hq.pop
      have he : ents u.sleepers t = [] := by
        refine h2 t (Or.inl ht0) ?_
        cases hst : (u.thr t).state <;> rw [hst] at hact <;> simp_all [TS.active, TS.parked]
      have hr2 : R m { u with ready := rest, host := .loop } :=
        h1.r.rehost (hst := .loop) (rd := rest) (fun _ _ => Or.inl hho) (by simp)
          (by rintro _ (e | ⟨_, e⟩) <;> cases e)
      have k := CInv.dispatch hq hr2 hc (by simp) he
      rw [← hho] at k; exact k
    · have hr2 := h1.r.rehost (hst := .idle) (rd := u.ready) (fun _ _ => Or.inl hho) (by simp)
        (by rintro _ (e | ⟨_, e⟩) <;> cases e)
      refine ⟨h1.q, hr2, fun e => absurd hc e⟩

end Verif.Sched
