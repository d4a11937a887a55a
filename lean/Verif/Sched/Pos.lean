import Verif.Sched.Evt

/-! # Where threads are: an invariant of all schedules (helper lemmas for C25, C26) -/

namespace Verif.Sched

/-- A position inside `sleep`, `join` or a wait for descriptors. -/
def PC.blk : PC → Prop
  | .sleep _ | .join _ _ | .io _ => True
  | _ => False

/-- Main is parked, or green threads run for it. -/
def Host.low (h : Host) : Prop := h = .loop ∨ h = .idle

/-- What holds of one thread; `m` if it can only be woken by others, `nf` if there was no fork. -/
structure Good (nf : Bool) (m : Prop) (x : Thread) : Prop where
  g1 : x.resume = true → (x.pc = .pass ∧ x.blocking = false) ∨ x.pc.blk
  g2 : x.state = .created → x.masks = [] ∧ x.unint = 0 ∧ x.resume = false
  g3 : m → x.state.parked = true → ∀ p ∈ x.pending, intrTiming x p.2 = .never
  g4 : nf = true → x.state = .dead → x.resume = false ∧ x.pending = []

/-- The invariant. -/
structure P (nf : Bool) (s : St) : Prop where
  good : ∀ t, Good nf (t ≠ 0 ∨ s.host.low) (s.thr t)
  cur : s.current ≠ 0 → (s.thr s.current).state = .runnable ∧
    (s.thr s.current).resume = false ∧ s.host ≠ .main ∧ s.host ≠ .idle
  r0 : (s.thr 0).resume = false
  s0 : (s.thr 0).state ≠ .created ∧ (nf = true → (s.thr 0).state ≠ .dead)
  hst : s.host.low → (s.thr 0).pc.blk
  n0 : 0 < s.n
  fresh : ∀ t, s.n ≤ t → (s.thr t).state = .dead
  rdy : ∀ t ∈ s.ready, t ≠ 0 ∧ t < s.n

theorem Good.free {nf : Bool} {m : Prop} {x : Thread} (hr : x.resume = false)
    (hc : x.state ≠ .created) (hp : m → x.state.parked = false)
    (hd : nf = true → x.state ≠ .dead) : Good nf m x := by
  refine ⟨?_, fun e => absurd e hc, ?_, fun h e => absurd e (hd h)⟩
  · intro h; rw [hr] at h; cases h
  · intro h e; rw [hp h] at e; cases e

theorem Good.mono {nf : Bool} {m m' : Prop} {x : Thread} (h : Good nf m x) (hm : m' → m) :
    Good nf m' x := ⟨h.g1, h.g2, fun e => h.g3 (hm e), h.g4⟩

/-- The same fields as far as `Good` is concerned. -/
structure Alike (x x' : Thread) : Prop where
  resume : x'.resume = x.resume
  pc : x'.pc = x.pc
  blocking : x'.blocking = x.blocking
  state : x'.state = x.state
  pending : x'.pending = x.pending
  masks : x'.masks = x.masks
  unint : x'.unint = x.unint

theorem Alike.timing {x x' : Thread} (h : Alike x x') (i : Intr) :
    intrTiming x' i = intrTiming x i := by
  simp [intrTiming, h.masks, h.unint]

theorem Good.alike {nf : Bool} {m : Prop} {x x' : Thread} (h : Good nf m x) (e : Alike x x') :
    Good nf m x' := by
  refine ⟨?_, ?_, ?_, ?_⟩
  · rw [e.resume, e.pc, e.blocking]; exact h.g1
  · rw [e.state, e.masks, e.unint, e.resume]; exact h.g2
  · intro hm hp p hpp
    rw [e.state] at hp; rw [e.pending] at hpp; rw [e.timing]; exact h.g3 hm hp p hpp
  · rw [e.state, e.resume, e.pending]; exact h.g4

theorem Good.wake {nf : Bool} {m : Prop} {x : Thread} (h : Good nf m x) :
    Good nf m { x with state := .runnable } := by
  refine ⟨h.g1, ?_, ?_, ?_⟩
  · intro e; cases e
  · intro _ e; cases e
  · intro _ e; cases e

theorem Alike.rfl' (x : Thread) : Alike x x := ⟨rfl, rfl, rfl, rfl, rfl, rfl, rfl⟩

/-- Steps that keep what `Good` looks at. -/
theorem P.congr {nf : Bool} {s s' : St} (h : P nf s) (he : ∀ t, Alike (s.thr t) (s'.thr t))
    (hh : s'.host = s.host) (hc : s'.current = s.current) (hn : s'.n = s.n)
    (hr : s'.ready = s.ready) : P nf s' := by
  refine ⟨?_, ?_, ?_, ?_, ?_, ?_, ?_, ?_⟩
  · intro t; rw [hh]; exact (h.good t).alike (he t)
  · rw [hc, hh, (he _).state, (he _).resume]; exact h.cur
  · rw [(he 0).resume]; exact h.r0
  · rw [(he 0).state]; exact h.s0
  · rw [hh, (he 0).pc]; exact h.hst
  · rw [hn]; exact h.n0
  · intro t ht; rw [(he t).state]; exact h.fresh t (hn ▸ ht)
  · rw [hr, hn]; exact h.rdy

theorem P.modAlike {nf : Bool} {s : St} {t : Nat} {f : Thread → Thread} (h : P nf s)
    (he : Alike (s.thr t) (f (s.thr t))) : P nf (s.mod t f) := by
  refine h.congr ?_ rfl rfl rfl rfl
  intro k; by_cases e : k = t
  · subst e; simpa using he
  · simpa [e] using Alike.rfl' _

theorem P.lt {nf : Bool} {s : St} (h : P nf s) {t : Nat} (ht : (s.thr t).state ≠ .dead) :
    t < s.n := by
  apply Classical.byContradiction
  intro hn; exact ht (h.fresh t (by omega))

theorem P.wake {nf : Bool} {s : St} {t : Nat} (h : P nf s) (hd : (s.thr t).state ≠ .dead) :
    P nf (s.wake t) := by
  have hlt := h.lt hd
  refine ⟨?_, ?_, ?_, ?_, ?_, h.n0, ?_, ?_⟩
  · intro k; by_cases e : k = t
    · subst e; simpa using (h.good k).wake
    · simpa [e] using h.good k
  · intro hc
    obtain ⟨h1, h2⟩ := h.cur hc
    by_cases e : s.current = t
    · simpa [e] using (e ▸ h2)
    · simpa [e] using ⟨h1, h2⟩
  · by_cases e : 0 = t
    · simpa [e] using (e ▸ h.r0)
    · simpa [e] using h.r0
  · by_cases e : 0 = t
    · simp [e]
    · simpa [e] using h.s0
  · intro hh
    by_cases e : 0 = t
    · simpa [e] using (e ▸ h.hst hh)
    · simpa [e] using h.hst hh
  · intro k hk
    have : k ≠ t := by have : s.n ≤ k := hk; omega
    simpa [this] using h.fresh k hk
  · intro k hk
    rw [wake_ready] at hk
    split at hk
    · exact h.rdy k hk
    · rename_i h0
      simp only [List.mem_append, List.mem_singleton] at hk
      rcases hk with hk | hk
      · exact h.rdy k hk
      · subst hk; exact ⟨h0, hlt⟩

theorem P.foldWake {nf : Bool} {l : List Nat} : ∀ {s : St}, P nf s →
    (∀ t ∈ l, (s.thr t).state ≠ .dead) → P nf (l.foldl St.wake s) := by
  induction l with
  | nil => intro s h _; exact h
  | cons a l ih =>
    intro s h hl
    refine ih (h.wake (hl a List.mem_cons_self)) ?_
    intro t ht
    by_cases e : t = a
    · simp [e]
    · simpa [e] using hl t (List.mem_cons_of_mem _ ht)

theorem P.wakeDue {nf : Bool} {s : St} (h : P nf s) : P nf (Sched.wakeDue s) := by
  rw [wakeDue_eq]
  refine P.foldWake (s := s.pruneSleepers)
    (h.congr (fun _ => Alike.rfl' _) rfl rfl rfl rfl) ?_
  intro t ht
  have := ((mem_dueOf s t).1 ht).1
  intro e
  have e' : (s.thr t).state = .dead := e
  rw [e'] at this; cases this

theorem P.foldPoll {nf : Bool} {fds : List Nat} {l : List (Nat × Nat)} : ∀ {s : St}, P nf s →
    P nf (l.foldl (Sched.pollOne fds) s) := by
  induction l with
  | nil => intro s h; exact h
  | cons a l ih =>
    intro s h
    refine ih (s := Sched.pollOne fds s a) ?_
    unfold Sched.pollOne; split
    · rename_i hc; exact h.wake (by rw [hc.2]; simp)
    · exact h

theorem P.poll {nf : Bool} {s : St} (fds : List Nat) (h : P nf s) : P nf (Sched.poll s fds) := by
  rw [poll_eq]
  exact P.foldPoll (s := s.pruneIo) (h.congr (fun _ => Alike.rfl' _) rfl rfl rfl rfl)

theorem P.foldJoin {nf : Bool} {l : List Nat} : ∀ {s : St}, P nf s → P nf (l.foldl joinerOne s) := by
  induction l with
  | nil => intro s h; exact h
  | cons a l ih =>
    intro s h
    refine ih (s := joinerOne s a) ?_
    unfold joinerOne; split
    · rename_i hc; exact h.wake (by rw [hc]; simp)
    · exact h

theorem P.finalize {nf : Bool} {s : St} {t : Nat} (fwd : Option Intr) (h : P nf s) (ht : t ≠ 0)
    (hc : s.current = 0) (hr : (s.thr t).resume = false) : P nf (Sched.finalize s t fwd) := by
  have h1 : P nf (s.mod t fun x => { x with pending := [], state := .dead, joiners := [] }) := by
    refine ⟨?_, ?_, ?_, ?_, ?_, h.n0, ?_, h.rdy⟩
    · intro k; by_cases e : k = t
      · subst e
        simp only [mod_thr, if_true]
        refine ⟨?_, ?_, ?_, ?_⟩
        · intro e; have e' : (s.thr k).resume = true := e; rw [hr] at e'; cases e'
        · intro e; cases e
        · intro _ e; cases e
        · intro _ _; exact ⟨hr, rfl⟩
      · simpa [e] using h.good k
    · intro e; exact absurd hc e
    · simpa [Ne.symm ht] using h.r0
    · simpa [Ne.symm ht] using h.s0
    · simpa [Ne.symm ht] using h.hst
    · intro k hk; by_cases e : k = t
      · simp [e]
      · simpa [e] using h.fresh k hk
  have h2 := P.foldJoin (l := (s.thr t).joiners) h1
  have hc2 : ((s.thr t).joiners.foldl joinerOne
      (s.mod t fun x => { x with pending := [], state := .dead, joiners := [] })).current = 0 :=
    (same_foldl joinerOne same_joinerOne _ _).current.trans hc
  unfold Sched.finalize
  simp only
  generalize (s.thr t).joiners.foldl joinerOne
    (s.mod t fun x => { x with pending := [], state := .dead, joiners := [] }) = u at h2 hc2
  cases fwd with
  | none => exact h2
  | some i =>
    simp only [if_neg ht]
    split
    · rename_i hp
      have hp' : (u.thr 0).state.parked = true := by simpa using hp
      refine ⟨?_, fun e => absurd hc2 e, ?_, ?_, ?_, h2.n0, ?_, h2.rdy⟩
      · intro k; by_cases e : k = 0
        · subst e
          refine Good.free ?_ ?_ ?_ ?_ <;> simp [h2.r0, TS.parked]
        · simpa [e] using h2.good k
      · simpa using h2.r0
      · simp
      · simpa using h2.hst
      · intro k hk
        have := h2.n0
        have e : k ≠ 0 := by simp at hk; omega
        simpa [e] using h2.fresh k hk
    · rename_i hp
      have hp' : (u.thr 0).state.parked = false := by simpa using hp
      refine ⟨?_, fun e => absurd hc2 e, ?_, ?_, ?_, h2.n0, ?_, h2.rdy⟩
      · intro k; by_cases e : k = 0
        · subst e
          refine Good.free ?_ ?_ ?_ ?_
          · simp [h2.r0]
          · simpa using h2.s0.1
          · intro _; simpa using hp'
          · simpa using h2.s0.2
        · simpa [e] using h2.good k
      · simpa using h2.r0
      · simpa using h2.s0
      · simpa using h2.hst
      · intro k hk
        have := h2.n0
        have e : k ≠ 0 := by simp at hk; omega
        simpa [e] using h2.fresh k hk

/-- The running thread changes itself. -/
theorem P.runs {nf : Bool} {s : St} {c : Nat} (h : P nf s) (hc : running s = some c) :
    c = s.current ∧ (s.thr c).resume = false ∧ (s.thr c).state ≠ .created ∧
    (nf = true → (s.thr c).state ≠ .dead) ∧ (c ≠ 0 → (s.thr c).state = .runnable) ∧
    (c = 0 ↔ s.host = .main) := by
  unfold running at hc
  split at hc
  · rename_i hm
    injection hc with hc
    subst hc
    have h0 : s.current = 0 := by
      apply Classical.byContradiction
      intro h0; exact (h.cur h0).2.2.1 hm
    exact ⟨h0.symm, h.r0, h.s0.1, h.s0.2, fun e => absurd rfl e, by simp [hm]⟩
  · rename_i hm
    split at hc
    · cases hc
    · rename_i h0
      injection hc with hc
      subst hc
      obtain ⟨h1, h2, _⟩ := h.cur h0
      exact ⟨rfl, h2, by rw [h1]; simp, fun _ => by rw [h1]; simp, fun _ => h1, by simp [h0, hm]⟩

theorem P.own {nf : Bool} {s : St} {c : Nat} {f : Thread → Thread} (h : P nf s)
    (hc : running s = some c) (hs : (f (s.thr c)).state = (s.thr c).state)
    (hr : (f (s.thr c)).resume = (s.thr c).resume) : P nf (s.mod c f) := by
  obtain ⟨f1, f2, f3, f4, f5, f6⟩ := h.runs hc
  refine ⟨?_, ?_, ?_, ?_, ?_, h.n0, ?_, h.rdy⟩
  · intro k; by_cases e : k = c
    · subst e
      simp only [mod_thr, if_true]
      refine Good.free (hr.trans f2) (by rw [hs]; exact f3) ?_ (by rw [hs]; exact f4)
      intro hm
      rw [hs]
      by_cases e0 : k = 0
      · rcases hm with hm | hm
        · exact absurd e0 hm
        · rw [mod_host, f6.1 e0] at hm; rcases hm with hm | hm <;> cases hm
      · rw [f5 e0]; rfl
    · simpa [e] using h.good k
  · intro h0
    obtain ⟨h1, h2, h3⟩ := h.cur h0
    rw [mod_current] at h0 ⊢
    rw [← f1] at h0 h1 h2 ⊢
    simp only [mod_thr, if_true, mod_host]
    exact ⟨hs.trans h1, hr.trans h2, h3⟩
  · by_cases e : 0 = c
    · subst e; simpa using hr.trans f2
    · simpa [e] using h.r0
  · by_cases e : 0 = c
    · subst e; simp only [mod_thr, if_true, hs]; exact ⟨f3, f4⟩
    · simpa [e] using h.s0
  · intro hl
    by_cases e : 0 = c
    · rw [mod_host, f6.1 e.symm] at hl; rcases hl with hl | hl <;> cases hl
    · simpa [e] using h.hst hl
  · intro k hk; by_cases e : k = c
    · subst e; simp only [mod_thr, if_true, hs]; exact h.fresh k hk
    · simpa [e] using h.fresh k hk

/-- The running thread gives up the processor. -/
theorem P.park {nf : Bool} {s s' : St} {c : Nat} (h : P nf s) (hc : running s = some c)
    (hoth : ∀ t, t ≠ c → Alike (s.thr t) (s'.thr t))
    (hre : (s'.thr c).resume = if c = 0 then false else true)
    (hpc : (s'.thr c).pc.blk ∨ (c ≠ 0 ∧ (s'.thr c).pc = .pass ∧ (s'.thr c).blocking = false))
    (hst : (s'.thr c).state.parked = true ∨ (c ≠ 0 ∧ (s'.thr c).state = .runnable))
    (hpe : (s'.thr c).state.parked = true → ∀ p ∈ (s'.thr c).pending,
      intrTiming (s'.thr c) p.2 = .never)
    (hh : s'.host = if c = 0 then .loop else s.host) (hcur : s'.current = 0) (hn : s'.n = s.n)
    (hrd : s'.ready = s.ready ∨ (c ≠ 0 ∧ s'.ready = s.ready ++ [c])) : P nf s' := by
  obtain ⟨f1, f2, f3, f4, f5, f6⟩ := h.runs hc
  have hlow : ∀ t, t ≠ c → (t ≠ 0 ∨ s'.host.low) → (t ≠ 0 ∨ s.host.low) := by
    intro t ht hl
    by_cases e : t = 0
    · rcases hl with hl | hl
      · exact Or.inl hl
      · have hc0 : c ≠ 0 := fun e' => ht (e.trans e'.symm)
        rw [hh, if_neg hc0] at hl; exact Or.inr hl
    · exact Or.inl e
  refine ⟨?_, fun e => absurd hcur e, ?_, ?_, ?_, by rw [hn]; exact h.n0, ?_, ?_⟩
  · intro t; by_cases e : t = c
    · subst e
      refine ⟨?_, ?_, fun _ => hpe, ?_⟩
      · intro _
        rcases hpc with hpc | ⟨_, hpc⟩
        · exact Or.inr hpc
        · exact Or.inl hpc
      · intro e; rcases hst with hst | ⟨_, hst⟩ <;> rw [e] at hst <;> cases hst
      · intro _ e; rcases hst with hst | ⟨_, hst⟩ <;> rw [e] at hst <;> cases hst
    · exact ((h.good t).alike (hoth t e)).mono (hlow t e)
  · by_cases e : 0 = c
    · subst e; simpa using hre
    · rw [(hoth 0 e).resume]; exact h.r0
  · by_cases e : 0 = c
    · subst e
      rcases hst with hst | ⟨e, _⟩
      · refine ⟨?_, ?_⟩
        · intro e; rw [e] at hst; cases hst
        · intro _ e; rw [e] at hst; cases hst
      · exact absurd rfl e
    · rw [(hoth 0 e).state]; exact h.s0
  · intro hl
    by_cases e : 0 = c
    · subst e
      rcases hpc with hpc | ⟨e, _⟩
      · exact hpc
      · exact absurd rfl e
    · rw [(hoth 0 e).pc]
      rw [hh, if_neg (Ne.symm e)] at hl
      exact h.hst hl
  · intro t ht
    rw [hn] at ht
    have e : t ≠ c := by
      rintro rfl
      have := h.n0
      have e0 : t ≠ 0 := by omega
      have := h.fresh t ht
      rw [f5 e0] at this; cases this
    rw [(hoth t e).state]; exact h.fresh t ht
  · intro t ht
    rw [hn]
    rcases hrd with hrd | ⟨h0, hrd⟩
    · rw [hrd] at ht; exact h.rdy t ht
    · rw [hrd] at ht
      simp only [List.mem_append, List.mem_singleton] at ht
      rcases ht with ht | ht
      · exact h.rdy t ht
      · subst ht; exact ⟨h0, h.lt (by rw [f5 h0]; simp)⟩

theorem P.afterPark {nf : Bool} {s : St} {t : Nat} (h : P nf s)
    (hc : running s = some t) : P nf (afterPark s t) := by
  obtain ⟨e1, e2, e3, e4, e5, e6, e7⟩ := afterPark_fields s t
  obtain ⟨f1, f2, f3⟩ := afterPark_self s t
  have h1 := P.own (f := fun _ => (Sched.afterPark s t).thr t) h hc f1 f2
  refine h1.congr ?_ e5 e4 e1 e2
  intro k; by_cases e : k = t
  · subst e; simpa using Alike.rfl' _
  · simpa [e, afterPark_thr s t k e] using Alike.rfl' _

theorem P.afterErr {nf : Bool} {s : St} (t : Nat) (p : PC) (h : P nf s) :
    P nf (afterErr s t p) := by
  obtain ⟨e1, e2, e3, e4, e5, e6, e7, e8⟩ := afterErr_fields s t p
  exact h.congr (by intro k; rw [e8]; exact Alike.rfl' _) e5 e4 e1 e2

theorem P.dispatch {nf : Bool} {s : St} {t : Nat} (h : P nf s) (ht : t ≠ 0) (hlt : t < s.n)
    (h0 : s.current = 0) (hh : s.host ≠ .main ∧ s.host ≠ .idle) : P nf (dispatch s t) := by
  have hrun : ∀ u : St, u.current = t → u.host = s.host → running u = some t := by
    intro u hu hhu
    unfold running
    rw [hhu, if_neg hh.1, hu, if_neg ht]
  unfold Sched.dispatch
  split
  · rename_i hc
    have hr := ((h.good t).g2 hc).2.2
    split
    · rename_i id i rest hp
      refine P.finalize _ (h.modAlike ⟨rfl, rfl, rfl, rfl, rfl, rfl, rfl⟩) ht h0 ?_
      simpa using hr
    · refine ⟨?_, ?_, ?_, ?_, ?_, h.n0, ?_, h.rdy⟩
      · intro k; by_cases e : k = t
        · subst e
          simp only [mod_thr, if_true]
          exact (h.good k).wake
        · simpa [e] using h.good k
      · intro _; simpa using ⟨hr, hh⟩
      · simpa [Ne.symm ht] using h.r0
      · simpa [Ne.symm ht] using h.s0
      · simpa [Ne.symm ht] using h.hst
      · intro k hk
        have e : k ≠ t := by have : s.n ≤ k := hk; omega
        simpa [e] using h.fresh k hk
  · split
    · exact h.congr (fun _ => Alike.rfl' _) rfl rfl rfl rfl
    · have h1 : P nf { s.mod t (fun x => { x with state := .runnable, resume := false }) with
          current := t } := by
        refine ⟨?_, ?_, ?_, ?_, ?_, h.n0, ?_, h.rdy⟩
        · intro k; by_cases e : k = t
          · subst e
            simp only [mod_thr, if_true]
            exact Good.free rfl (by simp) (fun _ => rfl) (fun _ => by simp)
          · simpa [e] using h.good k
        · intro _; simpa using hh
        · simpa [Ne.symm ht] using h.r0
        · simpa [Ne.symm ht] using h.s0
        · simpa [Ne.symm ht] using h.hst
        · intro k hk
          have e : k ≠ t := by have : s.n ≤ k := hk; omega
          simpa [e] using h.fresh k hk
      have hr1 := hrun { s.mod t (fun x => { x with state := .runnable, resume := false }) with
          current := t } rfl rfl
      obtain ⟨v, hv⟩ : ∃ v : St, ({ s.mod t (fun x => { x with state := .runnable, resume := false })
          with current := t } : St) = v := ⟨_, rfl⟩
      rw [hv] at h1 hr1
      suffices hgoal : P nf (match deliver (v.thr t) (v.thr t).blocking with
          | (x, true) => Sched.afterErr (v.mod t fun _ => x) t (s.thr t).pc
          | (_, false) => Sched.afterPark v t) by
        subst hv; exact hgoal
      have hd := deliver_cases (v.thr t) (v.thr t).blocking
      rcases hd with ⟨id, rs, _, hd⟩ | ⟨_, hd⟩
      · rw [hd]
        exact P.afterErr t _ (h1.own hr1 rfl rfl)
      · rw [hd]
        exact h1.afterPark hr1

theorem P.mainBack {nf : Bool} {s : St} (b : Bool) (h : P nf s) (h0 : s.current = 0) :
    P nf (mainBack s b) := by
  have h1 : P nf { s with host := .main, current := 0 } := by
    refine ⟨?_, fun e => absurd rfl e, h.r0, h.s0, ?_, h.n0, h.fresh, h.rdy⟩
    · intro t
      refine (h.good t).mono ?_
      rintro (e | e)
      · exact Or.inl e
      · rcases e with e | e <;> cases e
    · rintro (e | e) <;> cases e
  have hr : running { s with host := .main, current := 0 } = some 0 := rfl
  unfold Sched.mainBack
  obtain ⟨v, hv⟩ : ∃ v : St, ({ s with host := .main, current := 0 } : St) = v := ⟨_, rfl⟩
  rw [hv] at h1 hr
  suffices hgoal : P nf (match deliver (v.thr 0) b with
      | (x, true) => Sched.afterErr (v.mod 0 fun _ => x) 0 (s.thr 0).pc
      | (_, false) => Sched.afterPark v 0) by
    subst hv; exact hgoal
  rcases deliver_cases (v.thr 0) b with ⟨id, rs, _, hd⟩ | ⟨_, hd⟩
  · rw [hd]
    exact P.afterErr 0 _ (h1.own hr rfl rfl)
  · rw [hd]
    exact h1.afterPark hr

end Verif.Sched
