import Verif.Sched.Steps

/-! # Schedules without early-ended timed waits -/

namespace Verif.Sched

/-- The running thread's facts. -/
theorem running_facts {m : Bool} {s : St} {c : Nat} (h : CInv m s) (hc : running s = some c) :
    (c = s.current) ∧ (c = 0 → s.host = .main) ∧
    (c ≠ 0 → (s.thr c).state = .runnable ∧ ents s.sleepers c = [] ∧ s.host ≠ .main ∧
      s.host ≠ .idle) ∧
    (c = 0 → m = true → (s.thr 0).state = .runnable ∧ ents s.sleepers 0 = []) := by
  unfold running at hc
  split at hc
  · rename_i hm
    injection hc with hc
    subst hc
    have h0 : s.current = 0 := by
      apply Classical.byContradiction
      intro h0; exact (h.cur h0).2.2.1 hm
    refine ⟨h0.symm, fun _ => hm, fun e => absurd rfl e, fun _ hm1 => ?_⟩
    obtain ⟨h1, h2, _⟩ := h.r.p4 hm1 (Or.inl hm)
    exact ⟨h2, h1⟩
  · split at hc
    · cases hc
    · rename_i h0
      injection hc with hc
      subst hc
      exact ⟨rfl, fun e => absurd e h0, fun _ => h.cur h0, fun e => absurd e h0⟩

/-- Parking the running thread. -/
theorem CInv.park {m : Bool} {s s' : St} {c : Nat} (h : CInv m s) (hc : running s = some c)
    (hp : (s'.thr c).state.parked = true) (hre : c ≠ 0 → (s'.thr c).resume = true)
    (hsl : (s'.thr c).state ≠ .sleeping → ∀ d, (s'.thr c).pc ≠ .sleep d)
    (hoth : ∀ t, t ≠ c → (s'.thr t).state = (s.thr t).state ∧
      (s'.thr t).resume = (s.thr t).resume ∧ (s'.thr t).pc = (s.thr t).pc ∧
      (s'.thr t).roused = (s.thr t).roused)
    (he : ents s'.sleepers c = ents s.sleepers c ++ want (s'.thr c).pc)
    (heo : ∀ t, t ≠ c → ents s'.sleepers t = ents s.sleepers t)
    (hh : s'.host = if c = 0 then .loop else s.host) (hcur : s'.current = 0)
    (hn : s'.n = s.n) (hcr : s'.crashed = s.crashed) (hnow : s'.now = s.now)
    (hrd : s'.ready = s.ready) : CInv m s' := by
  obtain ⟨f1, f2, f3, f4⟩ := running_facts h hc
  have hempty : Tr m s'.host c → ents s.sleepers c = [] := by
    intro hT
    by_cases e : c = 0
    · subst e
      rcases hT with hT | hT
      · exact absurd rfl hT
      · exact (f4 rfl hT.1).2
    · exact (f3 e).2.1
  have hTr : ∀ t, t ≠ c → Tr m s'.host t → Tr m s.host t := by
    intro t htc hT
    rcases hT with hT | ⟨h1, h2⟩
    · exact Or.inl hT
    · by_cases e : t = 0
      · subst e
        have : c ≠ 0 := fun e => htc e.symm
        rw [hh, if_neg this] at h2
        exact Or.inr ⟨h1, h2⟩
      · exact Or.inl e
  have hnr : (s'.thr c).state ≠ .runnable := by intro e; rw [e] at hp; cases hp
  refine ⟨?_, ⟨hcr.trans h.r.ncr, by rw [hn]; exact h.r.n0, ?_, ⟨?_, ?_, ?_⟩, ?_, ?_⟩,
    fun e => absurd hcur e⟩
  · rw [hcur, hrd]
    have hq := h.q
    rw [← f1] at hq
    refine Q.release (x := c) ?_ ?_
    · constructor
      · intro t
        rw [hq.cnt t]
        by_cases e : t = c
        · simp [e]
        · rw [(hoth t e).1]
      · intro t ht0 htc hpk
        rw [(hoth t htc).1] at hpk
        rw [(hoth t htc).2.1]; exact hq.res t ht0 htc hpk
    · intro h0; exact ⟨parked_not_active hp, fun _ => hre h0⟩
  · intro t ht
    rw [hn] at ht
    have hd := h.r.fresh t ht
    have e : t ≠ c := by
      rintro rfl
      have hn0 := h.r.n0
      rw [(f3 (by omega)).1] at hd; cases hd
    rw [(hoth t e).1]; exact hd
  · intro t hT hs d
    by_cases e : t = c
    · subst e
      refine hsl ?_ d
      intro e2; rw [e2] at hs; simp at hs
    · obtain ⟨h1, h2, h3, h4⟩ := hoth t e
      rw [h1] at hs; rw [h3]; exact h.r.core.c0 t (hTr t e hT) hs d
  · intro t hT hpk
    by_cases e : t = c
    · subst e; rw [he, hempty hT]; rfl
    · obtain ⟨h1, h2, h3, h4⟩ := hoth t e
      rw [h1] at hpk; rw [h3, heo t e]; exact h.r.core.c1 t (hTr t e hT) hpk
  · intro t hT hr d hd
    by_cases e : t = c
    · subst e; exact absurd hr hnr
    · obtain ⟨h1, h2, h3, h4⟩ := hoth t e
      rw [h1] at hr; rw [h3] at hd; rw [h4, hnow]; exact h.r.core.c5 t (hTr t e hT) hr d hd
  · intro k hk
    rw [hh] at hk
    by_cases e : c = 0
    · rw [if_pos e] at hk; cases hk
    · rw [if_neg e] at hk
      obtain ⟨h1, h2⟩ := h.r.p3 k hk
      rw [hrd]
      refine ⟨h1, ?_⟩
      intro t ht
      have htr := List.mem_of_mem_take ht
      have htc : t ≠ c := by
        have := (mem_active h.q htr).2.1
        rw [← f1] at this; exact this
      rw [heo t htc]; exact h2 t ht
  · intro hm hup
    rw [hh] at hup
    by_cases e : c = 0
    · rw [if_pos e] at hup
      rcases hup with hup | ⟨_, hup⟩ <;> cases hup
    · rw [if_neg e] at hup
      obtain ⟨h1, h2, h3⟩ := h.r.p4 hm hup
      obtain ⟨g1, _, g3, _⟩ := hoth 0 (Ne.symm e)
      rw [heo 0 (Ne.symm e), g1, g3]; exact ⟨h1, h2, h3⟩

theorem CInv.deliverMod {m : Bool} {s : St} {c : Nat} (b : Bool) (h : CInv m s)
    (hc : running s = some c) : CInv m (s.mod c fun _ => (deliver (s.thr c) b).1) := by
  obtain ⟨f1, f2, f3, f4⟩ := running_facts h hc
  refine h.mod (by simp) (by simp) ?_
  by_cases e : c = 0
  · subst e
    cases m with
    | false => right; exact ⟨rfl, rfl⟩
    | true => left; exact deliver_mild b (f4 rfl rfl).1
  · left; exact deliver_mild b (f3 e).1

/-- The running thread changes nothing that the invariant speaks of. -/
theorem CInv.own {m : Bool} {s : St} {c : Nat} {f : Thread → Thread} (h : CInv m s)
    (hc : running s = some c) (hs : (f (s.thr c)).state = (s.thr c).state)
    (hr : (f (s.thr c)).resume = (s.thr c).resume)
    (hpc : ∀ d, (f (s.thr c)).pc ≠ .sleep d) : CInv m (s.mod c f) := by
  obtain ⟨f1, f2, f3, f4⟩ := running_facts h hc
  refine h.mod hs hr ?_
  by_cases e : c = 0
  · subst e
    cases m with
    | false => right; exact ⟨rfl, rfl⟩
    | true => left; exact Or.inr ⟨hs.trans (f4 rfl rfl).1, hpc⟩
  · left; exact Or.inr ⟨hs.trans (f3 e).1, hpc⟩

theorem running_mod {s : St} {c : Nat} (t : Nat) (f : Thread → Thread)
    (hc : running s = some c) : running (s.mod t f) = some c := hc

theorem switch_thr (s : St) (c k : Nat) : (switch s c).thr k =
    if k = c ∧ c ≠ 0 then { s.thr k with resume := true } else s.thr k := by
  unfold switch
  by_cases h : c = 0
  · simp [h]
  · by_cases e : k = c <;> simp [h, e]

theorem switch_host (s : St) (c : Nat) :
    (switch s c).host = if c = 0 then .loop else s.host := by
  unfold switch; split <;> rfl

theorem switch_current (s : St) (c : Nat) (h : c = 0 → s.current = 0) :
    (switch s c).current = 0 := by
  unfold switch; split
  · rename_i e; exact h e
  · rfl

theorem switch_rest (s : St) (c : Nat) : (switch s c).n = s.n ∧ (switch s c).ready = s.ready ∧
    (switch s c).sleepers = s.sleepers ∧ (switch s c).io = s.io ∧ (switch s c).now = s.now ∧
    (switch s c).crashed = s.crashed := by
  unfold switch; split <;> simp

theorem switch_sleepers (s : St) (c : Nat) : (switch s c).sleepers = s.sleepers :=
  (switch_rest s c).2.2.1

theorem CInv.sleep {m : Bool} {s : St} {c : Nat} (dl : Option Nat) (h : CInv m s)
    (hc : running s = some c) (hu : (s.thr c).pc = .user) : CInv m (sleep s c dl) := by
  obtain ⟨f1, f2, f3, f4⟩ := running_facts h hc
  unfold Sched.sleep
  have hd := h.deliverMod true hc
  rcases deliver_cases (s.thr c) true with ⟨id, rs, _, e⟩ | ⟨_, e⟩
  · rw [e] at hd ⊢; exact hd
  · rw [e]
    have h1 : CInv m (s.mod c fun x => { x with blocking := true }) :=
      h.own hc rfl rfl (by simp [hu])
    simp only
    split
    · exact h1.own (running_mod _ _ hc) rfl rfl (by simp [hu])
    · refine h.park (c := c) hc ?_ ?_ ?_ ?_ ?_ ?_ ?_ ?_
        (switch_rest _ _).1 (switch_rest _ _).2.2.2.2.2 (switch_rest _ _).2.2.2.2.1
        (switch_rest _ _).2.1
      · rw [switch_thr]; by_cases e0 : c = 0 <;> simp [e0, TS.parked]
      · intro e0; rw [switch_thr]; simp [e0]
      · intro hns; rw [switch_thr] at hns; by_cases e0 : c = 0 <;> simp [e0] at hns
      · intro t htc; rw [switch_thr]; simp [htc]
      · rw [switch_sleepers]
        show ents (s.sleepers ++ [(dl, c)]) c = _
        rw [ents_append, switch_thr]
        by_cases e0 : c = 0 <;> simp [e0, want]
      · intro t htc
        rw [switch_sleepers]
        show ents (s.sleepers ++ [(dl, c)]) t = _
        rw [ents_append, if_neg (Ne.symm htc)]
      · rw [switch_host]; rfl
      · exact switch_current _ _ fun e0 => by simp [← f1, e0]

theorem CInv.waitFds {m : Bool} {s : St} {c : Nat} (fds : List Nat) (dl : Option Nat)
    (h : CInv m s) (hc : running s = some c) : CInv m (waitFds s c fds dl) := by
  obtain ⟨f1, f2, f3, f4⟩ := running_facts h hc
  unfold Sched.waitFds
  have hd := h.deliverMod true hc
  rcases deliver_cases (s.thr c) true with ⟨id, rs, _, e⟩ | ⟨_, e⟩
  · rw [e] at hd ⊢; exact hd
  · rw [e]
    simp only
    refine h.park (c := c) hc ?_ ?_ ?_ ?_ ?_ ?_ ?_ ?_
        (switch_rest _ _).1 (switch_rest _ _).2.2.2.2.2 (switch_rest _ _).2.2.2.2.1
        (switch_rest _ _).2.1
    · rw [switch_thr]; by_cases e0 : c = 0 <;> simp [e0, TS.parked]
    · intro e0; rw [switch_thr]; simp [e0]
    · intro _ d; rw [switch_thr]; by_cases e0 : c = 0 <;> simp [e0]
    · intro t htc; rw [switch_thr]; simp [htc]
    · rw [switch_sleepers, switch_thr]
      cases dl with
      | none => by_cases e0 : c = 0 <;> simp [e0, want]
      | some d =>
        simp only [Option.isSome_some, if_true, ents_append]
        by_cases e0 : c = 0 <;> simp [e0, want]
    · intro t htc
      rw [switch_sleepers]
      cases dl with
      | none => rfl
      | some d => simp only [Option.isSome_some, if_true, ents_append, if_neg (Ne.symm htc), mod_sleepers]
    · rw [switch_host]; rfl
    · exact switch_current _ _ fun e0 => by simp [← f1, e0]

theorem CInv.joinLoop {m : Bool} {s : St} {c t : Nat} {dl : Option Nat}
    (h : CInv m s) (hc : running s = some c) (hpc : (s.thr c).pc = .join t dl) :
    CInv m (joinLoop s c t dl) := by
  obtain ⟨f1, f2, f3, f4⟩ := running_facts h hc
  unfold Sched.joinLoop
  have hd := h.deliverMod true hc
  rcases deliver_cases (s.thr c) true with ⟨id, rs, _, e⟩ | ⟨_, e⟩
  · rw [e] at hd ⊢; exact hd
  · rw [e]
    have h1 : CInv m (s.mod c fun x => { x with blocking := true }) :=
      h.own hc rfl rfl (by simp [hpc])
    simp only
    split
    · exact h1.own (running_mod _ _ hc) rfl rfl (by simp)
    · split
      · exact h1.own (running_mod _ _ hc) rfl rfl (by simp)
      · generalize hv : (((s.mod c fun x => { x with blocking := true }).mod c
          fun x => { x with state := .joining }).mod t
            fun x => { x with joiners := x.joiners ++ [c] }) = v
        have hvc : (v.thr c).state = .joining ∧ (v.thr c).pc = .join t dl := by
          rw [← hv]; by_cases e0 : c = t <;> simp [e0] <;> (try (rw [← e0])) <;> simp [hpc] <;>
            simp [e0]
        have hvo : ∀ k, k ≠ c → (v.thr k).state = (s.thr k).state ∧
            (v.thr k).resume = (s.thr k).resume ∧ (v.thr k).pc = (s.thr k).pc ∧
            (v.thr k).roused = (s.thr k).roused := by
          intro k hk; rw [← hv]; by_cases e0 : k = t <;> simp [e0, hk]
          simp [← e0, hk]
        have hvs : v.sleepers = s.sleepers ∧ v.host = s.host ∧ v.current = s.current ∧ v.n = s.n ∧
            v.crashed = s.crashed ∧ v.now = s.now ∧ v.ready = s.ready := by
          rw [← hv]; simp
        obtain ⟨v1, v2, v3, v4, v5, v6, v7⟩ := hvs
        obtain ⟨g1, g2, g3, g4, g5, g6⟩ := switch_rest
          { v with sleepers := if dl.isSome then v.sleepers ++ [(dl, c)] else v.sleepers } c
        refine h.park (c := c) hc ?_ ?_ ?_ ?_ ?_ ?_ ?_ ?_ (g1.trans v4) (g6.trans v5) (g5.trans v6)
          (g2.trans v7)
        · rw [switch_thr]; by_cases e0 : c = 0
          · subst e0; simp [hvc, TS.parked]
          · simp [e0, hvc, TS.parked]
        · intro e0; rw [switch_thr]; simp [e0]
        · intro _ d; rw [switch_thr]; by_cases e0 : c = 0
          · subst e0; simp [hvc]
          · simp [e0, hvc]
        · intro k htc; rw [switch_thr]; simp [htc]; exact hvo k htc
        · rw [g3, switch_thr]
          have hw : want (if c = c ∧ c ≠ 0 then { v.thr c with resume := true } else v.thr c).pc =
              want (.join t dl) := by
            split <;> simp [hvc.2]
          show ents (if dl.isSome then v.sleepers ++ [(dl, c)] else v.sleepers) c = _
          rw [hw, v1]
          cases dl with
          | none => simp [want]
          | some d => simp [ents_append, want]
        · intro k htc
          rw [g3]
          show ents (if dl.isSome then v.sleepers ++ [(dl, c)] else v.sleepers) k = _
          rw [v1]
          cases dl with
          | none => rfl
          | some d => simp only [Option.isSome_some, if_true, ents_append, if_neg (Ne.symm htc)]
        · rw [switch_host]; show (if c = 0 then Host.loop else v.host) = _; rw [v2]
        · exact switch_current _ _ fun e0 => by show v.current = 0; rw [v3, ← f1, e0]

theorem CInv.pass {m : Bool} {s : St} {c : Nat} {fds : List Nat} (h : CInv m s)
    (hc : running s = some c) (hu : (s.thr c).pc = .user)
    (hp : c = 0 → Polite m s fds) : CInv m (pass s c fds) := by
  obtain ⟨f1, f2, f3, f4⟩ := running_facts h hc
  unfold Sched.pass
  have hd := h.deliverMod false hc
  rcases deliver_cases (s.thr c) false with ⟨id, rs, _, e⟩ | ⟨_, e⟩
  · rw [e] at hd ⊢; exact hd
  · rw [e]
    have h1 : CInv m (s.mod c fun x => { x with blocking := false }) :=
      h.own hc rfl rfl (by simp [hu])
    simp only
    split
    · rename_i h0
      subst h0
      have hhost := f2 rfl
      have hpol : Polite m (s.mod 0 fun x => { x with blocking := false }) fds := by
        intro e he hfd hm hst
        have := hp rfl e he hfd hm
        by_cases e0 : e.2 = 0
        · simp only [mod_thr, if_pos e0] at hst ⊢; exact this hst
        · simp only [mod_thr, if_neg e0] at hst ⊢; exact this hst
      obtain ⟨k1, k2⟩ := h1.machine f1.symm (by simp [hhost]) hpol
      have hc2 : (Sched.poll (wakeDue (s.mod 0 fun x => { x with blocking := false })) fds).current
          = 0 := (poll_same _ _).current.trans ((wakeDue_same _).current.trans f1.symm)
      have hh2 : (Sched.poll (wakeDue (s.mod 0 fun x => { x with blocking := false })) fds).host
          = .main := (poll_same _ _).host.trans ((wakeDue_same _).host.trans hhost)
      generalize Sched.poll (wakeDue (s.mod 0 fun x => { x with blocking := false })) fds = u
        at k1 k2 hc2 hh2
      have hr := k1.r.rehost (hst := .pass u.ready.length) (rd := u.ready) (by simp)
        (by
          intro k hk
          injection hk with hk
          subst hk
          refine ⟨Nat.le_refl _, ?_⟩
          intro t ht
          rw [List.take_length] at ht
          obtain ⟨g1, _, g3⟩ := mem_active k1.q ht
          refine k2 t (Or.inl g1) ?_
          cases hst : (u.thr t).state <;> rw [hst] at g3 <;> simp_all [TS.active, TS.parked])
        (by intro hm _; exact k1.r.p4 hm (Or.inl hh2))
      exact ⟨k1.q, hr, fun e => absurd hc2 e⟩
    · rename_i h0
      obtain ⟨k1, k2, k3, k4⟩ := f3 h0
      have hq : Q (switch (({ s.mod c (fun x => { x with blocking := false }) with
          ready := s.ready ++ [c] } : St).mod c fun x => { x with pc := .pass }) c).thr
          (s.ready ++ [c]) 0 := by
        refine Q.queue (x := c) ?_ h0 ?_ ?_
        · have hq0 := h.q
          rw [← f1] at hq0
          constructor
          · intro t; rw [hq0.cnt t]
            by_cases e : t = c
            · simp [e]
            · rw [switch_thr]; simp [e]
          · intro t ht0 htc hpk
            rw [switch_thr] at hpk ⊢
            simp [htc] at hpk ⊢
            exact hq0.res t ht0 htc hpk
        · rw [switch_thr]; simp [h0, k1, TS.active]
        · rw [switch_thr]; simp [h0]
      have hsw : (switch (({ s.mod c (fun x => { x with blocking := false }) with
          ready := s.ready ++ [c] } : St).mod c fun x => { x with pc := .pass }) c).current = 0 :=
        switch_current _ _ fun e => absurd e h0
      have hrd : (switch (({ s.mod c (fun x => { x with blocking := false }) with
          ready := s.ready ++ [c] } : St).mod c fun x => { x with pc := .pass }) c).ready =
          s.ready ++ [c] := (switch_rest _ _).2.1
      refine ⟨?_, ?_, fun e => absurd hsw e⟩
      · show Q (switch (({ s.mod c (fun x => { x with blocking := false }) with
          ready := s.ready ++ [c] } : St).mod c fun x => { x with pc := .pass }) c).thr
          (switch (({ s.mod c (fun x => { x with blocking := false }) with
          ready := s.ready ++ [c] } : St).mod c fun x => { x with pc := .pass }) c).ready
          (switch (({ s.mod c (fun x => { x with blocking := false }) with
          ready := s.ready ++ [c] } : St).mod c fun x => { x with pc := .pass }) c).current
        rw [hsw, hrd]; exact hq
      · refine h.r.congr (by rw [switch_host, if_neg h0]; rfl) ((switch_rest _ _).2.2.2.2.2.trans
          h.r.ncr) (by rw [(switch_rest _ _).1]; exact Nat.le_refl _) ?_ ?_ (switch_sleepers _ _)
          (by rw [(switch_rest _ _).2.2.2.2.1]; exact Nat.le_refl _) ⟨[c], hrd⟩
        · intro t _ hdead
          rw [switch_thr]
          by_cases e : t = c
          · subst e; rw [k1] at hdead; cases hdead
          · simpa [e] using hdead
        · intro t
          left
          rw [switch_thr]
          by_cases e : t = c
          · subst e; exact Or.inr ⟨by simp [h0, k1], by simp [h0]⟩
          · simpa [e] using Mild.rfl' _

theorem CInv.spawn {m : Bool} {s : St} (ab : Bool) (h : CInv m s) : CInv m (spawn s ab) := by
  have hn0 := h.r.n0
  have hdead := h.r.fresh s.n (Nat.le_refl _)
  have hcn : s.current ≠ s.n := by
    intro e
    have : s.current ≠ 0 := by omega
    have := (h.cur this).1
    rw [e, hdead] at this; cases this
  refine ⟨⟨?_, ?_⟩, ?_, ?_⟩
  · intro t
    show (s.ready ++ [s.n]).count t = _
    rw [List.count_append, h.q.cnt t]
    by_cases e : t = s.n
    · subst e
      simp [Sched.spawn, hdead, TS.active, Ne.symm hcn, Nat.ne_of_gt hn0]
    · simp [Sched.spawn, e, Ne.symm e]
  · intro t h0 hc hp
    by_cases e : t = s.n
    · subst e; simp [Sched.spawn, TS.parked] at hp
    · simp only [Sched.spawn, if_neg e] at hp ⊢; exact h.q.res t h0 hc hp
  · refine h.r.congr rfl h.r.ncr (Nat.le_succ _) ?_ ?_ rfl (Nat.le_refl _) ⟨[s.n], rfl⟩
    · intro t ht hd
      have : t ≠ s.n := by simp [Sched.spawn] at ht; omega
      simpa [Sched.spawn, this] using hd
    · intro t
      by_cases e : t = s.n
      · right; right; subst e; exact ⟨Nat.ne_of_gt hn0, Or.inr (by simp [Sched.spawn])⟩
      · left; simpa [Sched.spawn, e] using Mild.rfl' _
  · intro h0
    have := h.cur h0
    simpa [Sched.spawn, hcn] using this

theorem CInv.wakeup {m : Bool} {s : St} (t : Nat) (p : Bool) (h : CInv m s) :
    CInv m (wakeup s t p) := by
  unfold Sched.wakeup
  split
  · rename_i hs
    have h1 : CInv m (s.mod t fun x => { x with roused := true }) :=
      h.mod rfl rfl (Or.inl (Or.inl ⟨rfl, rfl, fun _ => rfl⟩))
    exact h1.wake (by simp [hs, TS.parked]) (by simp)
  · split
    · exact h.mod rfl rfl (Or.inl (Or.inl ⟨rfl, rfl, id⟩))
    · exact h
  · exact h

theorem CInv.interrupt {m : Bool} {s : St} {c : Nat} (t : Nat) (i : Intr) (h : CInv m s)
    (hc : running s = some c) (hu : (s.thr c).pc = .user) : CInv m (interrupt s c t i) := by
  have hpush : CInv m (s.mod t fun x => push x i) :=
    h.mod rfl rfl (Or.inl (Or.inl ⟨rfl, rfl, id⟩))
  unfold Sched.interrupt
  split
  · rename_i e
    subst e
    refine hpush.own (running_mod _ _ hc) (by simp) (by simp) ?_
    intro d
    rw [deliver_pc _ _ (by simp [hu])]
    simp
  · split
    · exact h
    · simp only
      split
      · rename_i hp
        simp only [Bool.and_eq_true] at hp
        have h1 : CInv m ((s.mod t fun x => push x i).mod t fun x => { x with roused := true }) :=
          hpush.mod rfl rfl (Or.inl (Or.inl ⟨rfl, rfl, fun _ => rfl⟩))
        exact h1.wake (by simpa using hp.2) (by simp)
      · exact hpush

theorem finalize_fields (s : St) (t : Nat) (fwd : Option Intr) :
    (Sched.finalize s t fwd).current = s.current ∧ (Sched.finalize s t fwd).host = s.host ∧
    (Sched.finalize s t fwd).now = s.now ∧ (Sched.finalize s t fwd).n = s.n ∧
    (Sched.finalize s t fwd).sleepers = s.sleepers ∧
    (Sched.finalize s t fwd).crashed = s.crashed ∧
    ∃ l, (Sched.finalize s t fwd).ready = s.ready ++ l := by
  have h := same_foldl joinerOne same_joinerOne (s.thr t).joiners
    (s.mod t fun x => { x with pending := [], state := .dead, joiners := [] })
  unfold Sched.finalize
  have e : ((s.thr t).joiners.foldl joinerOne
      (s.mod t fun x => { x with pending := [], state := .dead, joiners := [] })).current =
      s.current ∧ ((s.thr t).joiners.foldl joinerOne
      (s.mod t fun x => { x with pending := [], state := .dead, joiners := [] })).host =
      s.host ∧ ((s.thr t).joiners.foldl joinerOne
      (s.mod t fun x => { x with pending := [], state := .dead, joiners := [] })).now =
      s.now ∧ ((s.thr t).joiners.foldl joinerOne
      (s.mod t fun x => { x with pending := [], state := .dead, joiners := [] })).n =
      s.n ∧ ((s.thr t).joiners.foldl joinerOne
      (s.mod t fun x => { x with pending := [], state := .dead, joiners := [] })).sleepers =
      s.sleepers ∧ ((s.thr t).joiners.foldl joinerOne
      (s.mod t fun x => { x with pending := [], state := .dead, joiners := [] })).crashed =
      s.crashed ∧ ∃ l, ((s.thr t).joiners.foldl joinerOne
      (s.mod t fun x => { x with pending := [], state := .dead, joiners := [] })).ready =
      s.ready ++ l := ⟨h.current, h.host, h.now, h.n, h.sleepers, h.crashed, h.ready⟩
  cases fwd with
  | none => exact e
  | some i =>
    simp only
    split
    · exact e
    · split <;> exact e

theorem CInv.exit {m : Bool} {s : St} {c : Nat} (fwd : Option Intr) (h : CInv m s)
    (hc : running s = some c) (h0 : c ≠ 0) :
    CInv m (Sched.finalize { s with current := 0 } c fwd) := by
  obtain ⟨f1, f2, f3, f4⟩ := running_facts h hc
  have hcur := (finalize_fields { s with current := 0 } c fwd).1
  have hr : R m { s with current := 0 } :=
    h.r.congr rfl h.r.ncr (Nat.le_refl _) (fun _ _ h => h) (fun _ => Or.inl (Mild.rfl' _)) rfl
      (Nat.le_refl _) ⟨[], by simp⟩
  refine ⟨?_, hr.finalize fwd h0, fun e => absurd hcur e⟩
  rw [hcur]
  have hq := h.q
  rw [← f1] at hq
  exact Q.finalize (s := { s with current := 0 }) fwd h0 hq

theorem CInv.loopErr {s : St} (h : CInv false s) (h0 : s.current = 0) (p : PC) :
    CInv false (Sched.afterErr (({ s with host := .main } : St).mod 0 fun x => { x with pc := .user }) 0 p) := by
  refine CInv.afterErr 0 p ?_
  have hr := h.r.rehost (hst := .main) (rd := s.ready) (by simp) (by simp) (by simp)
  have h1 : CInv false { s with host := .main } := ⟨h.q, hr, fun e => absurd h0 e⟩
  exact h1.mod rfl rfl (Or.inr ⟨rfl, rfl⟩)

theorem CInv.passNext {m : Bool} {s s' : St} (h : CInv m s) (hs : step s .passNext = some s') :
    CInv m s' := by
  have hnc : ¬ (s.crashed = true) := by rw [h.r.ncr]; simp
  unfold Sched.step at hs
  rw [if_neg hnc] at hs
  simp only at hs
  split at hs
  · rename_i k hh
    split at hs
    · rename_i h0
      obtain ⟨p1, p2⟩ := h.r.p3 k hh
      split at hs
      · rename_i k' t rest hrd
        injection hs with hs
        subst hs
        have hq : Q s.thr (t :: rest) 0 := by rw [← hrd, ← h0]; exact h.q
        rw [hrd] at p1 p2
        rw [List.take_succ_cons] at p2
        refine CInv.dispatch hq ?_ h0 (by simp) (p2 t List.mem_cons_self)
        refine h.r.rehost (by simp) ?_ ?_
        · intro j hj
          injection hj with hj
          subst hj
          refine ⟨by simpa using p1, fun t' ht' => p2 t' (List.mem_cons_of_mem _ ht')⟩
        · intro hm _; exact h.r.p4 hm (Or.inr ⟨_, hh⟩)
      · injection hs with hs
        subst hs
        exact h.mainBack false h0 (fun hm => (h.r.p4 hm (Or.inr ⟨_, hh⟩)).2.1)
          (fun hm => (h.r.p4 hm (Or.inr ⟨_, hh⟩)).1)
    · cases hs
  · cases hs

/-- The steps of the schedules considered: no fork, and no zero-timeout poll (of the loop or of
main's `pass`) that ends a timed wait for descriptors; with `m` this includes main's waits, and the
loop never returns an error to main. -/
def Clean (m : Bool) (s : St) : Act → Prop
  | .call (.pass fds) => s.host = .main → Polite m s fds
  | .call .fork => False
  | .loopIter fds => Polite m s fds
  | .loopErr => m = false
  | _ => True

theorem CInv.step {m : Bool} {s s' : St} {a : Act} (h : CInv m s) (hcl : Clean m s a)
    (hs : step s a = some s') : CInv m s' := by
  have hnc : ¬ (s.crashed = true) := by rw [h.r.ncr]; simp
  cases a with
  | passNext => exact h.passNext hs
  | tick d =>
    unfold Sched.step at hs; rw [if_neg hnc] at hs; simp only [Option.some.injEq] at hs
    subst hs
    exact h.congr rfl rfl rfl rfl (fun _ => rfl) (fun _ => rfl)
      (fun _ => Or.inl (Mild.rfl' _)) rfl (Nat.le_add_right _ _) rfl
  | loopIter fds =>
    unfold Sched.step at hs; rw [if_neg hnc] at hs; simp only at hs
    split at hs
    · rename_i hc
      injection hs with hs
      subst hs
      exact h.loopIter hc.1 hc.2 hcl
    · cases hs
  | idle fds =>
    unfold Sched.step at hs; rw [if_neg hnc] at hs; simp only at hs
    split at hs
    · rename_i hh
      injection hs with hs
      subst hs
      have h0 : s.current = 0 := by
        apply Classical.byContradiction
        intro h0; exact (h.cur h0).2.2.2 hh
      have h1 := h.poll fds h0
      have hc1 : (Sched.poll s fds).current = 0 := (poll_same s fds).current.trans h0
      have hh1 : (Sched.poll s fds).host = .idle := (poll_same s fds).host.trans hh
      have hr := h1.r.rehost (hst := .loop) (rd := (Sched.poll s fds).ready)
        (fun _ _ => Or.inr hh1) (by simp) (by rintro _ (e | ⟨_, e⟩) <;> cases e)
      exact ⟨h1.q, hr, fun e => absurd hc1 e⟩
    · cases hs
  | loopErr =>
    unfold Sched.step at hs; rw [if_neg hnc] at hs; simp only at hs
    split at hs
    · rename_i hc
      injection hs with hs
      subst hs
      have : m = false := hcl
      subst this
      exact h.loopErr hc.2 _
    · cases hs
  | joinLoop =>
    unfold Sched.step at hs; rw [if_neg hnc] at hs; simp only at hs
    split at hs
    · rename_i c hc
      split at hs
      · rename_i t dl hpc
        injection hs with hs
        subst hs
        exact h.joinLoop hc hpc
      · cases hs
    · cases hs
  | call k =>
    unfold Sched.step at hs; rw [if_neg hnc] at hs; simp only at hs
    split at hs
    · rename_i c hc
      split at hs
      · rename_i hu
        cases k with
        | spawn ab => simp only [doCall, Option.some.injEq] at hs; subst hs; exact h.spawn ab
        | wakeup t p =>
          simp only [doCall] at hs
          split at hs
          · injection hs with hs; subst hs; exact h.wakeup t p
          · cases hs
        | sleep dl => simp only [doCall, Option.some.injEq] at hs; subst hs; exact h.sleep dl hc hu
        | pass fds =>
          simp only [doCall, Option.some.injEq] at hs; subst hs
          refine h.pass hc hu ?_
          intro h0
          exact hcl ((running_facts h hc).2.1 h0)
        | join t dl =>
          simp only [doCall] at hs
          split at hs
          · injection hs with hs; subst hs
            unfold joinEnter
            split
            · exact h
            · exact h.own hc rfl rfl (by simp)
          · cases hs
        | waitFds fds dl =>
          simp only [doCall, Option.some.injEq] at hs; subst hs; exact h.waitFds fds dl hc
        | interrupt t i =>
          simp only [doCall] at hs
          split at hs
          · injection hs with hs; subst hs; exact h.interrupt t i hc hu
          · cases hs
        | pushMask ms =>
          simp only [doCall, Option.some.injEq] at hs; subst hs
          exact h.own hc rfl rfl (by simp [hu])
        | popMask =>
          simp only [doCall, Option.some.injEq] at hs; subst hs
          exact h.own hc rfl rfl (by simp [hu])
        | setUnint on =>
          simp only [doCall, Option.some.injEq] at hs; subst hs
          exact h.own hc rfl rfl (by simp [hu])
        | checkpoint b =>
          simp only [doCall, Option.some.injEq] at hs; subst hs
          refine h.own hc (by simp) (by simp) ?_
          intro d; rw [deliver_pc _ _ hu]; simp
        | exit fwd =>
          simp only [doCall] at hs
          split at hs
          · cases hs
          · rename_i h0; injection hs with hs; subst hs; exact h.exit fwd hc h0
        | fork => exact absurd hcl id
      · cases hs
    · cases hs

/-- Schedules all of whose steps are clean. -/
def CleanRun (m : Bool) : St → List Act → Prop
  | _, [] => True
  | s, a :: as => Clean m s a ∧ ∀ s', step s a = some s' → CleanRun m s' as

/-- States clean schedules lead to. -/
def CleanReachable (m : Bool) (s : St) : Prop := ∃ as, CleanRun m init as ∧ run init as = some s

theorem CInv.init (m : Bool) : CInv m Sched.init := by
  refine ⟨⟨?_, ?_⟩, ⟨rfl, Nat.one_pos, ?_, ⟨?_, ?_, ?_⟩, ?_, ?_⟩, fun e => absurd rfl e⟩
  · intro t; by_cases e : t = 0 <;> simp [Sched.init, e, TS.active]
  · intro t h0 _ hp; simp [Sched.init, h0, TS.parked] at hp
  · intro t ht
    have : t ≠ 0 := by simp [Sched.init] at ht; omega
    simp [Sched.init, this]
  · intro t _ _; simp [Sched.init]
  · intro t _ hp; by_cases e : t = 0 <;> simp [Sched.init, e, TS.parked] at hp
  · intro t _ _; simp [Sched.init]
  · intro k hk; simp [Sched.init] at hk
  · intro _ _; simp [Sched.init, ents]

theorem CInv.run {m : Bool} : ∀ {as : List Act} {s s' : St}, CInv m s → CleanRun m s as →
    run s as = some s' → CInv m s' := by
  intro as
  induction as with
  | nil => intro s s' h _ hr; simp only [Sched.run, Option.some.injEq] at hr; subst hr; exact h
  | cons a as ih =>
    intro s s' h hcl hr
    simp only [Sched.run] at hr
    split at hr
    · rename_i s1 hs; exact ih (h.step hcl.1 hs) (hcl.2 s1 hs) hr
    · cases hr

theorem CleanReachable.cinv {m : Bool} {s : St} (h : CleanReachable m s) : CInv m s := by
  obtain ⟨as, hcl, hr⟩ := h
  exact (CInv.init m).run hcl hr

end Verif.Sched
