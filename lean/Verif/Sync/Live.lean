import Verif.Sync.Keep

/-!
# Runs without interrupts: when nothing moves, who waits for what
-/

namespace Verif.Sync

theorem aloof_start {pc : Pc} (hi : pc = .user ∨ pc = .nap ∨ ∃ c : Call, pc = c.start) : Aloof pc := by
  obtain rfl | rfl | ⟨c, rfl⟩ := hi
  · exact aloof_user
  · exact ⟨fun _ => id, by simp, by simp⟩
  · cases c <;> exact ⟨fun _ => id, by simp [Call.start], by simp [Call.start]⟩

theorem live_step {caps : Nat → Option Nat} {n : Nat} {w w' : World} {a : Act} (c : Calm caps n w)
    (k : K n w) (ha : a.quiet) (hn : a.who < n) (h : w.step a = some w') : Calm caps n w' ∧ K n w' := by
  obtain ⟨c', qs⟩ := calm_step c ha hn h
  refine ⟨c', ?_⟩
  have hw := fun u => (c.all.good.ok u).wf
  have hw' := fun u => (c'.all.good.ok u).wf
  cases qs with
  | go hs hu h => exact h.k hs c.loc c.has c.j c.all.good.dead c.bound hw hw' k
  | prog pc' hu hi hth hmx hcv hqu hpc hl =>
    refine (Still.aloof (w := w) (fun c _ => by rw [hcv]) hqu (by rw [hu]; exact fun _ => id)
      (fun _ _ h => ?_) (fun _ h => ?_) (by rw [hpc]; exact aloof_start hi)).k
      (fun u e => by rw [hth u e]; exact .refl _) hw' k
    · rw [hu] at h; exact h.elim
    · rw [hu] at h; exact h.elim
  | woken b h hwk =>
    have f := woken_fr h
    rw [← hwk] at f
    have hcv : w'.cv = w.cv := by rw [hwk]; rfl
    have hqu : w'.qu = w.qu := by rw [hwk]; rfl
    have hR : ∀ c, R c w' = R c w := by
      intro c; funext u; simp only [R, (f u).pc, hcv]
    have hd := demand_qu hqu
    exact {
      nodup := by rw [hcv]; exact k.nodup
      inWt := by simp only [hcv, (f _).pc]; exact k.inWt
      stop := fun u b c hs hp => by
        rw [hcv]
        rw [(f u).pc] at hp
        obtain e | ⟨_, e⟩ := (f u).status
        · exact k.stop u b c (e ▸ hs) hp
        · rw [e] at hs; cases hs
      early := by simp only [hcv, (f _).pc]; exact k.early
      late := fun u c hp => by
        rw [hcv]
        rw [(f u).pc] at hp
        exact (k.late u c hp).imp_right (f u).permit
      wait0 := by simp only [hd, hqu, (f _).pc]; exact k.wait0
      room := by simp only [hqu, (f _).pc]; exact k.room
      need := by simp only [hcv, hqu, hd, hR, (f _).pc]; exact k.need
      shut := by simp only [hcv, hqu, (f _).pc]; exact k.shut }

theorem k_init (caps : Nat → Option Nat) (n : Nat) : K n (init caps) where
  nodup _ _ := List.nodup_nil
  inWt _ _ _ h := by simp [init] at h
  stop _ _ _ h := by simp [init] at h
  early _ _ h := h.elim
  late _ _ h := h.elim
  wait0 _ _ _ _ _ _ h := by simp [init] at h
  room _ _ h := (aloof_user.inPush _ h).elim
  need _ _ h := (h rfl).elim
  shut _ _ h := (h rfl).elim

theorem live_run {caps : Nat → Option Nat} {as : List Act} {w : World} (hq : ∀ a ∈ as, a.quiet)
    (h : (init caps).run as = some w) : ∃ n, Calm caps n w ∧ K n w := by
  obtain ⟨n, hn⟩ := bound_acts as
  exact ⟨n, run_quiet (P := fun w => Calm caps n w ∧ K n w) (n := n) ⟨calm_init caps n, k_init caps n⟩
    (fun w w' a P ha hn h => live_step P.1 P.2 ha hn h) hq hn h⟩

variable {caps : Nat → Option Nat} {n : Nat} {w : World} {t : Nat}

/-- When nothing moves, nobody serves a queue. -/
theorem settled_R (c : Calm caps n w) (k : K n w) (h : w.settled) {cc : CId} (u : Nat) :
    ¬ R cc w u := by
  intro hR
  cases hst : (w.th u).status with
  | run =>
    have := settled_run h hst
    obtain hR | ⟨hR, _⟩ := hR <;> (rw [this] at hR; exact hR)
  | dead =>
    have := c.all.good.dead u hst
    obtain hR | ⟨hR, _⟩ := hR <;> (rw [this] at hR; exact hR)
  | parked b =>
    have hp := (c.loc u).parked b hst
    obtain hR | ⟨hR, hn⟩ := hR
    · revert hp hR
      cases (w.th u).pc <;> simp [Stopped, Serve]
    · have hwf := (c.all.good.ok u).wf
      have hqf := fun q => c.queue_free h (q := q) hst
      have hsp := k.stop u b cc hst
      revert hp hR hwf hqf hsp
      cases (w.th u).pc with
      | sleep m timed a s =>
        intro hp hR _ _ hsp
        cases a with
        | stop => exact hn (hsp hR)
        | _ => exact hp
      | lock m a s =>
        intro hp hR hwf hqf _
        cases a with
        | stop => exact hqf cc.q (LockK.on_ok hR hwf).2
        | _ => exact hp
      | _ => intro hp hR; first | exact hp.elim | exact hR.elim

theorem settled_cast (c : Calm caps n w) (h : w.settled) {cc : CId} (u : Nat) :
    ¬ Casting cc (w.th u).pc := by
  intro hc
  cases hst : (w.th u).status with
  | run => rw [settled_run h hst] at hc; exact hc
  | dead => rw [c.all.good.dead u hst] at hc; exact hc
  | parked b =>
    have hp := (c.loc u).parked b hst
    revert hp hc
    cases (w.th u).pc <;> simp [Stopped, Casting]

/-- When nothing moves, somebody waits on `cc` only when there is nothing for them. -/
theorem settled_wait (c : Calm caps n w) (k : K n w) (h : w.settled) {cc : CId} (hu : ¬ cc.isUser)
    (hne : w.cv cc ≠ []) : w.demand cc = 0 ∧ (w.qu cc.q).closed = false := by
  have hcl : (w.qu cc.q).closed = false := by
    cases hc : (w.qu cc.q).closed with
    | false => rfl
    | true =>
      obtain ⟨u, hu⟩ := k.shut cc hu hne hc
      exact (settled_cast c h u hu).elim
  refine ⟨?_, hcl⟩
  obtain h1 | ⟨u, h1⟩ := k.need cc hu hne hcl
  · rw [cnt_zero fun u => settled_R c k h u] at h1; omega
  · exact (settled_cast c h u h1).elim

/-- When nothing moves, an open call on a queue is a wait. -/
theorem settled_queue (c : Calm caps n w) (k : K n w) (h : w.settled) {q : Nat} {op : QOp}
    (hnd : (w.th t).status ≠ .dead)
    (hpc : (w.th t).pc.qop = some (q, op)) :
    ∃ cc, op.cv q = some cc ∧ w.cv cc ≠ [] := by
  cases hst : (w.th t).status with
  | run => rw [settled_run h hst] at hpc; cases hpc
  | dead => exact (hnd hst).elim
  | parked b =>
    have hp := (c.loc t).parked b hst
    have hwf := (c.all.good.ok t).wf
    have hqf := fun q => c.queue_free h (q := q) hst
    have hsp := fun cc => k.stop t b cc hst
    revert hp hpc hwf hqf hsp
    cases (w.th t).pc with
    | sleep m timed a s =>
      intro hpc hp hwf _ hsp
      cases a with
      | stop => cases s with
        | user => cases hpc
        | wait cc s => cases s with
          | user => cases hpc
          | queue q' op' =>
            cases hpc
            exact ⟨cc, hwf.2, List.ne_nil_of_mem (hsp cc rfl)⟩
      | _ => exact hp.elim
    | lock m a s =>
      intro hpc hp hwf hqf _
      cases a with
      | stop =>
        exfalso
        cases s with
        | user => cases hpc
        | queue q' op' => exact hqf q' hwf
        | resleep e s => cases s with
          | user => cases hpc
          | wait cc s => cases s with
            | user => cases hpc
            | queue q' op' => exact hqf q' hwf.1
      | _ => exact hp.elim
    | nap => intro hpc; cases hpc
    | _ => intro _ hp; exact hp.elim

/-! ## Threads that do nothing -/

theorem step_other {w w' : World} {a : Act} (h : w.step a = some w') {u : Nat} (hu : u ≠ a.who) :
    (w'.th u).pc = (w.th u).pc := by
  cases a with
  | call t c d =>
    simp only [World.step] at h
    split_ifs at h with hf
    have hs : (w.th t).status = .run := by
      simp only [World.free, Bool.and_eq_true, beq_iff_eq] at hf; exact hf.1
    have l0 : Loc t w (w.setTh t fun x => { x with call := some c }) := Loc.setTh .rfl
    split at h
    · obtain rfl := Option.some.inj h
      rw [(l0.trans (loc_parkNap _ _ _ _ (by simp [hs]))).th u hu]
    · obtain rfl := Option.some.inj h
      rw [(l0.trans (Loc.setPc ..)).th u hu]
  | step t d =>
    simp only [World.step] at h
    split_ifs at h with ha hi
    · have hs : (w.th t).status = .run := by
        simp only [World.active, Bool.and_eq_true, beq_iff_eq] at ha; exact ha.1
      obtain rfl := Option.some.inj h
      rw [((loc_takeIntr w t).trans (loc_raiseAt _ _ _ (by simp [World.takeIntr, hs]))).th u hu]
    · have hs : (w.th t).status = .run := by
        simp only [World.active, Bool.and_eq_true, beq_iff_eq] at ha; exact ha.1
      obtain rfl := Option.some.inj h
      obtain ⟨w1, p, l⟩ := go_prim w t d (by simp [hs])
      rw [(l (by rw [Ne, p.isDead]; simp [hs])).th u hu, p.pc]
  | exit t =>
    have hu : u ≠ t := hu
    simp only [World.step] at h
    split_ifs at h with hf
    obtain rfl := Option.some.inj h
    rw [ev_th, setTh_ne w _ hu]
  | wakeup t =>
    have hu : u ≠ t := hu
    simp only [World.step] at h
    split at h
    · obtain rfl := Option.some.inj h
      rw [setTh_ne w _ hu]
    · cases h
  | timeout t =>
    have hu : u ≠ t := hu
    simp only [World.step] at h
    split at h
    · obtain rfl := Option.some.inj h
      rw [setTh_ne w _ hu]
    · cases h
  | send t =>
    have hu : u ≠ t := hu
    simp only [World.step] at h
    split at h
    · cases h
    · split_ifs at h
      · obtain rfl := Option.some.inj h
        rw [setTh_ne w _ hu]
      · obtain rfl := Option.some.inj h
        rw [setTh_ne w _ hu]
    · obtain rfl := Option.some.inj h
      rw [setTh_ne w _ hu]

theorem run_other {u : Nat} : ∀ {as : List Act} {w w' : World}, (∀ a ∈ as, a.who ≠ u) →
    w.run as = some w' → (w'.th u).pc = (w.th u).pc
  | [], w, w', _, h => by cases h; rfl
  | a :: as, w, w', ha, h => by
    simp only [World.run] at h
    split at h
    · next w1 e =>
      rw [run_other (fun a h => ha a (by simp [h])) h, step_other e (Ne.symm (ha a (by simp)))]
    · cases h

/-- Only the threads that appear in the run need to be looked at. -/
theorem settled_of {caps : Nat → Option Nat} {as : List Act} {w : World} (h : (init caps).run as = some w)
    (n : Nat) (hn : ∀ a ∈ as, a.who < n) (ha : ∀ t < n, w.active t = false) : w.settled := by
  intro t
  by_cases e : t < n
  · exact ha t e
  · have := run_other (u := t) (fun a h => by have := hn a h; omega) h
    simp only [World.active, this]
    simp [init]

end Verif.Sync
