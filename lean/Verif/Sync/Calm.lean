import Verif.Sync.Lock

/-!
# Runs without interrupts
-/

namespace Verif.Sync

/-- Every action except sending an interrupt. -/
def Act.quiet : Act → Bool
  | .send _ => false
  | _ => true

def Act.who : Act → Nat
  | .call t _ _ => t
  | .step t _ => t
  | .exit t => t
  | .wakeup t => t
  | .timeout t => t
  | .send t => t

/-- A step of a run without interrupts. -/
inductive QS (t : Nat) (w w' : World) : Prop
  | go (hs : (w.th t).status = .run) (hu : (w.th t).pc ≠ .user) (h : T t w w')
  | prog (pc' : Pc) (hu : (w.th t).pc = .user) (hi : pc' = .user ∨ pc' = .nap ∨ ∃ c : Call, pc' = c.start)
    (hth : ∀ u, u ≠ t → w'.th u = w.th u) (hmx : w'.mx = w.mx) (hcv : w'.cv = w.cv) (hqu : w'.qu = w.qu)
    (hpc : (w'.th t).pc = pc') (hl : Loc0 (w'.th t))
  | woken (b : Bool) (h : (w.th t).status = .parked b)
    (hw : w' = w.setTh t fun x => { x with status := .run })

theorem step_qs {w w' : World} {a : Act} (ha : a.quiet) (g : Good w) (hl : ∀ t, Loc0 (w.th t))
    (hh : HasI w) (h : w.step a = some w') : QS a.who w w' := by
  cases a with
  | call t c d =>
    simp only [World.step] at h
    split_ifs at h with hf
    simp only [World.free, Bool.and_eq_true, beq_iff_eq] at hf
    have hp := (hl t).pend
    have go : ∀ c : Call, QS t w ((w.setTh t fun x => { x with call := some c }).setPc t c.start) := by
      intro c
      refine .prog c.start hf.2 (.inr (.inr ⟨c, rfl⟩))
        (fun u e => by rw [World.setPc, setTh_ne _ _ e, setTh_ne _ _ e]) rfl rfl rfl (by simp [World.setPc])
        ⟨by simpa [World.setPc] using hp, fun b hb => ?_, ?_⟩
      · simp [World.setPc, hf.1] at hb
      · simp only [World.setPc, setTh_self]; cases c <;> trivial
    cases c with
    | nap timed =>
      simp only [Option.some.injEq] at h
      subst h
      simp only [Act.who]
      unfold World.parkNap
      rw [not_canIntr (by simpa using hp)]
      simp only [Bool.and_false, Bool.false_eq_true, if_false]
      split_ifs with h1
      · have k := to_retUser (w := (w.setTh t fun x => { x with call := some (.nap timed) }).setTh t
          fun x => { x with permit := false }) (t := t) (.ok none)
        refine .prog .user hf.2 (.inl rfl) (fun u e => by rw [k.th u e, setTh_ne _ _ e, setTh_ne _ _ e]) k.mx ?_ k.qu k.pc
          ⟨by rw [k.pending]; simpa using hp, fun b hb => ?_, by rw [k.pc]; trivial⟩
        · unfold World.retUser; split <;> rfl
        · rw [k.status] at hb; simp [hf.1] at hb
      · refine .prog .nap hf.2 (.inr (.inl rfl)) (fun u e => by rw [setTh_ne _ _ e, setTh_ne _ _ e]) rfl rfl rfl (by simp)
          ⟨by simpa using hp, fun b hb => ?_, ?_⟩
        · simp only [setTh_self]; trivial
        · simp only [setTh_self]; trivial
    | _ =>
      simp only [Option.some.injEq] at h
      subst h
      exact go _
  | step t d =>
    simp only [World.step] at h
    split_ifs at h with hf hi
    · simp only [Bool.and_eq_true] at hi
      rw [not_canIntr (hl t).pend] at hi
      exact (Bool.false_ne_true hi.2).elim
    · simp only [Option.some.injEq] at h
      subst h
      simp only [World.active, Bool.and_eq_true, beq_iff_eq, bne_iff_ne, ne_eq] at hf
      exact .go hf.1 hf.2 (go_T (hl t).pend hf.2 (g.ok t).wf (hl t).calm fun q => hh q t)
  | exit t =>
    simp only [World.step] at h
    split_ifs at h with hf
    simp only [World.free, Bool.and_eq_true, beq_iff_eq] at hf
    simp only [Option.some.injEq] at h
    subst h
    refine .prog .user hf.2 (.inl rfl) (fun u e => setTh_ne w (fun x => { x with status := .dead }) e) rfl rfl rfl
      (by simpa [World.ev, Act.who] using hf.2) ⟨by simpa [World.ev, Act.who] using (hl t).pend, fun b hb => ?_, ?_⟩
    · simp [World.ev, Act.who] at hb
    · have : ((w.setTh t fun x => { x with status := .dead }).th t).pc = .user := by simpa using hf.2
      show Pc.calm0 ((w.setTh t fun x => { x with status := .dead }).th t).pc
      rw [this]; trivial
  | wakeup t =>
    simp only [World.step] at h
    split at h
    · next b hb => simp only [Option.some.injEq] at h; exact .woken b hb h.symm
    · cases h
  | timeout t =>
    simp only [World.step] at h
    split at h
    · next hb => simp only [Option.some.injEq] at h; exact .woken true hb h.symm
    · cases h
  | send t => cases ha

/-- Facts about runs without interrupts by threads below `n`. -/
structure Calm (caps : Nat → Option Nat) (n : Nat) (w : World) : Prop where
  all : All caps w
  alive : OwnAlive w
  loc : ∀ t, Loc0 (w.th t)
  has : HasI w
  j : J w
  bound : ∀ t, n ≤ t → (w.th t).pc = .user

variable {w w' : World} {t : Nat}

theorem woken_fr {b : Bool} (h : (w.th t).status = .parked b) (u : Nat) :
    Fr (w.th u) ((w.setTh t fun x => { x with status := .run }).th u) := by
  by_cases e : u = t
  · subst e
    simp only [setTh_self]
    exact ⟨rfl, rfl, .inr ⟨⟨b, h⟩, rfl⟩, id⟩
  · rw [setTh_ne _ _ e]; exact .refl _

theorem QS.fr (h : QS t w w') {u : Nat} (e : u ≠ t) : Fr (w.th u) (w'.th u) := by
  cases h with
  | go hs hu h => exact h.fr e
  | prog pc' hu hi hth => rw [hth u e]; exact .refl _
  | woken b h hw => subst hw; exact woken_fr h u

theorem start_resp {pc : Pc} {m : MId} (hi : pc = .user ∨ pc = .nap ∨ ∃ c : Call, pc = c.start) :
    ¬ Resp m pc := by
  obtain rfl | rfl | ⟨c, rfl⟩ := hi
  · exact id
  · exact id
  · cases c <;> exact id

theorem start_has {pc : Pc} {q : Nat} (hw : pc.Wf) (hi : pc = .user ∨ pc = .nap ∨ ∃ c : Call, pc = c.start) :
    ¬ Has q pc := by
  obtain rfl | rfl | ⟨c, rfl⟩ := hi
  · exact has_user
  · rw [has_other (by simp)]; exact id
  · cases c with
    | unlock m => simp [Call.start, has_unlock]
    | lock m => exact has_lock
    | _ => rw [Call.start, has_other (by simp)]; exact id

theorem calm_step {caps : Nat → Option Nat} {n : Nat} {w w' : World} {a : Act} (c : Calm caps n w)
    (ha : a.quiet) (hn : a.who < n) (h : w.step a = some w') : Calm caps n w' ∧ QS a.who w w' := by
  have qs := step_qs ha c.all.good c.loc c.has h
  have A' := all_step c.all h
  have hf := fun u (e : u ≠ a.who) => qs.fr e
  refine ⟨⟨A', ownAlive_step c.all.own c.alive h, fun u => ?_, ?_, ?_, fun u hu => ?_⟩, qs⟩
  · by_cases e : u = a.who
    · subst e
      cases qs with
      | go hs hu h => exact h.loc0 (c.loc _) hs
      | prog pc' hu hi hth hmx hcv hqu hpc hl => exact hl
      | woken b h hw => rw [hw]; exact (woken_fr h _).loc0 (c.loc _)
    · exact (hf u e).loc0 (c.loc u)
  · cases qs with
    | go hs hu h => exact (h.ownS (c.all.good.ok _).wf).hasI c.all.good.dead (fun u e => (hf u e).pc) c.has
    | prog pc' hu hi hth hmx hcv hqu hpc hl =>
      intro q u
      by_cases e : u = a.who
      · subst e
        rw [hmx, ← c.has q, hu, hpc]
        have := start_has (q := q) (hpc ▸ (A'.good.ok _).wf) hi
        simp [this, has_user]
      · rw [hmx, ← c.has q, hth u e]
    | woken b h hw =>
      intro q u
      rw [hw, (woken_fr h u).pc]; exact c.has q u
  · cases qs with
    | go hs hu h => exact h.j c.j hs c.all.good.dead
    | prog pc' hu hi hth hmx hcv hqu hpc hl =>
      exact (Plain.of hmx hpc (by rw [hu]; exact fun _ => id) fun _ => start_resp hi).j hf c.j
    | woken b h hw =>
      have f := woken_fr h
      rw [← hw] at f
      have hmx : w'.mx = w.mx := by rw [hw]; rfl
      refine ⟨fun u b' m hs hat => ?_, fun x m hx => ?_, fun m ho hne => ?_⟩
      · rw [hmx]
        rw [(f u).pc] at hat
        obtain e | ⟨_, e⟩ := (f u).status
        · exact c.j.j1 u b' m (e ▸ hs) hat
        · rw [e] at hs; cases hs
      · rw [hmx] at hx; rw [(f x).pc]; exact c.j.j2 x m hx
      · rw [hmx] at ho hne
        obtain ⟨u, h1, h2⟩ := c.j.j3 m ho hne
        refine ⟨u, ?_, by rw [(f u).pc]; exact h2⟩
        obtain h | ⟨⟨b, h⟩, _⟩ := (f u).status
        · rw [h]; exact h1
        · rw [h1] at h; cases h
  · have e : u ≠ a.who := by omega
    rw [(hf u e).pc]; exact c.bound u hu

theorem calm_init (caps : Nat → Option Nat) (n : Nat) : Calm caps n (init caps) where
  all := all_init caps
  alive := fun _ _ _ h => by simp [init] at h
  loc _ := ⟨rfl, fun _ h => by simp [init] at h, trivial⟩
  has q t := by
    constructor
    · intro h; exact (has_user h).elim
    · intro h; simp [init] at h
  j := ⟨fun _ _ _ h => by simp [init] at h, fun _ _ h => by simp [init] at h,
    fun _ _ h => by simp [init] at h⟩
  bound _ _ := rfl

theorem run_quiet {P : World → Prop} {n : Nat} {w : World} (h0 : P w)
    (hs : ∀ w w' a, P w → a.quiet → a.who < n → w.step a = some w' → P w') :
    ∀ {as w'}, (∀ a ∈ as, a.quiet) → (∀ a ∈ as, a.who < n) → w.run as = some w' → P w' := by
  intro as
  induction as generalizing w with
  | nil => intro w' _ _ h; cases h; exact h0
  | cons a as ih =>
    intro w' hq hn h
    simp only [World.run] at h
    split at h
    · next w1 e =>
      exact ih (hs w w1 a h0 (hq a (by simp)) (hn a (by simp)) e) (fun a h => hq a (by simp [h]))
        (fun a h => hn a (by simp [h])) h
    · cases h

theorem bound_acts (as : List Act) : ∃ n, ∀ a ∈ as, a.who < n := by
  induction as with
  | nil => exact ⟨0, fun _ h => by cases h⟩
  | cons a as ih =>
    obtain ⟨n, h⟩ := ih
    refine ⟨max n (a.who + 1), fun b hb => ?_⟩
    obtain rfl | hb := List.mem_cons.1 hb
    · omega
    · have := h b hb; omega

/-- No thread of the program can go on by itself: each is between calls, parked or dead. -/
def World.settled (w : World) : Prop := ∀ t, w.active t = false

theorem settled_run (h : w.settled) (hs : (w.th t).status = .run) : (w.th t).pc = .user := by
  have := h t
  simp only [World.active, hs, beq_self_eq_true, Bool.true_and, bne_eq_false_iff_eq] at this
  exact this

theorem Calm.resp_none {caps : Nat → Option Nat} {n : Nat} (c : Calm caps n w) (h : w.settled) {m : MId}
    {b : Bool} (hs : (w.th t).status = .parked b) (ha : AtStop m (w.th t).pc) :
    ∃ o, (w.mx m).owner = some o := by
  cases ho : (w.mx m).owner with
  | some o => exact ⟨o, rfl⟩
  | none =>
    have hm := c.j.j1 t b m hs ha
    obtain ⟨u, h1, h2⟩ := c.j.j3 m ho (List.ne_nil_of_mem hm)
    rw [settled_run h h1] at h2
    exact h2.elim

/-- Nobody waits for the mutex of a queue. -/
theorem Calm.queue_free {caps : Nat → Option Nat} {n : Nat} (c : Calm caps n w) (h : w.settled) {q : Nat}
    {b : Bool} (hs : (w.th t).status = .parked b) : ¬ AtStop (.queue q) (w.th t).pc := by
  intro ha
  obtain ⟨o, ho⟩ := c.resp_none h hs ha
  have hh := (c.has q o).2 ho
  cases hst : (w.th o).status with
  | run => rw [settled_run h hst] at hh; exact has_user hh
  | dead => rw [c.all.good.dead o hst] at hh; exact has_user hh
  | parked b =>
    have := (c.loc o).parked b hst
    revert hh this
    cases hpc : (w.th o).pc with
    | nap => intro hh _; rw [has_other (by simp)] at hh; exact hh
    | lock m a k => intro hh _; exact has_lock hh
    | sleep m timed a k =>
      intro hh hp
      rw [has_other (by simp)] at hh
      cases a with
      | stop => cases m <;> exact hh
      | _ => exact hp
    | _ => intro _ hp; exact hp

end Verif.Sync
