import Verif.Sync.Flow

/-!
# The invariant of `Flow` is kept by every step without interrupts
-/

namespace Verif.Sync

variable {w w' : World} {t n : Nat}

theorem To.cv' {pc : Pc} (h : To t w w' pc) : ∀ c, ¬ c.isUser → w'.cv c = w.cv c := fun c hc =>
  (h.cv c).resolve_left hc

/-- Leaving the loop of a queue method. -/
theorem Still.out {pc' : Pc} {q : Nat} {op : QOp} (hcv : ∀ c, ¬ c.isUser → w'.cv c = w.cv c)
    (hqu : w'.qu = w.qu) (hp : (w.th t).pc = .queue q op .loop) (hpc : (w'.th t).pc = pc')
    (hwt : ∀ c, ¬ Wt c pc') (hloop : ∀ q' op', pc' ≠ .queue q' op' .loop)
    (hwait : ∀ c m timed q' op', pc' = .wait c m timed (.queue q' op') →
      w.demand c = 0 ∧ (w.qu q').closed = false)
    (hroom : ∀ q' m timed op', pc' = .wait (.push q') m timed (.queue q' op') → (w.qu q').max ≠ none)
    (hs : ∀ c, op.cv q = some c → Serve c pc' ∨ w.demand c = 0 ∨ (w.qu c.q).closed = true) :
    Still t w w' where
  cv := hcv
  qu := hqu
  wt c hw := by rw [hp] at hw; exact hw.elim
  early c he := (hwt c (hpc ▸ he.wt)).elim
  late c he := (hwt c (hpc ▸ he.wt)).elim
  stop _ c _ he := (hwt c (hpc ▸ he.wt)).elim
  wait0 c m timed q op he := hwait c m timed q op (hpc ▸ he)
  room q' h := by
    rw [hpc] at h
    obtain h1 | ⟨op, h1, _⟩ | ⟨m, timed, op, h1⟩ := h
    · exact (hwt _ h1).elim
    · exact (hloop _ _ h1).elim
    · exact hroom q' m timed op h1
  serve c _ h := by
    rw [hp] at h
    rw [hpc]
    obtain h | h | h := hs c h
    · exact .inl h
    · exact .inr (.inl h)
    · exact .inr (.inr (.inl h))
  cast c hc := by rw [hp] at hc; exact hc.elim

theorem room_demand {q : Nat} (h : (w.qu q).room = false) : w.demand (.push q) = 0 ∧ (w.qu q).max ≠ none := by
  unfold Qu.room at h
  cases hm : (w.qu q).max with
  | none => rw [hm] at h; cases h
  | some n =>
    rw [hm] at h
    simp only [decide_eq_false_iff_not] at h
    refine ⟨?_, by simp⟩
    simp only [World.demand, hm]
    omega

theorem pop_demand {q : Nat} (h : (w.qu q).items = []) : w.demand (.pop q) = 0 := by
  simp [World.demand, h]

theorem Tau.still {pc' : Pc} (h : Tau w t (w.th t).pc pc') (hto : To t w w' pc') (k : K n w)
    (hw : (w.th t).pc.Wf) : Still t w w' := by
  have hcv := hto.cv'
  have hqu := hto.qu
  have hpc := hto.pc
  generalize hp : (w.th t).pc = pc at h
  have al : (∀ c, ¬ Wt c pc) → (∀ c, ¬ Serve c pc) → (∀ c, ¬ Casting c pc) → Aloof pc' → Still t w w' := by
    intro h1 h2 h3 h4
    refine .aloof hcv hqu (by rw [hp]; exact h1) (fun c _ h => ?_) (fun c h => ?_) (by rw [hpc]; exact h4)
    · rw [hp] at h; exact (h2 c h).elim
    · rw [hp] at h; exact (h3 c h).elim
  have mv : (∀ c, Wt c pc' ↔ Wt c pc) → (∀ c, Early c pc' → Early c pc) → (∀ c, ¬ Late c pc') →
      (∀ c, ¬ Stop c pc') → (∀ c m timed q' op', pc' ≠ .wait c m timed (.queue q' op')) →
      (∀ q' op', pc' ≠ .queue q' op' .loop) → (∀ c, ¬ Serve c pc) → (∀ c, ¬ Casting c pc) →
      Still t w w' := by
    intro h1 h2 h3 h4 h5 h6 h7 h8
    exact .mv k hcv hqu hpc (by rw [hp]; exact h1) (by rw [hp]; exact h2) (fun c h => (h3 c h).elim)
      (fun _ c _ h => (h4 c h).elim) h5 h6 (by rw [hp]; exact h7) (by rw [hp]; exact h8)
  have sg : (∀ c, ¬ Wt c pc) → (∀ c, ¬ Wt c pc') → (∀ c m timed q' op', pc' ≠ .wait c m timed (.queue q' op')) →
      (∀ q' op', pc' ≠ .queue q' op' .loop) → (∀ c, Serve c pc → Serve c pc' ∨ w.cv c = []) →
      (∀ c, Casting c pc → Casting c pc' ∨ w.cv c = []) → Still t w w' := by
    intro h1 h2 h3 h4 h5 h6
    exact .sig hcv hqu hpc (by rw [hp]; exact h1) h2 h3 h4 (fun c _ h => h5 c (hp ▸ h))
      (fun c h => h6 c (hp ▸ h))
  rw [hp] at hw
  cases h with
  | nap => exact al (fun _ => id) (fun _ => id) (fun _ => id) aloof_user
  | try_ m h => exact al (fun _ => id) (fun _ => id) (fun _ => id) aloof_user
  | dead m k =>
    exact al (fun c h => by cases (LockK.on_ok h hw).2) (fun _ => id) (fun _ => id) aloof_user
  | lockEnter m k h =>
    exact mv (fun _ => .rfl) (fun _ => id) (fun _ => id) (fun _ => id) (by simp) (by simp) (fun _ => id) fun _ => id
  | lockTry m k =>
    exact mv (fun _ => .rfl) (fun _ => id) (fun _ => id) (fun _ => id) (by simp) (by simp) (fun _ => id) fun _ => id
  | unlFail m k =>
    exact al (fun c h => by cases (UnlockK.on_ok h hw).2) (fun _ => id) (fun _ => id) aloof_user
  | unlDone m k hk h =>
    refine al (fun c h => ?_) (fun _ => id) (fun _ => id) aloof_user
    cases k with
    | sleep e k => exact hk e k rfl
    | _ => exact h
  | slEnter m timed k =>
    exact mv (fun _ => .rfl) (fun _ => id) (fun _ => id) (fun _ => id) (by simp) (by simp) (fun _ => id) fun _ => id
  | slOwned m timed k h =>
    exact mv (fun _ => .rfl) (fun _ => id) (fun _ => id) (fun _ => id) (by simp) (by simp) (fun _ => id) fun _ => id
  | slFail m timed k =>
    exact al (fun c h => by cases (SleepK.on_ok h hw).2) (fun _ => id) (fun _ => id) aloof_user
  | slWoke m timed k =>
    exact mv (fun _ => .rfl) (fun _ => False.elim) (fun _ => id) (fun _ => id) (by simp) (by simp) (fun _ => id) fun _ => id
  | relock m timed k =>
    exact mv (fun _ => .rfl) (fun _ => False.elim) (fun _ => id) (fun _ => id) (by simp) (by simp) (fun _ => id) fun _ => id
  | sigEnter c k =>
    refine sg (fun _ => id) (fun _ => id) (by simp) (by simp) (fun c' h => .inl ?_) fun c' h => .inl ?_
    · cases k with
      | direct k => cases k <;> exact h
      | bcast c k => exact h
    · cases k <;> exact h
  | sigNone c k h =>
    have a := sig_after (k := k)
    refine sg (fun _ => id) a.1 a.2.1 a.2.2.1 (fun c' h' => .inr ?_) fun c' h' => .inl (a.2.2.2 _ _ _ h')
    cases k with
    | direct k => cases k with
      | user => exact h'.elim
      | queue => obtain rfl : c = c' := h'; exact h
    | bcast c k => exact h'.elim
  | castEnter c k =>
    exact sg (fun _ => id) (fun _ => id) (by simp) (by simp) (fun c' h => h.elim) fun c' h => .inl h
  | castNone c k h =>
    have a := cast_after (k := k)
    refine sg (fun _ => id) a.1 a.2.1 a.2.2.1 (fun c' h' => h'.elim) fun c' h' => ?_
    obtain rfl | h' := h'
    · exact .inr h
    · exact .inl (a.2.2.2 _ h')
  | castSome c k h =>
    exact sg (fun _ => id) (fun _ => id) (by simp) (by simp) (fun c' h => h.elim) fun c' h => .inl h
  | qEntry q op =>
    exact al (fun _ => id) (fun _ => id) (fun _ => id) ⟨fun _ => id, by simp, by simp⟩
  | qSync q op =>
    exact al (fun _ => id) (fun _ => id) (fun _ => id) ⟨fun _ => id, by simp, by simp⟩
  | qLoop q op h hm =>
    exact {
      cv := hcv
      qu := hqu
      wt := fun c h => by rw [hp] at h; exact h.elim
      early := fun c h => by rw [hpc] at h; exact h.elim
      late := fun c h => by rw [hpc] at h; exact h.elim
      stop := fun _ c _ h => by rw [hpc] at h; exact h.elim
      wait0 := fun c m timed q op h => by rw [hpc] at h; cases h
      room := fun q' h => by
        rw [hpc] at h
        obtain h1 | ⟨op, h1, h2⟩ | ⟨m, timed, op, h1⟩ := h
        · exact h1.elim
        · cases h1; exact hm h2
        · cases h1
      serve := fun c _ h => by rw [hp] at h; exact h.elim
      cast := fun c h => by rw [hp] at h; exact h.elim }
  | qLeave q op r => exact al (fun _ => id) (fun _ => id) (fun _ => id) (aloof_leave ..)
  | popTake q nb timed h =>
    refine sg (fun _ => id) (fun _ => id) (by simp) (by simp) (fun c' h => .inl ?_) fun c' h => h.elim
    have h : some (CId.pop q) = some c' := h
    cases h; rfl
  | popLeave q nb timed r h =>
    refine .out hcv hqu hp hpc (fun _ => id) (by simp) (by simp) (by simp) fun c hc => .inr (.inl ?_)
    have h : some (CId.pop q) = some c := hc
    cases h; exact pop_demand ‹_›
  | popWait q nb timed h hc =>
    refine .out hcv hqu hp hpc (fun _ => id) (by simp) ?_ (by simp) fun c hc => .inr (.inl ?_)
    · intro c m timed q' op' e
      cases e; exact ⟨pop_demand h, hc⟩
    · have h : some (CId.pop q) = some c := hc
      cases h; exact pop_demand ‹_›
  | pushLeave q v nb timed r h =>
    refine .out hcv hqu hp hpc (fun _ => id) (by simp) (by simp) (by simp) fun c hc => .inr ?_
    have h : some (CId.push q) = some c := hc
    cases h
    obtain h | h := ‹_ ∨ _›
    · exact .inr h
    · exact .inl (room_demand h).1
  | pushWait q v nb timed h hc =>
    refine .out hcv hqu hp hpc (fun _ => id) (by simp) ?_ ?_ fun c hc => .inr (.inl ?_)
    · intro c m timed q' op' e
      cases e; exact ⟨(room_demand h).1, hc⟩
    · intro q' m timed op' e
      cases e; exact (room_demand h).2
    · have h : some (CId.push q) = some c := hc
      cases h; exact (room_demand ‹_›).1

/-! ## Steps that change a queue -/

structure Edit (n t q : Nat) (w w' : World) : Prop where
  cv : ∀ c, ¬ c.isUser → w'.cv c = w.cv c
  qu : ∀ q', q' ≠ q → w'.qu q' = w.qu q'
  bel : Bel q (w.th t).pc
  wt : ∀ c, ¬ Wt c (w.th t).pc
  nwait : ∀ c m timed q' op', (w.th t).pc ≠ .wait c m timed (.queue q' op')
  wt' : ∀ c, ¬ Wt c (w'.th t).pc
  wait' : ∀ c m timed q' op', (w'.th t).pc ≠ .wait c m timed (.queue q' op')
  loop' : ∀ q' op', (w'.th t).pc ≠ .queue q' op' .loop
  max : (w'.qu q).max = none → (w.qu q).max = none
  cast : ∀ c, ¬ Casting c (w.th t).pc
  serve : ∀ c, Serve c (w.th t).pc → c.q = q
  need : ∀ c, ¬ c.isUser → c.q = q → w.cv c ≠ [] → (w'.qu q).closed = false →
    ((w.qu q).closed = false ∧ (w.demand c ≤ cnt n (R c w) → w'.demand c ≤ cnt n (R c w'))) ∨
      Casting c (w'.th t).pc
  shut : ∀ c, ¬ c.isUser → c.q = q → w.cv c ≠ [] → (w'.qu q).closed = true →
    (w.qu q).closed = true ∨ Casting c (w'.th t).pc

theorem demand_q {c : CId} (hc : ¬ c.isUser) (h : w'.qu c.q = w.qu c.q) : w'.demand c = w.demand c := by
  cases c with
  | user c => exact (hc trivial).elim
  | pop q => simp only [World.demand]; rw [show w'.qu q = w.qu q from h]
  | push q => simp only [World.demand]; rw [show w'.qu q = w.qu q from h]

theorem Edit.k {q : Nat} (s : Edit n t q w w') (hf : ∀ u, u ≠ t → Fr (w.th u) (w'.th u))
    (hw : ∀ u, (w.th u).pc.Wf) (hw' : ∀ u, (w'.th u).pc.Wf)
    (hh : HasI w) (k : K n w) : K n w' := by
  have hcast : ∀ c, (∃ u, Casting c (w.th u).pc) → ∃ u, Casting c (w'.th u).pc := by
    rintro c ⟨u, hu⟩
    have e : u ≠ t := by rintro rfl; exact s.cast c hu
    exact ⟨u, by rw [(hf u e).pc]; exact hu⟩
  exact {
    nodup := fun c hc => by rw [s.cv c hc]; exact k.nodup c hc
    inWt := fun c hc x hx => by
      rw [s.cv c hc] at hx
      have h := k.inWt c hc x hx
      have e : x ≠ t := by rintro rfl; exact s.wt c h
      rw [(hf x e).pc]; exact h
    stop := fun u b c hs hp => by
      rw [s.cv c (hp.wt.wf (hw' u))]
      have e : u ≠ t := by rintro rfl; exact s.wt' c hp.wt
      have f := hf u e
      rw [f.pc] at hp
      obtain e | ⟨_, e⟩ := f.status
      · exact k.stop u b c (e ▸ hs) hp
      · rw [e] at hs; cases hs
    early := fun u c hp => by
      rw [s.cv c (hp.wt.wf (hw' u))]
      have e : u ≠ t := by rintro rfl; exact s.wt' c hp.wt
      rw [(hf u e).pc] at hp; exact k.early u c hp
    late := fun u c hp => by
      rw [s.cv c (hp.wt.wf (hw' u))]
      have e : u ≠ t := by rintro rfl; exact s.wt' c hp.wt
      rw [(hf u e).pc] at hp; exact (k.late u c hp).imp_right (hf u e).permit
    wait0 := fun u c m timed q' op hp => by
      have e : u ≠ t := by rintro rfl; exact s.wait' _ _ _ _ _ hp
      rw [(hf u e).pc] at hp
      have hwf := hw u
      rw [hp] at hwf
      obtain ⟨rfl, hcv⟩ := hwf
      have eq : q' ≠ q := by
        rintro rfl
        have h1 := (hh q' u).1 (.inl (by rw [hp]; rfl))
        have h2 := (hh q' t).1 (.inl s.bel)
        rw [h1] at h2; exact e (Option.some.inj h2)
      have hc := cv_q hcv
      have := k.wait0 u c _ timed q' op hp
      rw [demand_q (w := w) (w' := w') hc.2 (by rw [hc.1]; exact s.qu q' eq), s.qu q' eq]
      exact this
    room := fun u q' hp => by
      have e : u ≠ t := by
        rintro rfl
        obtain h1 | ⟨op, h1, _⟩ | ⟨m, timed, op, h1⟩ := hp
        · exact s.wt' _ h1
        · exact s.loop' _ _ h1
        · exact s.wait' _ _ _ _ _ h1
      rw [(hf u e).pc] at hp
      have := k.room u q' hp
      by_cases eq : q' = q
      · subst eq; exact fun h => this (s.max h)
      · rw [s.qu q' eq]; exact this
    need := fun c hc hne hcl => by
      rw [s.cv c hc] at hne
      by_cases eq : c.q = q
      · rw [eq] at hcl
        obtain ⟨h1, h2⟩ | h := s.need c hc eq hne hcl
        · obtain h | h := k.need c hc hne (by rw [eq]; exact h1)
          · exact .inl (h2 h)
          · exact .inr (hcast c h)
        · exact .inr ⟨t, h⟩
      · rw [s.qu _ eq] at hcl
        rw [demand_q hc (s.qu _ eq)]
        refine (k.need c hc hne hcl).imp (fun h => h.trans (cnt_le fun u hu => ?_)) (hcast c)
        have e : u ≠ t := by
          rintro rfl
          obtain h | h := hu
          · exact eq (s.serve c h)
          · exact s.wt c h.1
        rw [R, (hf u e).pc, s.cv c hc]; exact hu
    shut := fun c hc hne hcl => by
      rw [s.cv c hc] at hne
      by_cases eq : c.q = q
      · rw [eq] at hcl
        obtain h | h := s.shut c hc eq hne hcl
        · exact hcast c (k.shut c hc hne (by rw [eq]; exact h))
        · exact ⟨t, h⟩
      · rw [s.qu _ eq] at hcl
        exact hcast c (k.shut c hc hne hcl) }

theorem c_cases {c : CId} {q : Nat} (hc : ¬ c.isUser) (h : c.q = q) : c = .pop q ∨ c = .push q := by
  cases c with
  | user c => exact (hc trivial).elim
  | pop q' => exact .inl (congrArg _ h)
  | push q' => exact .inr (congrArg _ h)

/-- A step that writes the queue and goes on with `l`. -/
theorem Edit.of {q : Nat} {op op' : QOp} {a : QAt} {r : Res} {l : List Post} {f : Qu → Qu}
    (hto : To t (w.setQu q f) w' (postPc q op' r l)) (hp : (w.th t).pc = .queue q op a)
    (ha : a = .body ∨ a = .loop ∨ a = .take) (hmax : (f (w.qu q)).max = none → (w.qu q).max = none)
    (need : ∀ c, ¬ c.isUser → c.q = q → w.cv c ≠ [] → (f (w.qu q)).closed = false →
      ((w.qu q).closed = false ∧ (w.demand c ≤ cnt n (R c w) → w'.demand c ≤ cnt n (R c w'))) ∨
        Casting c (postPc q op' r l))
    (shut : ∀ c, ¬ c.isUser → c.q = q → w.cv c ≠ [] → (f (w.qu q)).closed = true →
      (w.qu q).closed = true ∨ Casting c (postPc q op' r l)) : Edit n t q w w' := by
  have hq : w'.qu q = f (w.qu q) := by rw [hto.qu]; simp [World.setQu]
  exact {
    cv := hto.cv'
    qu := fun q' e => by rw [hto.qu]; simp [World.setQu, e]
    bel := by rw [hp]; obtain rfl | rfl | rfl := ha <;> rfl
    wt := by rw [hp]; exact fun _ => id
    nwait := by rw [hp]; simp
    wt' := by rw [hto.pc]; exact postPc_wt.1
    wait' := by rw [hto.pc]; exact postPc_wt.2.1
    loop' := by rw [hto.pc]; exact postPc_wt.2.2
    max := by rw [hq]; exact hmax
    cast := by rw [hp]; exact fun _ => id
    serve := fun c h => by
      rw [hp] at h
      obtain rfl | rfl | rfl := ha
      · exact h.elim
      · exact (cv_q h).1
      · cases op with
        | pop nb timed => rw [show c = .pop q from h]; rfl
        | _ => exact h.elim
    need := by rw [hq, hto.pc]; exact need
    shut := by rw [hq, hto.pc]; exact shut }

theorem k_lt {n u : Nat} (hb : ∀ u, n ≤ u → (w.th u).pc = .user) (h : (w.th u).pc ≠ .user) : u < n := by
  by_contra hn
  exact h (hb u (by omega))

theorem Early.has {c : CId} {pc : Pc} (h : Early c pc) (hw : pc.Wf) : Has c.q pc := by
  unfold Early at h
  split at h
  · rw [(SleepK.on_ok h hw).2]; exact .inl rfl
  · rw [(SleepK.on_ok h hw).2]; exact .inl rfl
  · rw [(UnlockK.on_ok h hw).2]; exact has_unlock.2 rfl
  · exact h.elim

theorem isQ_q {c : CId} {q : Nat} (h : c.isQ q) : c.q = q := by
  cases c with
  | user => exact h.elim
  | pop => exact h
  | push => exact h

theorem signal_has {c : CId} {a : Bool} {s : SigK} (hw : (Pc.signal c a s).Wf) (hc : ¬ c.isUser) :
    Has c.q (.signal c a s) := by
  refine .inl ?_
  cases s with
  | direct s => cases s with
    | user => exact (hc hw).elim
    | queue q op todo r => exact (isQ_q hw.1).symm
  | bcast c' s => cases s with
    | user => exact (hc hw.2).elim
    | queue q op todo r => exact (isQ_q hw.2.1).symm

/-- A thread takes itself off the list after its wait and looks at the queue again. -/
theorem K.drop {q : Nat} {op : QOp} {c : CId} {m : MId} {a : LockAt} {e : Option Exc}
    (k : K n w) (hf : ∀ u, u ≠ t → Fr (w.th u) (w'.th u)) (hw' : ∀ u, (w'.th u).pc.Wf)
    (hp : (w.th t).pc = .lock m a (.resleep e (.wait c (.queue q op)))) (hop : op.cv q = some c)
    (hpc : (w'.th t).pc = .queue q op .loop)
    (hcv : ∀ c', ¬ c'.isUser → w'.cv c' = if c' = c then (w.cv c).filter (· ≠ t) else w.cv c')
    (hqu : w'.qu = w.qu) : K n w' := by
  have hdem := demand_qu hqu
  have hin : ∀ c' u, ¬ c'.isUser → u ≠ t → (u ∈ w'.cv c' ↔ u ∈ w.cv c') := by
    intro c' u hc e
    rw [hcv c' hc]
    split_ifs with h
    · subst h; simp [e]
    · rfl
  have hsub : ∀ c' u, ¬ c'.isUser → u ∈ w'.cv c' → u ∈ w.cv c' ∧ u ≠ t := by
    intro c' u hc h
    rw [hcv c' hc] at h
    split_ifs at h with h1
    · subst h1; simpa using h
    · refine ⟨h, ?_⟩
      rintro rfl
      have := k.inWt c' hc u h
      rw [hp] at this
      exact h1 (Eq.symm this)
  have hne : ∀ c', ¬ c'.isUser → w'.cv c' ≠ [] → w.cv c' ≠ [] := by
    intro c' hc h
    obtain ⟨u, hu⟩ := List.exists_mem_of_ne_nil _ h
    exact List.ne_nil_of_mem (hsub c' u hc hu).1
  have hcast : ∀ c, (∃ u, Casting c (w.th u).pc) → ∃ u, Casting c (w'.th u).pc := by
    rintro c ⟨u, hu⟩
    have e : u ≠ t := by rintro rfl; rw [hp] at hu; exact hu
    exact ⟨u, by rw [(hf u e).pc]; exact hu⟩
  have hnt : ∀ c', ¬ Wt c' (w'.th t).pc := by rw [hpc]; exact fun _ => id
  exact {
    nodup := fun c' hc => by
      rw [hcv c' hc]
      split_ifs with h
      · subst h; exact (k.nodup c' hc).filter _
      · exact k.nodup c' hc
    inWt := fun c' hc x hx => by
      obtain ⟨h1, e⟩ := hsub c' x hc hx
      rw [(hf x e).pc]; exact k.inWt c' hc x h1
    stop := fun u b c' hs h => by
      have e : u ≠ t := by rintro rfl; exact hnt c' h.wt
      rw [hin c' u (h.wt.wf (hw' u)) e]
      have f := hf u e
      rw [f.pc] at h
      obtain e | ⟨_, e⟩ := f.status
      · exact k.stop u b c' (e ▸ hs) h
      · rw [e] at hs; cases hs
    early := fun u c' h => by
      have e : u ≠ t := by rintro rfl; exact hnt c' h.wt
      rw [hin c' u (h.wt.wf (hw' u)) e]
      rw [(hf u e).pc] at h; exact k.early u c' h
    late := fun u c' h => by
      have e : u ≠ t := by rintro rfl; exact hnt c' h.wt
      rw [hin c' u (h.wt.wf (hw' u)) e]
      rw [(hf u e).pc] at h; exact (k.late u c' h).imp_right (hf u e).permit
    wait0 := fun u c' m timed q' op h => by
      have e : u ≠ t := by rintro rfl; rw [hpc] at h; cases h
      rw [(hf u e).pc] at h
      rw [hdem, hqu]; exact k.wait0 u c' m timed q' op h
    room := fun u q' h => by
      rw [hqu]
      by_cases e : u = t
      · subst e
        rw [hpc] at h
        obtain h1 | ⟨op, h1, h2⟩ | ⟨m, timed, op, h1⟩ := h
        · exact h1.elim
        · cases h1
          refine k.room u q (.inl ?_)
          rw [hp]
          exact Option.some.inj (hop.symm.trans h2)
        · cases h1
      · rw [(hf u e).pc] at h; exact k.room u q' h
    need := fun c' hc hn hcl => by
      rw [hqu] at hcl
      rw [hdem]
      refine (k.need c' hc (hne c' hc hn) hcl).imp (fun h => h.trans (cnt_le fun u hu => ?_)) (hcast c')
      by_cases e : u = t
      · subst e
        left
        rw [hpc]
        obtain h | ⟨h, _⟩ := hu
        · rw [hp] at h; exact h.elim
        · rw [hp] at h
          obtain rfl : c = c' := h
          exact hop
      · rw [R, (hf u e).pc, hin c' u hc e]; exact hu
    shut := fun c' hc hn hcl => by
      rw [hqu] at hcl
      exact hcast c' (k.shut c' hc (hne c' hc hn) hcl) }

/-- A thread goes to wait. -/
theorem K.add {q : Nat} {op : QOp} {c : CId} {m : MId} {timed : Bool} (k : K n w)
    (hf : ∀ u, u ≠ t → Fr (w.th u) (w'.th u)) (hw' : ∀ u, (w'.th u).pc.Wf)
    (hp : (w.th t).pc = .wait c m timed (.queue q op)) (hop : op.cv q = some c)
    (hpc : (w'.th t).pc = .sleep m timed .entry (.wait c (.queue q op)))
    (hcv : ∀ c', ¬ c'.isUser → w'.cv c' = if c' = c then w.cv c ++ [t] else w.cv c')
    (hqu : w'.qu = w.qu) : K n w' := by
  have hdem := demand_qu hqu
  obtain ⟨hcq, hcu⟩ := cv_q hop
  have hin : ∀ c' u, ¬ c'.isUser → u ≠ t → (u ∈ w'.cv c' ↔ u ∈ w.cv c') := by
    intro c' u hc e
    rw [hcv c' hc]
    split_ifs with h
    · subst h; simp [e]
    · rfl
  have htc : t ∈ w'.cv c := by rw [hcv c hcu]; simp
  have hnt : ∀ c', ¬ c'.isUser → t ∉ w.cv c' := by
    intro c' hc h
    have := k.inWt c' hc t h
    rw [hp] at this; exact this
  have hcast : ∀ c, (∃ u, Casting c (w.th u).pc) → ∃ u, Casting c (w'.th u).pc := by
    rintro c ⟨u, hu⟩
    have e : u ≠ t := by rintro rfl; rw [hp] at hu; exact hu
    exact ⟨u, by rw [(hf u e).pc]; exact hu⟩
  have hwt : ∀ c', Wt c' (w'.th t).pc → c' = c := by
    intro c' h; rw [hpc] at h; exact Eq.symm h
  obtain ⟨h0, hcl0⟩ := k.wait0 t c m timed q op hp
  exact {
    nodup := fun c' hc => by
      rw [hcv c' hc]
      split_ifs with h
      · subst h
        rw [List.nodup_append]
        refine ⟨k.nodup c' hc, by simp, ?_⟩
        intro x hx y hy
        rw [List.mem_singleton] at hy
        rintro rfl
        subst hy
        exact hnt c' hc hx
      · exact k.nodup c' hc
    inWt := fun c' hc x hx => by
      by_cases e : x = t
      · subst e
        have : c' = c := by
          by_contra h
          rw [hcv c' hc, if_neg h] at hx
          exact hnt c' hc hx
        subst this
        rw [hpc]; rfl
      · rw [hin c' x hc e] at hx
        rw [(hf x e).pc]; exact k.inWt c' hc x hx
    stop := fun u b c' hs h => by
      by_cases e : u = t
      · subst e; rw [hpc] at h; exact h.elim
      · rw [hin c' u (h.wt.wf (hw' u)) e]
        have f := hf u e
        rw [f.pc] at h
        obtain e | ⟨_, e⟩ := f.status
        · exact k.stop u b c' (e ▸ hs) h
        · rw [e] at hs; cases hs
    early := fun u c' h => by
      by_cases e : u = t
      · subst e; rw [hwt c' h.wt]; exact htc
      · rw [hin c' u (h.wt.wf (hw' u)) e]
        rw [(hf u e).pc] at h; exact k.early u c' h
    late := fun u c' h => by
      by_cases e : u = t
      · subst e; rw [hwt c' h.wt]; exact .inl htc
      · rw [hin c' u (h.wt.wf (hw' u)) e]
        rw [(hf u e).pc] at h; exact (k.late u c' h).imp_right (hf u e).permit
    wait0 := fun u c' m timed q' op h => by
      have e : u ≠ t := by rintro rfl; rw [hpc] at h; cases h
      rw [(hf u e).pc] at h
      rw [hdem, hqu]; exact k.wait0 u c' m timed q' op h
    room := fun u q' h => by
      rw [hqu]
      by_cases e : u = t
      · subst e
        refine k.room u q' (.inr (.inr ⟨m, timed, op, ?_⟩))
        rw [hp]
        have : c = .push q' := by
          rw [hpc] at h
          obtain h1 | ⟨op, h1, h2⟩ | ⟨m, timed, op, h1⟩ := h
          · exact h1
          · cases h1
          · cases h1
        subst this
        rw [show q = q' from hcq.symm]
      · rw [(hf u e).pc] at h; exact k.room u q' h
    need := fun c' hc hn hcl => by
      rw [hqu] at hcl
      rw [hdem]
      by_cases ec : c' = c
      · subst ec; exact .inl (by omega)
      · rw [hcv c' hc, if_neg ec] at hn
        refine (k.need c' hc hn hcl).imp (fun h => h.trans (cnt_le fun u hu => ?_)) (hcast c')
        have e : u ≠ t := by
          rintro rfl
          obtain h | ⟨h, _⟩ := hu
          · rw [hp] at h; exact h
          · rw [hp] at h; exact h
        rw [R, (hf u e).pc, hin c' u hc e]; exact hu
    shut := fun c' hc hn hcl => by
      rw [hqu] at hcl
      by_cases ec : c' = c
      · subst ec; rw [hcq, hcl0] at hcl; cases hcl
      · rw [hcv c' hc, if_neg ec] at hn
        exact hcast c' (k.shut c' hc hn hcl) }

/-- The first waiter is woken. -/
theorem K.wake {c : CId} {s : SigK} {x : Nat} {xs : List Nat} (k : K n w)
    (hb : ∀ u, n ≤ u → (w.th u).pc = .user)
    (hf : ∀ u, u ≠ t → Fr (w.th u) (w'.th u)) (hw : ∀ u, (w.th u).pc.Wf) (hw' : ∀ u, (w'.th u).pc.Wf) (hh : HasI w)
    (hp : (w.th t).pc = .signal c true s) (hcu : ¬ c.isUser) (h0 : w.cv c = x :: xs)
    (hpc : (w'.th t).pc = s.after)
    (hcv : ∀ c', ¬ c'.isUser → w'.cv c' = if c' = c then xs else w.cv c')
    (hqu : w'.qu = w.qu) (hrun : (w.th x).status = .run → (w'.th x).permit = true)
    (hpk : ∀ b, (w.th x).status = .parked b → (w'.th x).status = .run)
    (hloc : ∀ u, Loc0 (w.th u)) (hdead : ∀ u, (w.th u).status = .dead → (w.th u).pc = .user) : K n w' := by
  have hdem := demand_qu hqu
  have hxm : x ∈ w.cv c := by rw [h0]; simp
  have hxw := k.inWt c hcu x hxm
  have ext : x ≠ t := by rintro rfl; rw [hp] at hxw; exact hxw
  have hnd := k.nodup c hcu
  rw [h0, List.nodup_cons] at hnd
  have hsub : ∀ c' u, ¬ c'.isUser → u ∈ w'.cv c' → u ∈ w.cv c' := by
    intro c' u hc h
    rw [hcv c' hc] at h
    split_ifs at h with h1
    · subst h1; rw [h0]; simp [h]
    · exact h
  have hin : ∀ c' u, ¬ c'.isUser → u ∈ w.cv c' → u ∈ w'.cv c' ∨ (u = x ∧ c' = c) := by
    intro c' u hc h
    rw [hcv c' hc]
    split_ifs with h1
    · subst h1; rw [h0] at h
      obtain rfl | h := List.mem_cons.1 h
      · exact .inr ⟨rfl, rfl⟩
      · exact .inl h
    · exact .inl h
  have hne : ∀ c', ¬ c'.isUser → w'.cv c' ≠ [] → w.cv c' ≠ [] := by
    intro c' hc h
    obtain ⟨u, hu⟩ := List.exists_mem_of_ne_nil _ h
    exact List.ne_nil_of_mem (hsub c' u hc hu)
  have a := sig_after (k := s)
  have hcast : ∀ c, (∃ u, Casting c (w.th u).pc) → ∃ u, Casting c (w'.th u).pc := by
    rintro c ⟨u, hu⟩
    by_cases e : u = t
    · subst e
      rw [hp] at hu
      exact ⟨u, by rw [hpc]; exact a.2.2.2 _ _ _ hu⟩
    · exact ⟨u, by rw [(hf u e).pc]; exact hu⟩
  have hnt : ∀ c', ¬ Wt c' (w'.th t).pc := by rw [hpc]; exact a.1
  have hnt0 : ∀ c', ¬ Wt c' (w.th t).pc := by rw [hp]; exact fun _ => id
  exact {
    nodup := fun c' hc => by
      rw [hcv c' hc]
      split_ifs with h
      · exact hnd.2
      · exact k.nodup c' hc
    inWt := fun c' hc u hu => by
      have h1 := k.inWt c' hc u (hsub c' u hc hu)
      have e : u ≠ t := by rintro rfl; exact hnt0 _ h1
      rw [(hf u e).pc]; exact h1
    stop := fun u b c' hs h => by
      have hcu' := h.wt.wf (hw' u)
      have e : u ≠ t := by rintro rfl; exact hnt c' h.wt
      have f := hf u e
      rw [f.pc] at h
      have hs0 : (w.th u).status = .parked b := by
        obtain e | ⟨_, e⟩ := f.status
        · exact e ▸ hs
        · rw [e] at hs; cases hs
      obtain h1 | ⟨rfl, _⟩ := hin c' u hcu' (k.stop u b c' hs0 h)
      · exact h1
      · rw [hpk b hs0] at hs; cases hs
    early := fun u c' h => by
      have hcu' := h.wt.wf (hw' u)
      have e : u ≠ t := by rintro rfl; exact hnt c' h.wt
      rw [(hf u e).pc] at h
      obtain h1 | ⟨rfl, rfl⟩ := hin c' u hcu' (k.early u c' h)
      · exact h1
      · have h1 := (hh _ u).1 (h.has (hw u))
        have h2 := (hh _ t).1 (by rw [hp]; exact signal_has (by rw [← hp]; exact hw t) hcu)
        rw [h1] at h2; exact (e (Option.some.inj h2)).elim
    late := fun u c' h => by
      have hcu' := h.wt.wf (hw' u)
      have e : u ≠ t := by rintro rfl; exact hnt c' h.wt
      rw [(hf u e).pc] at h
      obtain h1 | h1 := k.late u c' h
      · obtain h1 | ⟨rfl, rfl⟩ := hin c' u hcu' h1
        · exact .inl h1
        · right
          apply hrun
          cases hst : (w.th u).status with
          | run => rfl
          | dead => rw [hdead u hst] at h; exact h.elim
          | parked b =>
            have := (hloc u).parked b hst
            exfalso
            revert h this
            cases (w.th u).pc <;> simp [Late, Stopped]
      · exact .inr ((hf u e).permit h1)
    wait0 := fun u c' m timed q' op h => by
      have e : u ≠ t := by rintro rfl; rw [hpc] at h; exact a.2.1 _ _ _ _ _ h
      rw [(hf u e).pc] at h
      rw [hdem, hqu]; exact k.wait0 u c' m timed q' op h
    room := fun u q' h => by
      rw [hqu]
      have e : u ≠ t := by
        rintro rfl
        rw [hpc] at h
        obtain h1 | ⟨op, h1, _⟩ | ⟨m, timed, op, h1⟩ := h
        · exact a.1 _ h1
        · exact a.2.2.1 _ _ h1
        · exact a.2.1 _ _ _ _ _ h1
      rw [(hf u e).pc] at h; exact k.room u q' h
    need := fun c' hc hn hcl => by
      rw [hqu] at hcl
      rw [hdem]
      refine (k.need c' hc (hne c' hc hn) hcl).imp (fun h => h.trans ?_) (hcast c')
      by_cases ec : c' = c
      · subst ec
        refine cnt_swap (x := x) (k_lt hb hxw.ne_user) ?_ ?_ t fun u e hu => ?_
        · rintro (h | ⟨_, h⟩)
          · revert hxw h
            cases (w.th x).pc <;> simp [Wt, Serve]
          · exact h hxm
        · right
          rw [(hf x ext).pc]
          refine ⟨hxw, ?_⟩
          rw [hcv c' hc, if_pos rfl]; exact hnd.1
        · rw [R, (hf u e).pc]
          exact hu.imp id fun h => ⟨h.1, fun h1 => h.2 (hsub c' u hc h1)⟩
      · refine cnt_le fun u hu => ?_
        have e : u ≠ t := by
          rintro rfl
          obtain h | ⟨h, _⟩ := hu
          · rw [hp] at h
            cases s with
            | direct s => cases s with
              | user => exact h
              | queue => exact ec (Eq.symm h)
            | bcast c s => exact h
          · exact hnt0 _ h
        rw [R, (hf u e).pc]
        exact hu.imp id fun h => ⟨h.1, fun h1 => h.2 (hsub c' u hc h1)⟩
    shut := fun c' hc hn hcl => by
      rw [hqu] at hcl
      exact hcast c' (k.shut c' hc (hne c' hc hn) hcl) }

theorem Park.still {m : MId} {timed : Bool} {s : SleepK} {w1 : World} (p : Park t w1 m timed s w')
    (k : K n w) (hp : (w.th t).pc = .unlock m true (.sleep timed s)) (hcv : w1.cv = w.cv) (hqu : w1.qu = w.qu)
    (hpm : (w1.th t).permit = false → (w.th t).permit = false) (hs : (w1.th t).status = .run) :
    Still t w w' := by
  cases p with
  | skip h0 _ hto =>
    refine .mv k (fun c hc => ?_) (hto.qu.trans hqu) hto.pc (fun c => by rw [hp]; exact .rfl)
      (fun c h => h.elim) (fun c h => h.elim) (fun _ c _ h => h.elim) (by simp) (by simp)
      (by rw [hp]; exact fun _ => id) (by rw [hp]; exact fun _ => id)
    rw [hto.cv' c hc, setTh_cv, hcv]
  | stop h0 _ hto =>
    refine .mv k (fun c hc => ?_) (hto.qu.trans hqu) hto.pc (fun c => by rw [hp]; exact .rfl)
      (fun c h => h.elim) (fun c h => h.elim) (fun b c _ h => ?_) (by simp) (by simp)
      (by rw [hp]; exact fun _ => id) (by rw [hp]; exact fun _ => id)
    · rw [hto.cv' c hc, setTh_cv, hcv]
    · refine (k.late t c ?_).resolve_right (by rw [hpm h0]; simp)
      rw [hp]; exact h

theorem Still.plain {pc' : Pc} (k : K n w) (hcv : ∀ c, ¬ c.isUser → w'.cv c = w.cv c) (hqu : w'.qu = w.qu)
    (hp : ∃ m a s, (w.th t).pc = .lock m a s ∧ ∃ a', pc' = .lock m a' s) (hpc : (w'.th t).pc = pc') :
    Still t w w' := by
  obtain ⟨m, a, s, hp, a', rfl⟩ := hp
  exact .mv k hcv hqu hpc (fun c => by rw [hp]; exact .rfl) (fun c h => h.elim) (fun c h => h.elim)
    (fun _ c _ h => h.elim) (by simp) (by simp) (by rw [hp]; exact fun _ => id) (by rw [hp]; exact fun _ => id)

theorem T.k (h : T t w w') (hs : (w.th t).status = .run) (hl : ∀ u, Loc0 (w.th u)) (hh : HasI w)
    (hj : J w) (hdead : ∀ u, (w.th u).status = .dead → (w.th u).pc = .user)
    (hb : ∀ u, n ≤ u → (w.th u).pc = .user)
    (hw : ∀ u, (w.th u).pc.Wf) (hw' : ∀ u, (w'.th u).pc.Wf) (k : K n w) : K n w' := by
  have hf : ∀ u, u ≠ t → Fr (w.th u) (w'.th u) := fun u e => h.fr e
  have hwt := hw t
  cases h with
  | tau pc' h w' hto => exact (h.still hto k hwt).k hf hw' k
  | acqTry m h h0 w' hto =>
    refine (Still.aloof (w := w) hto.cv' hto.qu (by rw [h]; exact fun _ => id) (fun _ _ h' => ?_) (fun _ h' => ?_)
      (by rw [hto.pc]; exact aloof_user)).k hf hw' k
    · rw [h] at h'; exact h'.elim
    · rw [h] at h'; exact h'.elim
  | acq m s h h0 w' hto =>
    rw [h] at hwt
    have al : s.drop = none → (∀ c, ¬ s.on c) → Aloof s.after → K n w' := by
      intro hd hon ha
      rw [hd] at hto
      refine (Still.aloof (w := w) hto.cv' hto.qu (by rw [h]; exact hon) (fun _ _ h' => ?_) (fun _ h' => ?_)
        (by rw [hto.pc]; exact ha)).k hf hw' k
      · rw [h] at h'; exact h'.elim
      · rw [h] at h'; exact h'.elim
    cases s with
    | user => exact al rfl (fun _ => id) aloof_user
    | queue q op =>
      exact al rfl (fun _ => id) ⟨fun _ => id, by simp [LockK.after], by simp [LockK.after]⟩
    | resleep e s => cases s with
      | user => exact al rfl (fun _ => id) aloof_user
      | wait cc s => cases s with
        | user => exact al rfl (fun _ => id) aloof_user
        | queue q op =>
          refine k.drop hf hw' h hwt.2 hto.pc (fun c' hc => ?_) (by rw [hto.qu]; rfl)
          rw [hto.cv' c' hc]
          simp only [LockK.drop, World.dropCv]
          split_ifs with e1
          · subst e1; rw [setCv_self]; rfl
          · rw [setCv_ne _ _ e1]; rfl
  | reclaim m s o h h0 hd w' hto =>
    exact (Still.plain k hto.cv' hto.qu ⟨_, _, _, h, _, rfl⟩ hto.pc).k hf hw' k
  | enlist m s o h h0 hd w' hto =>
    exact (Still.plain k hto.cv' hto.qu ⟨_, _, _, h, _, rfl⟩ hto.pc).k hf hw' k
  | enskip m s o h h0 w' hto =>
    exact (Still.plain k hto.cv' hto.qu ⟨_, _, _, h, _, rfl⟩ hto.pc).k hf hw' k
  | unlist m s h w' hto =>
    exact (Still.plain k hto.cv' hto.qu ⟨_, _, _, h, _, rfl⟩ hto.pc).k hf hw' k
  | release m s h h0 w' hto =>
    exact (Still.mv (w := w) k hto.cv' hto.qu hto.pc (fun c => by rw [h]; exact .rfl) (fun c h => h.elim)
      (fun c h' => .inl (by rw [h]; exact h')) (fun _ c _ h => h.elim) (by simp) (by simp)
      (by rw [h]; exact fun _ => id) (by rw [h]; exact fun _ => id)).k hf hw' k
  | unlPark m timed s h h0 w' p => exact (p.still k h rfl rfl id hs).k hf hw' k
  | wakeMx m s x xs h h0 ha w' p =>
    have f := wake_fr (w.setMx m fun y => { y with waiters := xs }) x t
    have ext : t ≠ x := by
      rintro rfl
      have := hj.j2 t m (by rw [h0]; simp)
      rw [h] at this; exact this
    cases p with
    | over s hk w' hto =>
      refine (Still.aloof (w := w) (fun c hc => ?_) ?_ (fun c hc => ?_) (fun _ _ h' => ?_) (fun _ h' => ?_)
        (by rw [hto.pc]; exact aloof_user)).k hf hw' k
      · rw [hto.cv' c hc, wake_cv]; rfl
      · rw [hto.qu, wake_qu]; rfl
      · rw [h] at hc
        cases s with
        | sleep e s => exact hk e s rfl
        | _ => exact hc
      · rw [h] at h'; exact h'.elim
      · rw [h] at h'; exact h'.elim
    | park timed s w' p =>
      refine (p.still k h (by rw [wake_cv]; rfl) (by rw [wake_qu]; rfl) (fun h1 => ?_) ?_).k hf hw' k
      · rw [wake_ne _ ext] at h1; exact h1
      · rw [wake_ne _ ext]; exact hs
  | dropMx m s x xs h h0 ha w' hto =>
    exact (Still.mv (w := w) k hto.cv' hto.qu hto.pc (fun c => by rw [h]) (fun c h => h.elim)
      (fun c h' => .inr ⟨by rw [h]; exact h', fun h => by rw [hto.permit]; exact h⟩) (fun _ c _ h => h.elim)
      (by simp) (by simp) (by rw [h]; exact fun _ => id) (by rw [h]; exact fun _ => id)).k hf hw' k
  | cvAdd c m timed s h w' hto =>
    rw [h] at hwt
    cases s with
    | user =>
      have hcu : c.isUser := hwt.2
      refine (Still.aloof (w := w) (fun c' hc => ?_) hto.qu (by rw [h]; exact fun _ => id) (fun _ _ h' => ?_)
        (fun _ h' => ?_) (by rw [hto.pc]; exact ⟨fun _ => id, by simp, by simp⟩)).k hf hw' k
      · rw [hto.cv' c' hc, setCv_ne]
        rintro rfl; exact hc hcu
      · rw [h] at h'; exact h'.elim
      · rw [h] at h'; exact h'.elim
    | queue q op =>
      refine k.add hf hw' h hwt.2 hto.pc (fun c' hc => ?_) hto.qu
      rw [hto.cv' c' hc]
      split_ifs with e1
      · subst e1; rw [setCv_self]
      · rw [setCv_ne _ _ e1]
  | wakeCv c s x xs h h0 ha w' hto =>
    by_cases hcu : c.isUser
    · have a := sig_after (k := s)
      refine (Still.sig (w := w) (fun c' hc => ?_) (by rw [hto.qu, wake_qu]; rfl) hto.pc (by rw [h]; exact fun _ => id)
        a.1 a.2.1 a.2.2.1 (fun c' hc h' => ?_) (fun c' h' => ?_)).k hf hw' k
      · rw [hto.cv' c' hc, wake_cv, setCv_ne]
        rintro rfl; exact hc hcu
      · exfalso
        rw [h] at h'
        cases s with
        | direct s => cases s with
          | user => exact h'
          | queue => obtain rfl : c = c' := h'; exact hc hcu
        | bcast c s => exact h'
      · rw [h] at h'; exact .inl (a.2.2.2 _ _ _ h')
    · have ext : x ≠ t := by
        rintro rfl
        have := k.inWt c hcu x (by rw [h0]; simp)
        rw [h] at this; exact this
      have hal : (w.th x).status ≠ .dead := by simpa [World.alive] using ha
      refine k.wake hb hf hw hw' hh h hcu h0 hto.pc (fun c' hc => ?_) (by rw [hto.qu, wake_qu]; rfl)
        (fun hr => ?_) (fun b hr => ?_) hl hdead
      · rw [hto.cv' c' hc, wake_cv]
        split_ifs with e1
        · subst e1; rw [setCv_self]
        · rw [setCv_ne _ _ e1]
      · rw [hto.th x ext]
        unfold World.wake
        rw [show ((w.setCv c xs).th x).status = .run from hr]
        simp
      · rw [hto.th x ext]
        unfold World.wake
        rw [show ((w.setCv c xs).th x).status = .parked b from hr]
        simp
  | dropCv c s x xs h h0 ha w' hto =>
    by_cases hcu : c.isUser
    · refine (Still.sig (w := w) (fun c' hc => ?_) hto.qu hto.pc (by rw [h]; exact fun _ => id)
        (fun _ => id) (by simp) (by simp) (fun c' hc h' => .inl (h ▸ h')) (fun c' h' => .inl (h ▸ h'))).k hf hw' k
      rw [hto.cv' c' hc, setCv_ne]
      rintro rfl; exact hc hcu
    · exfalso
      have := k.inWt c hcu x (by rw [h0]; simp)
      rw [hdead x (by simpa [World.alive] using ha)] at this
      exact this
  | insBody q v nb timed h hc hm w' hto =>
    refine (Edit.of hto h (.inl rfl) id (fun cc hu hq hne hcl => .inl ⟨hc, fun hle => ?_⟩)
      (fun cc hu hq hne hcl => by simp [hc] at hcl)).k hf hw hw' hh k
    obtain rfl | rfl := c_cases hu hq
    · have hd : w'.demand (.pop q) = w.demand (.pop q) + 1 := by
        simp [World.demand, hto.qu, World.setQu]
      rw [hd]
      refine le_trans (Nat.add_le_add_right hle 1) (cnt_gain (x := t) (k_lt hb (by rw [h]; simp)) ?_ ?_ ?_)
      · rintro (h' | h') <;> (rw [h] at h'; first | exact h' | exact h'.1)
      · left; rw [hto.pc]; rfl
      · intro u hu'
        have e : u ≠ t := by
          rintro rfl
          obtain h' | h' := hu' <;> (rw [h] at h'; first | exact h' | exact h'.1)
        rw [R, (hf u e).pc, hto.cv' _ hu]; exact hu'
    · have : w'.demand (.push q) = 0 := by simp [World.demand, hto.qu, World.setQu, hm]
      omega
  | insLoop q v nb timed h hc hr w' hto =>
    refine (Edit.of hto h (.inr (.inl rfl)) id (fun cc hu hq hne hcl => .inl ⟨hc, fun hle => ?_⟩)
      (fun cc hu hq hne hcl => by simp [hc] at hcl)).k hf hw hw' hh k
    obtain rfl | rfl := c_cases hu hq
    · have hd : w'.demand (.pop q) = w.demand (.pop q) + 1 := by
        simp [World.demand, hto.qu, World.setQu]
      have hn : ¬ R (.pop q) w t := by
        rintro (h' | h') <;> rw [h] at h'
        · cases h'
        · exact h'.1
      rw [hd]
      refine le_trans (Nat.add_le_add_right hle 1) (cnt_gain (x := t) (k_lt hb (by rw [h]; simp)) hn ?_ ?_)
      · left; rw [hto.pc]; rfl
      · intro u hu'
        have e : u ≠ t := by
          rintro rfl; exact hn hu'
        rw [R, (hf u e).pc, hto.cv' _ hu]; exact hu'
    · have hd : w.demand (.push q) ≠ 0 → w'.demand (.push q) + 1 ≤ w.demand (.push q) := by
        simp only [World.demand, hto.qu, World.setQu, if_true]
        cases hm : (w.qu q).max with
        | none => simp
        | some N => simp; omega
      have hd0 : w.demand (.push q) = 0 → w'.demand (.push q) = 0 := by
        simp only [World.demand, hto.qu, World.setQu, if_true]
        cases hm : (w.qu q).max with
        | none => simp
        | some N => simp; omega
      have := cnt_drop (n := n) (p := R (.push q) w) (p' := R (.push q) w') t (fun u e hu' => by
        rw [R, (hf u e).pc, hto.cv' _ hu]; exact hu')
      by_cases h0 : w.demand (.push q) = 0
      · have := hd0 h0; omega
      · have := hd h0; omega
  | took q nb timed h r w' hto =>
    refine (Edit.of hto h (.inr (.inr rfl)) id (fun cc hu hq hne hcl => .inl ⟨hcl, fun hle => ?_⟩)
      (fun cc hu hq hne hcl => .inl hcl)).k hf hw hw' hh k
    obtain rfl | rfl := c_cases hu hq
    · have hd : w'.demand (.pop q) = w.demand (.pop q) - 1 := by
        simp [World.demand, hto.qu, World.setQu]
      have := cnt_drop (n := n) (p := R (.pop q) w) (p' := R (.pop q) w') t (fun u e hu' => by
        rw [R, (hf u e).pc, hto.cv' _ hu]; exact hu')
      omega
    · by_cases hm : (w.qu q).max = none
      · have : w'.demand (.push q) = 0 := by simp [World.demand, hto.qu, World.setQu, hm]
        omega
      · have hd : w'.demand (.push q) ≤ w.demand (.push q) + 1 := by
          simp only [World.demand, hto.qu, World.setQu, if_true]
          cases hm : (w.qu q).max with
          | none => simp
          | some N => simp; omega
        have hn : ¬ R (.push q) w t := by
          rintro (h' | h') <;> rw [h] at h'
          · cases h'
          · exact h'.1
        refine le_trans hd (le_trans (Nat.add_le_add_right hle 1)
          (cnt_gain (x := t) (k_lt hb (by rw [h]; simp)) hn ?_ ?_))
        · left; rw [hto.pc, if_neg hm]; rfl
        · intro u hu'
          have e : u ≠ t := by
            rintro rfl; exact hn hu'
          rw [R, (hf u e).pc, hto.cv' _ hu]; exact hu'
  | clear q h w' hto =>
    refine (Edit.of hto h (.inl rfl) id (fun cc hu hq hne hcl => ?_)
      (fun cc hu hq hne hcl => .inl hcl)).k hf hw hw' hh k
    obtain rfl | rfl := c_cases hu hq
    · refine .inl ⟨hcl, fun _ => ?_⟩
      have : w'.demand (.pop q) = 0 := by simp [World.demand, hto.qu, World.setQu]
      omega
    · by_cases hm : (w.qu q).max = none
      · refine .inl ⟨hcl, fun _ => ?_⟩
        have : w'.demand (.push q) = 0 := by simp [World.demand, hto.qu, World.setQu, hm]
        omega
      · rw [if_neg hm]; exact .inr (owes_postPc (by simp))
  | close q h w' hto =>
    refine (Edit.of hto h (.inl rfl) id (fun cc hu hq hne hcl => by simp at hcl)
      (fun cc hu hq hne hcl => .inr ?_)).k hf hw hw' hh k
    obtain rfl | rfl := c_cases hu hq
    · exact owes_postPc (by simp)
    · obtain ⟨x, hx⟩ := List.exists_mem_of_ne_nil _ hne
      have hm := k.room x q (.inl (k.inWt _ hu x hx))
      rw [if_neg hm]
      exact owes_postPc (by simp)
  | resize q N old h hm w' hto =>
    refine (Edit.of hto h (.inl rfl) (by simp) (fun cc hu hq hne hcl => ?_)
      (fun cc hu hq hne hcl => .inl hcl)).k hf hw hw' hh k
    have hn : ∀ cc, ¬ R cc w t := by
      rintro cc (h' | h') <;> rw [h] at h'
      · exact h'
      · exact h'.1
    have hle' : cnt n (R cc w) ≤ cnt n (R cc w') := cnt_le fun u hu' => by
      have e : u ≠ t := by
        rintro rfl; exact hn _ hu'
      rw [R, (hf u e).pc, hto.cv' _ hu]; exact hu'
    obtain rfl | rfl := c_cases hu hq
    · refine .inl ⟨hcl, fun hle => ?_⟩
      have : w'.demand (.pop q) = w.demand (.pop q) := by simp [World.demand, hto.qu, World.setQu]
      omega
    · by_cases ho : old < N
      · rw [if_pos ho]; exact .inr (owes_postPc (by simp))
      · refine .inl ⟨hcl, fun hle => ?_⟩
        have : w'.demand (.push q) ≤ w.demand (.push q) := by
          simp only [World.demand, hto.qu, World.setQu, if_true, hm]
          omega
        omega

end Verif.Sync
