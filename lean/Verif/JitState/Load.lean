import Verif.JitState.BinInt

/-! Loading operands into FP registers. -/

namespace Verif.JitState

/-- The mode is a float-register cache of a number whose kind was lost. -/
def Mode.isBoth : Mode → Bool
  | .Sf _ .both => true
  | _ => false

/-- the guard a numeric class stands for -/
def NCls.g : NCls → Guarded
  | .int => .fixnum
  | .flt => .float

/-- The state knows the slot's class, or will have it checked. -/
def TyOk (st : St) (s : Slot) (c : NCls) : Prop :=
  (st.mode s).guarded = some c.g ∨ ((st.mode s).guarded = some .value ∧ (st.mode s).isBoth = false)

/-- the value is of the class -/
def NCls.sat : NCls → Val → Prop
  | .int, v => ∃ i, v = .fix i
  | .flt, v => ∃ f, v = .flo f

/-- Mode changes a load may make to other slots: dropping an FP cache. -/
def Demoted (st st' : St) (t : Slot) : Prop :=
  st'.mode t = st.mode t ∨ ∃ y g, st.mode t = .Sf y g ∧ st'.mode t = .S g.toG

theorem Demoted.live {st st' : St} {t : Slot} (h : Demoted st st' t) :
    (st'.mode t).live = (st.mode t).live := by
  rcases h with h | ⟨y, g, h1, h2⟩
  · rw [h]
  · rw [h1, h2]; rfl

theorem Demoted.tyOk {st st' : St} {t : Slot} {c : NCls} (h : Demoted st st' t) (hc : TyOk st t c) :
    TyOk st' t c := by
  rcases h with h | ⟨y, g, h1, h2⟩
  · unfold TyOk at *; rw [h]; exact hc
  · unfold TyOk at *
    rw [h1] at hc
    rw [h2]
    rcases hc with hc | ⟨hc, hb⟩
    · exact .inl hc
    · exact .inr ⟨hc, rfl⟩

theorem Demoted.trans {a b c : St} {t : Slot} (h1 : Demoted a b t) (h2 : Demoted b c t) : Demoted a c t := by
  rcases h1 with h1 | ⟨y, g, h1, h1'⟩
  · rcases h2 with h2 | ⟨y, g, h2, h2'⟩
    · exact .inl (h2.trans h1)
    · exact .inr ⟨y, g, by rw [← h1]; exact h2, h2'⟩
  · rcases h2 with h2 | ⟨y', g', h2, h2'⟩
    · exact .inr ⟨y, g, h1, h2.trans h1'⟩
    · rw [h1'] at h2; simp at h2

theorem rep_reg {P : Prim} {st : St} {m : Mach} {L : Slot → Val} {s : Slot} {x : FReg}
    (h : RepSlot P st m L s) (hx : (st.mode s).reg = some x) : m.fpr x = toF P (L s) := by
  unfold RepSlot at h
  cases hm : st.mode s with
  | F y =>
    rw [hm] at h hx
    simp only [Mode.reg, Option.some.injEq] at hx
    subst hx
    simp only at h
    rw [h]; rfl
  | Sf y g =>
    rw [hm] at h hx
    simp only [Mode.reg, Option.some.injEq] at hx
    subst hx
    exact h.2.2
  | _ => rw [hm] at hx; simp [Mode.reg] at hx

/-- a register no described slot uses may be overwritten -/
theorem rep_fpr {P : Prim} {st : St} {m : Mach} {L : Slot → Val} {D : Slot → Prop} {x : FReg} {f : Flt}
    (rep : Rep P st m L D) (hv : ∀ s, D s → (st.mode s).reg ≠ some x) :
    Rep P st { m with fpr := upd m.fpr x f } L D := by
  refine ⟨?_, rep.hold⟩
  intro s hs
  have h := rep.slot s hs
  have hv := hv s hs
  unfold RepSlot at *
  cases hm : st.mode s with
  | F y =>
    rw [hm] at h hv
    simp only [Mode.reg, ne_eq, Option.some.injEq] at hv
    simp only [upd_ne _ _ hv]; exact h
  | Sf y g =>
    rw [hm] at h hv
    simp only [Mode.reg, ne_eq, Option.some.injEq] at hv
    simp only [upd_ne _ _ hv]; exact h
  | S g => rw [hm] at h; exact h
  | C v => rw [hm] at h; exact h
  | V => trivial
  | none => trivial
  | maybeNone => trivial

theorem rep_scratch {P : Prim} {st : St} {m : Mach} {L : Slot → Val} {D : Slot → Prop} {v : Val}
    (w : WF st) (rep : Rep P st m L D) : Rep P st { m with gp := upd m.gp scratch v } L D := by
  refine (GpLe.refl st).rep rep rfl ?_ (fun _ h => h) (fun _ _ => .inr ⟨rfl, id⟩)
  intro r h hg
  refine upd_ne _ _ ?_
  rintro rfl
  exact absurd (w.lt _ h hg).1 (Nat.lt_irrefl _)

/-- What a load achieves. -/
def LoadPost (P : Prim) (st st' : St) (m : Mach) (ins : List Ins) (L : Slot → Val) (s : Slot) (c : NCls)
    (x : FReg) : Prop :=
  (∃ m', exec P m ins = .ok m' ∧ WF st' ∧ Rep P st' m' L All ∧ c.sat (L s)) ∨
  (∃ stk, exec P m ins = .error stk ∧ ∀ t, (st.mode t).live = true → stk t = L t)

/-- The static half of a load. -/
structure LoadSt (st st' : St) (s : Slot) (c : NCls) (x : FReg) : Prop where
  reg : (st'.mode s).reg = some x
  others : ∀ t, t ≠ s → Demoted st st' t
  pins : ∀ t y, t ≠ s → y ∈ st.pinned → y < st.vf.length → (st.mode t).reg = some y →
    st'.mode t = st.mode t
  n : st'.n = st.n
  pinned : st'.pinned = st.pinned
  live : (st'.mode s).live = (st.mode s).live
  fresh : (st.mode s).reg = some x ∨
    ((x ∈ st.pinned → st.vf.length ≤ x) ∧ ∀ t, t ≠ s → (st'.mode t).reg ≠ some x)

theorem alloc_relink_static {st : St} (w : WF st) {s : Slot} {c : NCls} {M : Mode}
    (hl : (st.mode s).live = true) (hM : M.reg = some st.alloc.2) (hMl : M.live = true) :
    LoadSt st (st.alloc.1.relink s M) s c st.alloc.2 := by
  obtain ⟨wa, a⟩ := alloc_spec w
  obtain ⟨hn, hp, hg, hm, hv⟩ := relink_fields st.alloc.1 s M
  have hne : ∀ t, t ≠ s → (st.alloc.1.relink s M).mode t = st.alloc.1.mode t := by
    intro t ht; rw [hm, upd_ne _ _ ht]
  refine ⟨by rw [hm]; simpa using hM, ?_, ?_, by rw [hn, a.n], by rw [hp, a.pinned], ?_, .inr ⟨?_, ?_⟩⟩
  · intro t ht
    unfold Demoted
    rw [hne t ht]
    rcases a.mode t with h | ⟨g, h1, h2⟩
    · exact .inl h
    · exact .inr ⟨_, g, h1, h2⟩
  · intro t y ht hy hyl hr
    rw [hne t ht]
    rcases a.mode t with h | ⟨g, h1, h2⟩
    · exact h
    · exfalso
      rw [h1] at hr
      simp only [Mode.reg, Option.some.injEq] at hr
      subst hr
      rcases a.unpinned with h | h
      · exact h hy
      · exact absurd hyl (Nat.not_lt.2 h)
  · rw [hm]; simp [hMl, hl]
  · intro hx
    rcases a.unpinned with h | h
    · exact absurd hx h
    · exact h
  · intro t ht
    rw [hne t ht]
    exact a.vacant t

theorem alloc_relink_rep {P : Prim} {st : St} (w : WF st) {m : Mach} {L : Slot → Val} {s : Slot}
    {M : Mode} {f : Flt} (rep : Rep P st m L All) (hs : s < st.n) (hM : M.reg = some st.alloc.2)
    (hR : RepM P { m with fpr := upd m.fpr st.alloc.2 f } (m.stack s) (L s) M) :
    WF (st.alloc.1.relink s M) ∧
    Rep P (st.alloc.1.relink s M) { m with fpr := upd m.fpr st.alloc.2 f } L All := by
  obtain ⟨wa, a⟩ := alloc_spec w
  refine ⟨relink_wf wa (.inl (by rw [a.n]; exact hs)) ?_, ?_⟩
  · intro y hy
    rw [hM] at hy
    simp only [Option.some.injEq] at hy
    subst hy; exact a.lt
  · refine relink_rep (L := L) (D := All) ?_ (fun _ _ => rfl) (fun _ _ _ => trivial) (fun _ => hR)
    exact a.rep rep (fun _ _ _ => rfl) rfl (fun y hy => upd_ne _ _ hy)

theorem loadC_ok {P : Prim} {st st' : St} {m : Mach} {L : Slot → Val} {s : Slot} {c : NCls} {v : Val}
    {ins : List Ins} {x : FReg} (w : WF st) (rep : Rep P st m L All) (hm : st.mode s = .C v)
    (hc : TyOk st s c) (h : st.loadC s v = some (st', ins, x)) :
    LoadPost P st st' m ins L s c x := by
  have hl : (st.mode s).live = true := by rw [hm]; rfl
  have hLs : L s = v := rep_C rep trivial hm
  have hn := wf_live_lt w hl
  have hty : c.sat v := by
    unfold TyOk at hc
    rw [hm] at hc
    cases v with
    | fix i =>
      cases c with
      | int => exact ⟨i, rfl⟩
      | flt => simp [Mode.guarded, Guarded.ofVal, NCls.g] at hc
    | flo f =>
      cases c with
      | int => simp [Mode.guarded, Guarded.ofVal, NCls.g] at hc
      | flt => exact ⟨f, rfl⟩
    | obj a b => simp [St.loadC] at h
  unfold St.loadC at h
  cases v with
  | flo f =>
    simp only [Option.some.injEq, Prod.mk.injEq] at h
    obtain ⟨rfl, rfl, rfl⟩ := h
    rw [setF_eq]
    obtain ⟨h1, h2⟩ := alloc_relink_rep (M := .F st.alloc.2) (f := f) w rep hn rfl (by
      unfold RepM
      simp [hLs])
    exact .inl ⟨_, rfl, h1, h2, by rw [hLs]; exact hty⟩
  | fix i =>
    simp only [Option.some.injEq, Prod.mk.injEq] at h
    obtain ⟨rfl, rfl, rfl⟩ := h
    rw [setSf_eq]
    have rep0 : Rep P st { m with stack := upd m.stack s (.fix i) } L All := by
      refine (GpLe.refl st).rep rep rfl (fun _ _ _ => rfl) (fun _ h => h) ?_
      intro t _
      by_cases ht : t = s
      · subst ht; left; simp [hLs]
      · exact .inr ⟨upd_ne _ _ ht, id⟩
    obtain ⟨h1, h2⟩ := alloc_relink_rep (M := .Sf st.alloc.2 .fixnum) (f := P.i2f i) w rep0 hn rfl (by
      unfold RepM
      refine ⟨by simp [hLs], ⟨i, hLs⟩, ?_⟩
      rw [hLs]; simp [toF])
    exact .inl ⟨_, rfl, h1, h2, by rw [hLs]; exact hty⟩
  | obj a b => simp at h

theorem loadC_st {st st' : St} {s : Slot} {c : NCls} {v : Val}
    {ins : List Ins} {x : FReg} (w : WF st) (hm : st.mode s = .C v)
    (h : st.loadC s v = some (st', ins, x)) : LoadSt st st' s c x := by
  have hl : (st.mode s).live = true := by rw [hm]; rfl
  unfold St.loadC at h
  cases v with
  | flo f =>
    simp only [Option.some.injEq, Prod.mk.injEq] at h
    obtain ⟨rfl, rfl, rfl⟩ := h
    rw [setF_eq]
    exact alloc_relink_static w hl rfl rfl
  | fix i =>
    simp only [Option.some.injEq, Prod.mk.injEq] at h
    obtain ⟨rfl, rfl, rfl⟩ := h
    rw [setSf_eq]
    exact alloc_relink_static w hl rfl rfl
  | obj a b => simp at h

theorem loadScratch_ok {P : Prim} {st : St} {m : Mach} {L : Slot → Val} {s : Slot} {g : Guarded}
    (w : WF st) (rep : Rep P st m L All) (hm : st.mode s = .S g) :
    ∃ m', exec P m (loadScratch (st.regOf s) s) = .ok m' ∧ m'.gp scratch = L s ∧ m'.stack s = L s ∧
      m'.fpr = m.fpr ∧ (∀ t, m'.stack t = m.stack t ∨ m'.stack t = L t) ∧
      (∀ r h, st.gp r = some h → m'.gp r = m.gp r) ∧ Rep P st m' L All := by
  have hs := rep.slot s trivial
  unfold RepSlot at hs
  rw [hm] at hs
  cases hr : st.regOf s with
  | none =>
    have hnh := St.regOf_none w hr
    have hst : m.stack s = L s := hs.2 (fun r h hg hh => absurd hh (hnh r h hg))
    refine ⟨{ m with gp := upd m.gp scratch (m.stack s) }, rfl, by simp [hst], hst, rfl,
      fun _ => .inl rfl, ?_, rep_scratch w rep⟩
    intro r h hg
    refine upd_ne _ _ ?_
    rintro rfl
    exact absurd (w.lt _ h hg).1 (Nat.lt_irrefl _)
  | some r =>
    obtain ⟨hrl, h, hg, hhs⟩ := St.regOf_some hr
    have hv : m.gp r = L s := by rw [rep.hold r h hg, hhs]
    have rep0 : Rep P st { m with stack := upd m.stack s (m.gp r) } L All := by
      refine (GpLe.refl st).rep rep rfl (fun _ _ _ => rfl) (fun _ h => h) ?_
      intro t _
      by_cases ht : t = s
      · subst ht; left; simp [hv]
      · exact .inr ⟨upd_ne _ _ ht, id⟩
    refine ⟨{ m with stack := upd m.stack s (m.gp r), gp := upd m.gp scratch (m.gp r) }, rfl,
      by simp [hv], by simp [hv], rfl, ?_, ?_, rep_scratch w rep0⟩
    · intro t
      by_cases ht : t = s
      · subst ht; right; simp [hv]
      · left; exact upd_ne _ _ ht
    · intro q h hg
      refine upd_ne _ _ ?_
      rintro rfl
      exact absurd (w.lt _ h hg).1 (Nat.lt_irrefl _)

theorem loadFpr_ok {P : Prim} {st st' : St} {m : Mach} {L : Slot → Val} {s : Slot}
    {ins : List Ins} {x : FReg} (w : WF st) (rep : Rep P st m L All)
    (hc : TyOk st s .flt) (h : st.loadFpr s = some (st', ins, x)) :
    LoadPost P st st' m ins L s .flt x ∧ LoadSt st st' s .flt x := by
  have hs := rep.slot s trivial
  unfold St.loadFpr at h
  cases hm : st.mode s with
  | Sf y g =>
    simp only [hm, Option.some.injEq, Prod.mk.injEq] at h
    obtain ⟨rfl, rfl, rfl⟩ := h
    refine ⟨.inl ⟨m, rfl, w, rep, ?_⟩, ⟨by rw [hm]; rfl, fun _ _ => .inl rfl, fun _ _ _ _ _ _ => rfl, rfl,
      rfl, rfl, .inl (by rw [hm]; rfl)⟩⟩
    rcases hc with hc | ⟨hc, hb⟩
    · exact sat_float (rep_sat hs hc (by rw [hm]; rfl))
    · rw [hm] at hc hb
      cases g <;> simp [Mode.guarded, SfG.toG, Mode.isBoth] at hc hb
  | F y =>
    simp only [hm, Option.some.injEq, Prod.mk.injEq] at h
    obtain ⟨rfl, rfl, rfl⟩ := h
    refine ⟨.inl ⟨m, rfl, w, rep, ?_⟩, ⟨by rw [hm]; rfl, fun _ _ => .inl rfl, fun _ _ _ _ _ _ => rfl, rfl,
      rfl, rfl, .inl (by rw [hm]; rfl)⟩⟩
    unfold RepSlot at hs
    rw [hm] at hs
    exact ⟨_, hs⟩
  | S g =>
    simp only [hm, Option.some.injEq, Prod.mk.injEq] at h
    obtain ⟨rfl, rfl, rfl⟩ := h
    have hl : (st.mode s).live = true := by rw [hm]; rfl
    rw [setSf_eq]
    refine ⟨?_, alloc_relink_static w hl rfl rfl⟩
    obtain ⟨m1, e1, hv, hst, hf, hst', hg', rep1⟩ := loadScratch_ok w rep hm
    by_cases hfl : ∃ f, L s = .flo f
    · obtain ⟨f, hf'⟩ := hfl
      obtain ⟨h1, h2⟩ := alloc_relink_rep (M := .Sf st.alloc.2 .float) (f := f) w rep1 (wf_live_lt w hl) rfl (by
        unfold RepM
        refine ⟨hst, ⟨f, hf'⟩, ?_⟩
        rw [hf']; simp [toF])
      refine .inl ⟨_, ?_, h1, h2, f, hf'⟩
      rw [exec_append_ok e1]
      simp [exec, exec1, hv, hf']
    · refine .inr ⟨applyWB st.wb m1, ?_, ?_⟩
      · rw [exec_append_ok e1]
        simp only [exec, exec1, hv]
        cases hL : L s with
        | flo f => exact absurd ⟨f, hL⟩ hfl
        | fix i => rfl
        | obj a b => rfl
      · intro t ht
        exact applyWB_snap w (Snap_of_rep rep trivial ht hf (hst' t) (fun r h hg _ _ => hg' r h hg))
  | C v =>
    simp only [hm] at h
    exact ⟨loadC_ok w rep hm hc h, loadC_st w hm h⟩
  | V => simp [hm] at h
  | none => simp [hm] at h
  | maybeNone => simp [hm] at h

theorem setMode_S_wf {st : St} (w : WF st) {s : Slot} {g g' : Guarded} (hm : st.mode s = .S g) :
    WF (st.setMode s (.S g')) := by
  have hmode : ∀ t, (st.setMode s (.S g')).mode t = if t = s then .S g' else st.mode t := fun _ => rfl
  refine ⟨?_, w.inj, w.lt, ?_, ?_⟩
  · intro x t
    have : (st.setMode s (.S g')).slots x = st.slots x := rfl
    rw [this, w.vf, hmode]
    by_cases ht : t = s
    · subst ht; rw [hm]; simp [Mode.reg]
    · simp [ht]
  · intro r h hg hd
    obtain ⟨a, ha⟩ := w.dirty r h hg hd
    rw [hmode]
    by_cases ht : h.slot = s
    · exact ⟨g', by simp [ht]⟩
    · exact ⟨a, by simp [ht, ha]⟩
  · intro t ht
    rw [hmode]
    have := w.big t ht
    rw [if_neg]
    · exact this
    · rintro rfl; rw [hm] at this; simp at this

theorem setMode_S_rep {P : Prim} {st : St} {m : Mach} {L : Slot → Val} {D : Slot → Prop} {s : Slot}
    {g g' : Guarded} (rep : Rep P st m L D) (hm : st.mode s = .S g) (hsat : g'.sat (L s) = true) :
    Rep P (st.setMode s (.S g')) m L D := by
  refine ⟨?_, rep.hold⟩
  intro t ht
  have := rep.slot t ht
  unfold RepSlot at *
  have hmode : (st.setMode s (.S g')).mode t = if t = s then .S g' else st.mode t := rfl
  rw [hmode]
  by_cases hts : t = s
  · subst hts
    rw [hm] at this
    simp only [if_true]
    exact ⟨hsat, this.2⟩
  · rw [if_neg hts]
    exact this

theorem loadFprFix_ok {P : Prim} {st st' : St} {m : Mach} {L : Slot → Val} {s : Slot}
    {ins : List Ins} {x : FReg} (w : WF st) (rep : Rep P st m L All)
    (hc : TyOk st s .int) (h : st.loadFprFix s = some (st', ins, x)) :
    LoadPost P st st' m ins L s .int x ∧ LoadSt st st' s .int x := by
  have hs := rep.slot s trivial
  unfold St.loadFprFix at h
  cases hm : st.mode s with
  | Sf y g =>
    simp only [hm, Option.some.injEq, Prod.mk.injEq] at h
    obtain ⟨rfl, rfl, rfl⟩ := h
    refine ⟨.inl ⟨m, rfl, w, rep, ?_⟩, ⟨by rw [hm]; rfl, fun _ _ => .inl rfl, fun _ _ _ _ _ _ => rfl, rfl,
      rfl, rfl, .inl (by rw [hm]; rfl)⟩⟩
    rcases hc with hc | ⟨hc, hb⟩
    · exact sat_fixnum (rep_sat hs hc (by rw [hm]; rfl))
    · rw [hm] at hc hb
      cases g <;> simp [Mode.guarded, SfG.toG, Mode.isBoth] at hc hb
  | F y =>
    exfalso
    unfold TyOk at hc
    rw [hm] at hc
    simp [Mode.guarded, NCls.g] at hc
  | S g =>
    simp only [hm, Option.some.injEq, Prod.mk.injEq] at h
    obtain ⟨rfl, rfl, rfl⟩ := h
    have hl : (st.mode s).live = true := by rw [hm]; rfl
    -- the state whose allocator runs
    have key : ∀ st1 : St, st1 = (if g = .fixnum then st else st.setMode s (.S .fixnum)) →
        WF st1 ∧ st1.pinned = st.pinned ∧ st1.vf = st.vf ∧ st1.n = st.n ∧
        (∀ t, t ≠ s → st1.mode t = st.mode t) ∧ st1.mode s = .S .fixnum ∧
        (∀ m', Rep P st m' L All → (∃ i, L s = .fix i) → Rep P st1 m' L All) := by
      rintro st1 rfl
      by_cases hg : g = .fixnum
      · rw [if_pos hg]
        exact ⟨w, rfl, rfl, rfl, fun _ _ => rfl, by rw [hm, hg], fun m' r _ => r⟩
      · rw [if_neg hg]
        refine ⟨setMode_S_wf w hm, rfl, rfl, rfl, fun t ht => ?_, ?_, ?_⟩
        · simp [St.setMode, ht]
        · simp [St.setMode]
        · rintro m' r ⟨i, hi⟩
          exact setMode_S_rep r hm (by rw [hi]; rfl)
    obtain ⟨w1, hp1, hv1, hn1, hne1, hs1, hrep1⟩ := key _ rfl
    generalize (if g = .fixnum then st else st.setMode s (.S .fixnum)) = st1 at *
    rw [setSf_eq]
    have hl1 : (st1.mode s).live = true := by rw [hs1]; rfl
    refine ⟨?_, ?_⟩
    · obtain ⟨m1, e1, hv, hst, hf, hst', hg', rep1⟩ := loadScratch_ok w rep hm
      have good : (∃ i, L s = .fix i) →
          ∃ m', exec P m1 [Ins.i2x scratch st1.alloc.2] = .ok m' ∧
            WF (st1.alloc.1.relink s (.Sf st1.alloc.2 .fixnum)) ∧
            Rep P (st1.alloc.1.relink s (.Sf st1.alloc.2 .fixnum)) m' L All := by
        rintro ⟨i, hi⟩
        obtain ⟨h1, h2⟩ := alloc_relink_rep (M := .Sf st1.alloc.2 .fixnum) (f := P.i2f i) w1
          (hrep1 m1 rep1 ⟨i, hi⟩) (by rw [hn1]; exact wf_live_lt w hl) rfl (by
            unfold RepM
            refine ⟨hst, ⟨i, hi⟩, ?_⟩
            rw [hi]; simp [toF])
        exact ⟨_, by simp [exec, exec1, hv, hi, Val.int], h1, h2⟩
      by_cases hg : g = .fixnum
      · have hfix : ∃ i, L s = .fix i := by
          unfold RepSlot at hs
          rw [hm, hg] at hs
          exact sat_fixnum hs.1
        obtain ⟨m', em', h1, h2⟩ := good hfix
        refine .inl ⟨m', ?_, h1, h2, hfix⟩
        rw [if_pos hg, List.append_nil, exec_append_ok e1]
        exact em'
      · rw [if_neg hg]
        by_cases hfix : ∃ i, L s = .fix i
        · obtain ⟨m', em', h1, h2⟩ := good hfix
          refine .inl ⟨m', ?_, h1, h2, hfix⟩
          obtain ⟨i, hi⟩ := hfix
          rw [List.append_assoc, exec_append_ok e1]
          rw [exec_append_ok (m' := m1) (by simp [exec, exec1, hv, hi, Guarded.sat])]
          exact em'
        · refine .inr ⟨applyWB st.wb m1, ?_, ?_⟩
          · rw [List.append_assoc, exec_append_ok e1]
            apply exec_append_error
            have : Guarded.sat .fixnum (L s) = false := by
              cases hb : Guarded.sat .fixnum (L s) with
              | false => rfl
              | true => exact absurd (sat_fixnum hb) hfix
            simp [exec, exec1, hv, this]
          · intro t ht
            exact applyWB_snap w (Snap_of_rep rep trivial ht hf (hst' t) (fun r h hg _ _ => hg' r h hg))
    · have hst := alloc_relink_static (c := .int) (M := .Sf st1.alloc.2 .fixnum) w1 hl1 rfl rfl
      refine ⟨hst.reg, ?_, ?_, by rw [hst.n, hn1], by rw [hst.pinned, hp1], by rw [hst.live, hl1, hl], ?_⟩
      · intro t ht
        have := hst.others t ht
        unfold Demoted at *
        rw [hne1 t ht] at this; exact this
      · intro t y ht hy hyl hr
        have := hst.pins t y ht (by rw [hp1]; exact hy) (by rw [hv1]; exact hyl) (by rw [hne1 t ht]; exact hr)
        rw [this, hne1 t ht]
      · rcases hst.fresh with h | h
        · rw [hs1] at h; simp [Mode.reg] at h
        · rw [hp1, hv1] at h; exact .inr h
  | C v =>
    simp only [hm] at h
    exact ⟨loadC_ok w rep hm hc h, loadC_st w hm h⟩
  | V => simp [hm] at h
  | none => simp [hm] at h
  | maybeNone => simp [hm] at h

theorem fetchF_ok {P : Prim} {st st' : St} {m : Mach} {L : Slot → Val} {s : Slot} {c : NCls}
    {ins : List Ins} {x : FReg} (w : WF st) (rep : Rep P st m L All)
    (hc : TyOk st s c) (h : st.fetchF s c = some (st', ins, x)) :
    LoadPost P st st' m ins L s c x ∧ LoadSt st st' s c x := by
  cases c with
  | int => exact loadFprFix_ok w rep hc h
  | flt => exact loadFpr_ok w rep hc h

end Verif.JitState
