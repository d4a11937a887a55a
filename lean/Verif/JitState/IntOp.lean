import Verif.JitState.Fpr
import Mathlib.Tactic.SplitIfs

/-! Integer operators: GP residency, destination choice, snapshot and result. -/

namespace Verif.JitState

/-- The same slots hold values. -/
def LiveEq (st st' : St) : Prop := ∀ s, (st'.mode s).live = (st.mode s).live

theorem LiveEq.refl (st : St) : LiveEq st st := fun _ => rfl
theorem LiveEq.trans {a b c : St} (h1 : LiveEq a b) (h2 : LiveEq b c) : LiveEq a c :=
  fun s => (h2 s).trans (h1 s)
theorem GpLe.liveEq {a b : St} (h : GpLe a b) : LiveEq a b := fun s => by rw [h.mode]

/-- Facts the interpreter and the machine primitives must satisfy. -/
structure Prim.Ok (P : Prim) : Prop where
  add : ∀ a b, P.arith .add (.fix a) (.fix b) ≠ none ∧
    (inFix (a + b) = true → P.arith .add (.fix a) (.fix b) = some (.fix (a + b)))
  sub : ∀ a b, P.arith .sub (.fix a) (.fix b) ≠ none ∧
    (inFix (a - b) = true → P.arith .sub (.fix a) (.fix b) = some (.fix (a - b)))
  mul : ∀ a b, P.arith .mul (.fix a) (.fix b) ≠ none ∧
    (inFix (a * b) = true → P.arith .mul (.fix a) (.fix b) = some (.fix (a * b)))
  div : ∀ a b, b ≠ 0 → inFix (a.fdiv b) = true →
    P.arith .div (.fix a) (.fix b) = some (.fix (a.fdiv b))
  bit : ∀ k a b, k.isArith = false → inFix a = true → inFix b = true →
    inFix (P.bit k a b) = true ∧ P.arith k (.fix a) (.fix b) = some (.fix (P.bit k a b))
  ff : ∀ k a b, k.isArith = true → P.arith k (.flo a) (.flo b) = some (.flo (P.fop k a b))
  fi : ∀ k a b, k.isArith = true → P.arith k (.flo a) (.fix b) = some (.flo (P.fop k a (P.i2f b)))
  if_ : ∀ k a b, k.isArith = true → P.arith k (.fix a) (.flo b) = some (.flo (P.fop k (P.i2f a) b))
  range : ∀ k a b i, P.arith k a b = some (.fix i) → inFix i = true

/-- Every fixnum of the frame is in fixnum range. -/
def Ranged (L : Slot → Val) : Prop := ∀ s i, L s = .fix i → inFix i = true

/-! ### Write-back and residency of one slot -/

theorem rep_sat {P : Prim} {st : St} {m : Mach} {L : Slot → Val} {s : Slot}
    (h : RepSlot P st m L s) {g : Guarded} (hg : (st.mode s).guarded = some g)
    (hl : (st.mode s).live = true) : g.sat (L s) = true := by
  unfold RepSlot at h
  cases hm : st.mode s with
  | S g' =>
    rw [hm] at h hg
    simp only [Mode.guarded, Option.some.injEq] at hg
    subst hg; exact h.1
  | F x =>
    rw [hm] at h hg
    simp only [Mode.guarded, Option.some.injEq] at hg
    subst hg
    simp only at h
    rw [h]; rfl
  | Sf x g' =>
    rw [hm] at h hg
    simp only [Mode.guarded, Option.some.injEq] at hg
    subst hg; exact SfG.sat_toG h.2.1
  | C v =>
    rw [hm] at h hg
    simp only [Mode.guarded, Option.some.injEq] at hg
    simp only at h
    rw [h]
    subst hg
    cases v with
    | fix i => rfl
    | flo f => rfl
    | obj c id =>
      simp only [Guarded.ofVal]
      split <;> simp [Guarded.sat]
  | V => rw [hm] at hl; simp [Mode.live] at hl
  | none => rw [hm] at hl; simp [Mode.live] at hl
  | maybeNone => rw [hm] at hl; simp [Mode.live] at hl

theorem sat_fixnum {v : Val} (h : Guarded.sat .fixnum v = true) : ∃ i, v = .fix i := by
  cases v with
  | fix i => exact ⟨i, rfl⟩
  | flo f => simp [Guarded.sat] at h
  | obj c id => simp [Guarded.sat] at h

theorem sat_float {v : Val} (h : Guarded.sat .float v = true) : ∃ i, v = .flo i := by
  cases v with
  | flo i => exact ⟨i, rfl⟩
  | fix f => simp [Guarded.sat] at h
  | obj c id => simp [Guarded.sat] at h

theorem isFix_fix {P : Prim} {st : St} {m : Mach} {L : Slot → Val} {s : Slot}
    (h : RepSlot P st m L s) (hl : (st.mode s).live = true) (hf : st.isFix s = true) :
    ∃ i, L s = .fix i := by
  unfold St.isFix at hf
  exact sat_fixnum (rep_sat h (by simpa using hf) hl)

theorem wf_live_lt {st : St} (w : WF st) {s : Slot} (hl : (st.mode s).live = true) : s < st.n := by
  by_contra h
  rw [w.big s (Nat.le_of_not_lt h)] at hl
  simp [Mode.live] at hl

/-- the store of a dirty resident -/
theorem storeDirty {P : Prim} {st : St} (w : WF st) {m : Mach} {L : Slot → Val}
    (rep : Rep P st m L All) (s : Slot) :
    ∃ m', exec P m (st.storeIns s) = .ok m' ∧
      m'.gp = m.gp ∧ m'.fpr = m.fpr ∧ (∀ t, m'.stack t = m.stack t ∨ m'.stack t = L t) ∧
      (m'.stack s = L s ∨ (m'.stack s = m.stack s ∧ noDirty st s)) ∧
      (∀ t, t ≠ s → m'.stack t = m.stack t) := by
  unfold St.storeIns
  cases hd : st.dirtyRegOf s with
  | none =>
    exact ⟨m, rfl, rfl, rfl, fun _ => .inl rfl, .inr ⟨rfl, St.dirtyRegOf_none w hd⟩, fun _ _ => rfl⟩
  | some r =>
    obtain ⟨_, h, hg, hs, _⟩ := St.dirtyRegOf_some hd
    have hv : m.gp r = L s := by rw [rep.hold r h hg, hs]
    refine ⟨{ m with stack := upd m.stack s (m.gp r) }, rfl, rfl, rfl, ?_, ?_, ?_⟩
    · intro t
      by_cases ht : t = s
      · right; subst ht; simp [hv]
      · left; exact upd_ne _ _ ht
    · left; simp [hv]
    · intro t ht; exact upd_ne _ _ ht

theorem invalidate_stored {P : Prim} {st : St} (w : WF st) {m m' : Mach} {L : Slot → Val}
    (rep : Rep P st m L All) {s : Slot} (hgp : m'.gp = m.gp) (hf : m'.fpr = m.fpr)
    (h1 : m'.stack s = L s ∨ (m'.stack s = m.stack s ∧ noDirty st s))
    (h2 : ∀ t, t ≠ s → m'.stack t = m.stack t) : Rep P (st.invalidate s) m' L All := by
  refine (GpLe.invalidate st s).rep rep hf (fun r _ _ => by rw [hgp]) (fun _ h => h) ?_
  intro t _
  by_cases ht : t = s
  · subst ht
    rcases h1 with h | ⟨h, hn⟩
    · exact .inl h
    · exact .inr ⟨h, fun _ => hn⟩
  · exact .inr ⟨h2 t ht, fun hn => noDirty_invalidate ht hn⟩

theorem writeBackSlot_ok {P : Prim} {st st' : St} {m : Mach} {L : Slot → Val} {s : Slot}
    {ins : List Ins} (w : WF st) (rep : Rep P st m L All) (hl : (st.mode s).live = true)
    (h : st.writeBackSlot s = some (st', ins)) :
    ∃ m', exec P m ins = .ok m' ∧ WF st' ∧ Rep P st' m' L All ∧ LiveEq st st' ∧
      m'.stack s = L s ∧ m'.gp = m.gp ∧ st'.gp = (st.invalidate s).gp ∧ st'.n = st.n ∧
      (∀ t, (st'.mode t).guarded = (st.mode t).guarded) := by
  unfold St.writeBackSlot at h
  obtain ⟨m1, e1, g1, f1, _, h5, h6⟩ := storeDirty w rep s
  have rep1 := invalidate_stored w rep g1 f1 h5 h6
  have w1 := (GpLe.invalidate st s).wf w
  have hs := rep1.slot s trivial
  have hmi : (st.invalidate s).mode = st.mode := rfl
  simp only [hmi] at h
  cases hm : st.mode s with
  | F x =>
    simp only [hm, Option.some.injEq, Prod.mk.injEq] at h
    obtain ⟨rfl, rfl⟩ := h
    unfold RepSlot at hs
    rw [hmi, hm] at hs
    simp only at hs
    rw [setSf_eq]
    obtain ⟨hn, _, hgp, hmode, _⟩ := relink_fields (st.invalidate s) s (.Sf x .float)
    refine ⟨{ m1 with stack := upd m1.stack s (.flo (m1.fpr x)) }, ?_, ?_, ?_, ?_, ?_, g1, ?_, hn, ?_⟩
    · rw [exec_append_ok e1]; rfl
    · refine relink_wf w1 (.inl (wf_live_lt w hl)) ?_
      intro y hy
      simp only [Mode.reg, Option.some.injEq] at hy
      subst hy
      exact St.slots_lt ((w1.vf x s).2 (by rw [hmi, hm]; rfl))
    · refine relink_rep (L := L) (D := fun t => t ≠ s) ?_ (fun _ _ => rfl) (fun t ht _ => ht) ?_
      · refine (GpLe.refl (st.invalidate s)).rep rep1 rfl (fun _ _ _ => rfl) (fun _ _ => trivial) ?_
        intro t ht
        exact .inr ⟨upd_ne _ _ ht, id⟩
      · intro _
        refine ⟨by simp [hs], ⟨_, hs⟩, ?_⟩
        rw [hs]; rfl
    · intro t
      rw [hmode, hmi]
      unfold upd
      split
      · next ht => subst ht; rw [hm]; rfl
      · rfl
    · simp [hs]
    · rw [hgp]
      funext r
      unfold St.invalidate
      simp only
      split <;> simp_all
    · intro t
      rw [hmode, hmi]
      unfold upd
      split
      · next ht => subst ht; rw [hm]; rfl
      · rfl
  | C v =>
    simp only [hm, Option.some.injEq, Prod.mk.injEq] at h
    obtain ⟨rfl, rfl⟩ := h
    unfold RepSlot at hs
    rw [hmi, hm] at hs
    simp only at hs
    refine ⟨{ m1 with stack := upd m1.stack s v }, ?_, w1, ?_, fun _ => rfl, by simp [hs], g1, rfl, rfl,
      fun _ => rfl⟩
    · rw [exec_append_ok e1]; rfl
    · refine (GpLe.refl (st.invalidate s)).rep rep1 rfl (fun _ _ _ => rfl) (fun _ h => h) ?_
      intro t _
      by_cases ht : t = s
      · left; subst ht; simp [hs]
      · exact .inr ⟨upd_ne _ _ ht, id⟩
  | S g =>
    simp only [hm, Option.some.injEq, Prod.mk.injEq] at h
    obtain ⟨rfl, rfl⟩ := h
    unfold RepSlot at hs
    rw [hmi, hm] at hs
    refine ⟨m1, e1, w1, rep1, fun _ => rfl, hs.2 ?_, g1, rfl, rfl, fun _ => rfl⟩
    intro r h hg hh
    exact absurd hh (St.invalidate_none hg)
  | Sf x g =>
    simp only [hm, Option.some.injEq, Prod.mk.injEq] at h
    obtain ⟨rfl, rfl⟩ := h
    unfold RepSlot at hs
    rw [hmi, hm] at hs
    exact ⟨m1, e1, w1, rep1, fun _ => rfl, hs.1, g1, rfl, rfl, fun _ => rfl⟩
  | V => rw [hm] at hl; simp [Mode.live] at hl
  | none => rw [hm] at hl; simp [Mode.live] at hl
  | maybeNone => rw [hm] at hl; simp [Mode.live] at hl

/-- loading a value into a free register and binding it clean -/
theorem load_bind {P : Prim} {st : St} {m : Mach} {L : Slot → Val} {s : Slot} {r : GReg}
    {pins : List GReg} {st1 : St} {sp : Option (GReg × Slot)}
    (w : WF st) (rep : Rep P st m L All) (hs : s < st.n)
    (hnh : ∀ q h, st.gp q = some h → h.slot ≠ s)
    (ha : st.allocReg pins = some (st1, r, sp)) (i : Ins)
    (hi : ∀ m1 : Mach, m1.gp = m.gp → (∀ t, m1.stack t = m.stack t ∨ m1.stack t = L t) →
      exec1 P m1 i = .ok { m1 with gp := upd m1.gp r (L s) }) :
    ∃ m', exec P m (spillIns sp ++ [i]) = .ok m' ∧ WF (st1.bind r s false) ∧
      Rep P (st1.bind r s false) m' L All ∧ r < nGp ∧ r ∉ pins ∧
      (∀ p h, p ∈ pins → st.gp p = some h → (st1.bind r s false).gp p = some h) ∧
      (st1.bind r s false).mode = st.mode ∧ (st1.bind r s false).n = st.n := by
  obtain ⟨hr, hrp, rfl, rfl⟩ := St.allocReg_spec ha
  obtain ⟨m1, e1, g1, f1, s1, rep1⟩ := freeReg_rep r rep
  have w1 := (GpLe.freeReg st r).wf w
  have hfree : (st.freeReg r).gp r = none := by simp [St.freeReg]
  refine ⟨{ m1 with gp := upd m1.gp r (L s) }, ?_, ?_, ?_, hr, hrp, ?_, rfl, rfl⟩
  · rw [exec_append_ok e1]
    simp only [exec, hi m1 g1 s1]
  · exact bind_wf w1 hr hs (by simp)
  · refine bind_rep (D := All) ?_ hfree (by simp) ?_ (fun _ _ _ => trivial) (fun _ => .inl ⟨rfl, trivial⟩)
    · refine (GpLe.refl (st.freeReg r)).rep rep1 rfl ?_ (fun _ h => h) (fun t _ => .inr ⟨rfl, id⟩)
      intro q h hq
      refine upd_ne _ _ ?_
      rintro rfl
      rw [hfree] at hq; simp at hq
    · intro q h hq
      exact hnh q h ((GpLe.freeReg st r).gp q h hq)
  · intro p h hp hg
    have hpr : p ≠ r := by rintro rfl; exact hrp hp
    refine bind_gp_keep hpr ?_ (hnh p h hg)
    simp [St.freeReg, hpr, hg]

theorem gpEnsure_ok {P : Prim} {st st' : St} {m : Mach} {L : Slot → Val} {s : Slot}
    {pins : List GReg} {ins : List Ins} {r : GReg} {g : Bool} (w : WF st)
    (rep : Rep P st m L All) (hl : (st.mode s).live = true)
    (h : st.gpEnsure s pins = some (st', ins, r, g)) :
    ∃ m', exec P m ins = .ok m' ∧ WF st' ∧ Rep P st' m' L All ∧ LiveEq st st' ∧
      (∃ hh, st'.gp r = some hh ∧ hh.slot = s) ∧ (g = false → ∃ i, L s = .fix i) ∧
      (∀ p hh, p ∈ pins → st.gp p = some hh → st'.gp p = some hh) ∧ st'.n = st.n ∧
      (∀ t, (st'.mode t).guarded = (st.mode t).guarded) := by
  unfold St.gpEnsure at h
  cases hr : st.regOf s with
  | some q =>
    simp only [hr, Option.some.injEq, Prod.mk.injEq] at h
    obtain ⟨rfl, rfl, rfl, rfl⟩ := h
    refine ⟨m, rfl, w, rep, LiveEq.refl _, (St.regOf_some hr).2, ?_, fun _ _ _ h => h, rfl, fun _ => rfl⟩
    intro hf
    exact isFix_fix (rep.slot s trivial) hl (by simpa using hf)
  | none =>
    have hnh := St.regOf_none w hr
    simp only [hr] at h
    cases hc : st.fixLit s with
    | some i =>
      simp only [hc] at h
      have hm : st.mode s = .C (.fix i) := by
        unfold St.fixLit at hc
        split at hc
        · next j hj => simp only [Option.some.injEq] at hc; subst hc; exact hj
        · simp at hc
      have hLs : L s = .fix i := by
        have := rep.slot s trivial
        unfold RepSlot at this
        rw [hm] at this; exact this
      cases ha : st.allocReg pins with
      | none => simp [ha] at h
      | some p =>
        obtain ⟨st1, q, sp⟩ := p
        simp only [ha, Option.some.injEq, Prod.mk.injEq] at h
        obtain ⟨rfl, rfl, rfl, rfl⟩ := h
        obtain ⟨m', e, w', rep', hq, _, hp, hmode, hn⟩ := load_bind w rep (wf_live_lt w hl) hnh ha
          (.l2r (.fix i) q) (by intro m1 _ _; simp [exec1, hLs])
        refine ⟨m', e, w', rep', fun t => by rw [hmode], ?_, fun _ => ⟨i, hLs⟩, hp, hn,
          fun t => by rw [hmode]⟩
        obtain ⟨hh, h1, h2, _⟩ := bind_gp_self st1 q s false
        exact ⟨hh, h1, h2⟩
    | none =>
      simp only [hc] at h
      cases hw : st.writeBackSlot s with
      | none => simp [hw] at h
      | some p =>
        obtain ⟨st2, ins2⟩ := p
        simp only [hw] at h
        obtain ⟨m2, e2, w2, rep2, le2, hs2, g2, hgp2, hn2, hgd2⟩ := writeBackSlot_ok w rep hl hw
        cases ha : st2.allocReg pins with
        | none => simp [ha] at h
        | some p =>
          obtain ⟨st1, q, sp⟩ := p
          simp only [ha, Option.some.injEq, Prod.mk.injEq] at h
          obtain ⟨rfl, rfl, rfl, rfl⟩ := h
          have hnh2 : ∀ q h, st2.gp q = some h → h.slot ≠ s := by
            intro q h hq
            rw [hgp2] at hq
            exact St.invalidate_none hq
          have hl2 : (st2.mode s).live = true := by rw [le2 s]; exact hl
          obtain ⟨m', e, w', rep', hq, _, hp, hmode, hn⟩ := load_bind w2 rep2
            (by rw [hn2]; exact wf_live_lt w hl) hnh2 ha (.s2r s q) (by
              intro m1 _ h2
              have : m1.stack s = L s := by
                rcases h2 s with h | h
                · rw [h, hs2]
                · exact h
              simp [exec1, this])
          refine ⟨m', ?_, w', rep', ?_, ?_, ?_, ?_, hn.trans hn2, ?_⟩
          · rw [List.append_assoc, exec_append_ok e2]; exact e
          · intro t; rw [hmode]; exact le2 t
          · obtain ⟨hh, h1, h2, _⟩ := bind_gp_self st1 q s false
            exact ⟨hh, h1, h2⟩
          · intro hf
            refine isFix_fix (rep'.slot s trivial) (by rw [hmode]; exact hl2) ?_
            simpa using hf
          · intro p hh hpp hg
            refine hp p hh hpp ?_
            rw [hgp2]
            exact St.invalidate_keep hg (hnh p hh hg)
          · intro t; rw [hmode]; exact hgd2 t

/-! ### refine, sync -/

theorem refineFix_fields (st : St) (s : Slot) : (st.refineFix s).gp = st.gp ∧
    (st.refineFix s).vf = st.vf ∧ (st.refineFix s).n = st.n ∧
    (st.refineFix s).pinned = st.pinned ∧
    ∀ t, (st.refineFix s).mode t = st.mode t ∨
      (t = s ∧ (∃ g, st.mode t = .S g) ∧ (st.refineFix s).mode t = .S .fixnum) := by
  unfold St.refineFix
  split
  · next g hg =>
    refine ⟨rfl, rfl, rfl, rfl, ?_⟩
    intro t
    unfold St.setMode
    by_cases ht : t = s
    · subst ht; right; exact ⟨rfl, ⟨g, hg⟩, by simp⟩
    · left; simp [ht]
  · exact ⟨rfl, rfl, rfl, rfl, fun _ => .inl rfl⟩

theorem refineFix_wf {st : St} (w : WF st) (s : Slot) : WF (st.refineFix s) := by
  obtain ⟨h1, h2, h3, _, h4⟩ := refineFix_fields st s
  refine ⟨?_, ?_, ?_, ?_, ?_⟩
  · intro x t
    have : (st.refineFix s).slots x = st.slots x := by unfold St.slots; rw [h2]
    rw [this, w.vf]
    rcases h4 t with h | ⟨_, ⟨g, hg⟩, h⟩
    · rw [h]
    · rw [h, hg]; simp [Mode.reg]
  · rw [h1]; exact w.inj
  · rw [h1, h3]; exact w.lt
  · rw [h1]
    intro r h hg hd
    obtain ⟨g, hm⟩ := w.dirty r h hg hd
    rcases h4 h.slot with hh | ⟨_, _, hh⟩
    · exact ⟨g, by rw [hh, hm]⟩
    · exact ⟨_, hh⟩
  · rw [h3]
    intro t ht
    have := w.big t ht
    rcases h4 t with h | ⟨_, ⟨g, hg⟩, h⟩
    · rw [h, this]
    · rw [this] at hg; simp at hg

theorem refineFix_rep {P : Prim} {st : St} {m : Mach} {L : Slot → Val} {D : Slot → Prop} {s : Slot}
    (rep : Rep P st m L D) (hs : ∃ i, L s = .fix i) : Rep P (st.refineFix s) m L D := by
  obtain ⟨h1, h2, h3, _, h4⟩ := refineFix_fields st s
  refine ⟨?_, by rw [h1]; exact rep.hold⟩
  intro t ht
  have := rep.slot t ht
  have hn : noDirty (st.refineFix s) t → noDirty st t := by
    intro h r hh hg; exact h r hh (by rw [h1]; exact hg)
  unfold RepSlot at this ⊢
  rcases h4 t with h | ⟨rfl, ⟨g, hg⟩, h⟩
  · rw [h]
    cases hm : st.mode t <;> rw [hm] at this <;> try exact this
    exact ⟨this.1, fun hh => this.2 (hn hh)⟩
  · rw [h]
    rw [hg] at this
    obtain ⟨i, hi⟩ := hs
    exact ⟨by rw [hi]; rfl, fun hh => this.2 (hn hh)⟩

theorem refineFix_live (st : St) (s : Slot) : LiveEq st (st.refineFix s) := by
  intro t
  rcases (refineFix_fields st s).2.2.2.2 t with h | ⟨_, ⟨g, hg⟩, h⟩
  · rw [h]
  · rw [h, hg]; rfl

theorem sync_gp {st : St} {s : Slot} {r : GReg} {h : Holder} (hh : (st.sync s).gp r = some h) :
    ∃ h0, st.gp r = some h0 ∧ h0.slot = h.slot ∧ (h.dirty = true → h0.dirty = true ∧ h0.slot ≠ s) := by
  unfold St.sync at hh
  simp only at hh
  cases hg : st.gp r with
  | none => simp [hg] at hh
  | some h0 =>
    simp only [hg] at hh
    split at hh
    · simp only [Option.some.injEq] at hh
      subst hh
      exact ⟨h0, rfl, rfl, by simp⟩
    · next hn =>
      simp only [Option.some.injEq] at hh
      subst hh
      exact ⟨h0, rfl, rfl, fun hd => ⟨hd, hn⟩⟩

theorem sync_gp' {st : St} {s : Slot} {r : GReg} {h : Holder} (hg : st.gp r = some h) :
    ∃ h', (st.sync s).gp r = some h' ∧ h'.slot = h.slot ∧ (h'.dirty = true ↔ h.dirty = true ∧ h.slot ≠ s) := by
  by_cases he : h.slot = s
  · exact ⟨{ h with dirty := false }, by simp [St.sync, hg, he], rfl, by simp [he]⟩
  · exact ⟨h, by simp [St.sync, hg, he], rfl, by simp [he]⟩

theorem syncRhs_ok {P : Prim} {st : St} {m : Mach} {L : Slot → Val} (k : Kind) (rhs : Slot) (w : WF st)
    (rep : Rep P st m L All) :
    ∃ m', exec P m (st.syncRhs k rhs).2 = .ok m' ∧ WF (st.syncRhs k rhs).1 ∧
      Rep P (st.syncRhs k rhs).1 m' L All ∧ (st.syncRhs k rhs).1.mode = st.mode ∧
      (st.syncRhs k rhs).1.n = st.n ∧
      (∀ r h, st.gp r = some h → ∃ h', (st.syncRhs k rhs).1.gp r = some h' ∧ h'.slot = h.slot) ∧
      (k.clobbers = true → noDirty (st.syncRhs k rhs).1 rhs) := by
  unfold St.syncRhs
  cases hk : k.clobbers with
  | false =>
    simp only [Bool.false_eq_true, if_false]
    exact ⟨m, rfl, w, rep, trivial, trivial, fun r h hg => ⟨h, hg, rfl⟩, by simp⟩
  | true =>
    simp only [if_true]
    cases hd : st.dirtyRegOf rhs with
    | none =>
      exact ⟨m, rfl, w, rep, rfl, rfl, fun r h hg => ⟨h, hg, rfl⟩, fun _ => St.dirtyRegOf_none w hd⟩
    | some q =>
      obtain ⟨_, h0, hg0, hs0, hd0⟩ := St.dirtyRegOf_some hd
      have hv : m.gp q = L rhs := by rw [rep.hold q h0 hg0, hs0]
      refine ⟨{ m with stack := upd m.stack rhs (m.gp q) }, rfl, ?_, ?_, rfl, rfl, ?_, ?_⟩
      · refine ⟨w.vf, ?_, ?_, ?_, w.big⟩
        · intro r r' a b ha hb hab
          obtain ⟨a0, ha0, ha1, _⟩ := sync_gp ha
          obtain ⟨b0, hb0, hb1, _⟩ := sync_gp hb
          exact w.inj r r' a0 b0 ha0 hb0 (by rw [ha1, hb1, hab])
        · intro r a ha
          obtain ⟨a0, ha0, ha1, _⟩ := sync_gp ha
          have := w.lt r a0 ha0
          rw [ha1] at this; exact this
        · intro r a ha hda
          obtain ⟨a0, ha0, ha1, ha2⟩ := sync_gp ha
          obtain ⟨g, hg⟩ := w.dirty r a0 ha0 (ha2 hda).1
          exact ⟨g, by rw [← ha1]; exact hg⟩
      · refine ⟨?_, ?_⟩
        · intro t _
          have := rep.slot t trivial
          unfold RepSlot at this ⊢
          have hm : (st.sync rhs).mode t = st.mode t := rfl
          simp only [hm]
          by_cases ht : t = rhs
          · subst ht
            cases hmm : st.mode t <;> rw [hmm] at this <;> simp only [upd_same] <;> try exact this
            · exact ⟨this.1, fun _ => hv⟩
            · exact ⟨hv, this.2⟩
          · cases hmm : st.mode t <;> rw [hmm] at this <;> simp only [upd_ne _ _ ht] <;> try exact this
            refine ⟨this.1, fun hn => this.2 ?_⟩
            intro r h hg hht
            obtain ⟨h', h1, h2, h3⟩ := sync_gp' (s := rhs) hg
            have hf := hn r h' h1 (by rw [h2, hht])
            by_contra hd'
            have : h'.dirty = true := h3.2 ⟨by simpa using hd', by rw [hht]; exact ht⟩
            rw [hf] at this; simp at this
        · intro r h hg
          obtain ⟨h1, hg1, hs1, _⟩ := sync_gp hg
          rw [← hs1]; exact rep.hold r h1 hg1
      · intro r h hg
        obtain ⟨h', h1, h2, _⟩ := sync_gp' (s := rhs) hg
        exact ⟨h', h1, h2⟩
      · intro _ r h hg hs
        obtain ⟨h1, hg1, hs1, hd1⟩ := sync_gp hg
        by_contra hd'
        have := (hd1 (by simpa using hd')).2
        rw [hs1] at this; exact this hs

end Verif.JitState
