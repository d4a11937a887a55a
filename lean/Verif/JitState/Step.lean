import Verif.JitState.BinFlt

/-! One bytecode instruction: guards, operators, moves, literals, and the clearing
of the slots above the stack pointer. -/

namespace Verif.JitState

/-- Code run before an operator: on success the frame is carried on, on a side exit
every live slot is restored. -/
def PrePost (P : Prim) (st st' : St) (m : Mach) (ins : List Ins) (L : Slot → Val) : Prop :=
  (∃ m', exec P m ins = .ok m' ∧ WF st' ∧ Rep P st' m' L All ∧ LiveEq st st') ∨
  (∃ stk, exec P m ins = .error stk ∧ ∀ t, (st.mode t).live = true → stk t = L t)

theorem PrePost.then {P : Prim} {st st1 st' : St} {m : Mach} {i1 ins : List Ins}
    {L : Slot → Val} {reads : List Slot} {dst : Option Slot} {sp : Slot} {res : Option Val}
    (h1 : PrePost P st st1 m i1 L)
    (h : ∀ m1, WF st1 → Rep P st1 m1 L All → LiveEq st st1 → StepPost P st1 st' m1 ins L reads dst sp res) :
    StepPost P st st' m (i1 ++ ins) L reads dst sp res := by
  rcases h1 with ⟨m1, e1, w1, r1, le⟩ | ⟨stk, e1, hs⟩
  · exact StepPost.prepend le e1 (h m1 w1 r1 le)
  · exact .inr ⟨stk, exec_append_error e1, .inl hs⟩

theorem writeBackSlot_mode {st st' : St} {s t : Slot} {ins : List Ins}
    (h : st.writeBackSlot s = some (st', ins)) :
    st'.mode t = st.mode t ∨ ∃ x, st.mode t = .F x ∧ st'.mode t = .Sf x .float := by
  unfold St.writeBackSlot at h
  have hmi : (st.invalidate s).mode = st.mode := rfl
  simp only [hmi] at h
  cases hm : st.mode s with
  | F x =>
    simp only [hm, Option.some.injEq, Prod.mk.injEq] at h
    obtain ⟨rfl, rfl⟩ := h
    rw [setSf_eq, (relink_fields _ _ _).2.2.2.1, hmi]
    by_cases ht : t = s
    · subst ht
      exact .inr ⟨x, hm, by simp⟩
    · exact .inl (upd_ne _ _ ht)
  | V => simp [hm] at h
  | none => simp [hm] at h
  | _ => simp only [hm, Option.some.injEq, Prod.mk.injEq] at h; obtain ⟨rfl, rfl⟩ := h; exact .inl rfl

theorem gpEnsure_mode {st st' : St} {s t : Slot} {pins : List GReg} {ins : List Ins} {r : GReg} {g : Bool}
    (h : st.gpEnsure s pins = some (st', ins, r, g)) :
    st'.mode t = st.mode t ∨ ∃ x, st.mode t = .F x ∧ st'.mode t = .Sf x .float := by
  unfold St.gpEnsure at h
  cases hr : st.regOf s with
  | some q =>
    simp only [hr, Option.some.injEq, Prod.mk.injEq] at h
    obtain ⟨rfl, _⟩ := h
    exact .inl rfl
  | none =>
    simp only [hr] at h
    cases hc : st.fixLit s with
    | some i =>
      simp only [hc] at h
      cases ha : st.allocReg pins with
      | none => simp [ha] at h
      | some p =>
        obtain ⟨st1, q, sp⟩ := p
        simp only [ha, Option.some.injEq, Prod.mk.injEq] at h
        obtain ⟨rfl, _⟩ := h
        obtain ⟨_, _, rfl, _⟩ := St.allocReg_spec ha
        exact .inl rfl
    | none =>
      simp only [hc] at h
      cases hw : st.writeBackSlot s with
      | none => simp [hw] at h
      | some p =>
        obtain ⟨st2, ins2⟩ := p
        simp only [hw] at h
        have := writeBackSlot_mode (t := t) hw
        cases ha : st2.allocReg pins with
        | none => simp [ha] at h
        | some p =>
          obtain ⟨st1, q, sp⟩ := p
          simp only [ha, Option.some.injEq, Prod.mk.injEq] at h
          obtain ⟨rfl, _⟩ := h
          obtain ⟨_, _, rfl, _⟩ := St.allocReg_spec ha
          exact this

theorem gpEnsure_tyOk {st st' : St} {s t : Slot} {pins : List GReg} {ins : List Ins} {r : GReg} {g : Bool}
    {c : NCls} (h : st.gpEnsure s pins = some (st', ins, r, g)) (hc : TyOk st t c) : TyOk st' t c := by
  unfold TyOk at *
  rcases gpEnsure_mode (t := t) h with e | ⟨x, h1, h2⟩
  · rw [e]; exact hc
  · rw [h1] at hc
    rw [h2]
    rcases hc with hc | ⟨hc, _⟩
    · exact .inl hc
    · exact .inr ⟨hc, rfl⟩

theorem refineFix_tyOk {st : St} {s t : Slot} {c : NCls} (hts : t ≠ s ∨ c = .int) (hc : TyOk st t c) :
    TyOk (st.refineFix s) t c := by
  unfold TyOk at *
  rcases (refineFix_fields st s).2.2.2.2 t with h | ⟨hs, ⟨g, hg⟩, h⟩
  · rw [h]; exact hc
  · rcases hts with hne | rfl
    · exact absurd hs hne
    · rw [h]; exact .inl rfl

/-- the integer guard of the receiver -/
theorem guardRecv_int_ok {P : Prim} {st st' : St} {m : Mach} {L : Slot → Val} {s : Slot} {ins : List Ins}
    (w : WF st) (rep : Rep P st m L All) (hl : (st.mode s).live = true)
    (h : st.guardRecv s .int = some (st', ins)) :
    PrePost P st st' m ins L ∧ (∀ t c, t ≠ s ∨ c = .int → TyOk st t c → TyOk st' t c) := by
  unfold St.guardRecv at h
  simp only at h
  split_ifs at h with hg
  · simp only [Option.some.injEq, Prod.mk.injEq] at h
    obtain ⟨rfl, rfl⟩ := h
    exact ⟨.inl ⟨m, rfl, w, rep, LiveEq.refl _⟩, fun _ _ _ h => h⟩
  · cases he : st.gpEnsure s [] with
    | none => simp [he] at h
    | some p =>
      obtain ⟨st1, i1, r, g⟩ := p
      simp only [he] at h
      obtain ⟨m1, e1, w1, rep1, le1, ⟨hh, hg1, hs1⟩, hf1, _, _, _⟩ := gpEnsure_ok w rep hl he
      cases g with
      | false =>
        simp only [Bool.false_eq_true, if_false, Option.some.injEq, Prod.mk.injEq] at h
        obtain ⟨rfl, rfl⟩ := h
        exact ⟨.inl ⟨m1, e1, w1, rep1, le1⟩, fun t c _ hc => gpEnsure_tyOk he hc⟩
      | true =>
        simp only [if_true, Option.some.injEq, Prod.mk.injEq] at h
        obtain ⟨rfl, rfl⟩ := h
        refine ⟨?_, fun t c hts hc => refineFix_tyOk hts (gpEnsure_tyOk he hc)⟩
        have hv : m1.gp r = L s := by rw [rep1.hold r hh hg1, hs1]
        by_cases hsat : Guarded.sat .fixnum (L s) = true
        · refine .inl ⟨m1, ?_, refineFix_wf w1 s, refineFix_rep rep1 (sat_fixnum hsat),
            le1.trans (refineFix_live _ _)⟩
          rw [exec_append_ok e1]
          simp [exec, exec1, hv, hsat]
        · refine .inr ⟨applyWB st1.wb m1, ?_, ?_⟩
          · rw [exec_append_ok e1]
            simp [exec, exec1, hv, hsat]
          · intro t ht
            refine applyWB_snap w1 (Snap_of_rep rep1 trivial (by rw [le1 t]; exact ht) rfl (.inl rfl) ?_)
            intro _ _ _ _ _; rfl

theorem loadFpr_ty {st st' : St} {s : Slot} {ins : List Ins} {x : FReg}
    (hc : TyOk st s .flt) (h : st.loadFpr s = some (st', ins, x)) : TyOk st' s .flt := by
  unfold St.loadFpr at h
  cases hm : st.mode s with
  | Sf y g =>
    simp only [hm, Option.some.injEq, Prod.mk.injEq] at h
    obtain ⟨rfl, _⟩ := h; exact hc
  | F y =>
    simp only [hm, Option.some.injEq, Prod.mk.injEq] at h
    obtain ⟨rfl, _⟩ := h; exact hc
  | S g =>
    simp only [hm, Option.some.injEq, Prod.mk.injEq] at h
    obtain ⟨rfl, _⟩ := h
    unfold TyOk
    rw [setSf_eq, (relink_fields _ _ _).2.2.2.1]
    left; simp [Mode.guarded, SfG.toG, NCls.g]
  | C v =>
    simp only [hm] at h
    unfold TyOk at hc
    rw [hm] at hc
    unfold St.loadC at h
    cases v with
    | flo f =>
      simp only [Option.some.injEq, Prod.mk.injEq] at h
      obtain ⟨rfl, _⟩ := h
      unfold TyOk
      rw [setF_eq, (relink_fields _ _ _).2.2.2.1]
      left; simp [Mode.guarded, NCls.g]
    | fix i => simp [Mode.guarded, Guarded.ofVal, NCls.g] at hc
    | obj a b => simp at h
  | V => simp [hm] at h
  | maybeNone => simp [hm] at h
  | none => simp [hm] at h

theorem guardRecv_flt_ok {P : Prim} {st st' : St} {m : Mach} {L : Slot → Val} {s : Slot} {ins : List Ins}
    (w : WF st) (rep : Rep P st m L All) (hc : TyOk st s .flt)
    (h : st.guardRecv s .flt = some (st', ins)) :
    PrePost P st st' m ins L ∧ (∀ t c, t ≠ s ∨ c = .flt → TyOk st t c → TyOk st' t c) := by
  unfold St.guardRecv at h
  simp only at h
  split_ifs at h with hg
  · simp only [Option.some.injEq, Prod.mk.injEq] at h
    obtain ⟨rfl, rfl⟩ := h
    exact ⟨.inl ⟨m, rfl, w, rep, LiveEq.refl _⟩, fun _ _ _ h => h⟩
  · simp only [Option.map_eq_some_iff, Prod.mk.injEq] at h
    obtain ⟨⟨st1, i1, x⟩, hf, rfl, rfl⟩ := h
    obtain ⟨hp, hs⟩ := loadFpr_ok w rep hc hf
    refine ⟨?_, ?_⟩
    · rcases hp with ⟨m', e, w', r', _⟩ | hp
      · refine .inl ⟨m', e, w', r', ?_⟩
        intro t
        by_cases ht : t = s
        · subst ht; exact hs.live
        · exact (hs.others t ht).live
      · exact .inr hp
    · intro t c hts htc
      by_cases ht : t = s
      · subst ht
        rcases hts with h | rfl
        · exact absurd rfl h
        · exact loadFpr_ty hc hf
      · exact (hs.others t ht).tyOk htc

theorem opClass_live {st : St} {s : Slot} {ic c : NCls} (h : st.opClass s ic = some c) :
    (st.mode s).live = true := by
  unfold St.opClass at h
  cases hm : st.mode s <;> simp [hm, Mode.guarded, Mode.live] at h ⊢

theorem opClass_ty {st : St} {s : Slot} {ic c : NCls} (h : st.opClass s ic = some c)
    (hb : (st.mode s).isBoth = false) : TyOk st s c := by
  unfold St.opClass at h
  unfold TyOk
  cases hg : (st.mode s).guarded with
  | none => simp [hg] at h
  | some g =>
    rw [hg] at h
    cases g with
    | value => exact .inr ⟨rfl, hb⟩
    | fixnum => simp only [Option.some.injEq] at h; subst h; exact .inl rfl
    | float => simp only [Option.some.injEq] at h; subst h; exact .inl rfl
    | cls c => simp at h

/-! ### Integer operators -/

theorem foldInt_ok {P : Prim} (ok : P.Ok) {k : Kind} {a b v : Int} (ha : inFix a = true) (hb : inFix b = true)
    (h : foldInt P k a b = some v) : P.arith k (.fix a) (.fix b) = some (.fix v) := by
  unfold foldInt at h
  cases k with
  | add => simp only at h; split_ifs at h with hi; obtain rfl := Option.some.inj h; exact (ok.add a b).2 hi
  | sub => simp only at h; split_ifs at h with hi; obtain rfl := Option.some.inj h; exact (ok.sub a b).2 hi
  | mul => simp only at h; split_ifs at h with hi; obtain rfl := Option.some.inj h; exact (ok.mul a b).2 hi
  | div =>
    simp only at h; split_ifs at h with h0 hi; obtain rfl := Option.some.inj h; exact ok.div a b h0 hi
  | band =>
    simp only at h; split_ifs at h with hi; obtain rfl := Option.some.inj h; exact (ok.bit _ a b rfl ha hb).2
  | bor =>
    simp only at h; split_ifs at h with hi; obtain rfl := Option.some.inj h; exact (ok.bit _ a b rfl ha hb).2
  | bxor =>
    simp only at h; split_ifs at h with hi; obtain rfl := Option.some.inj h; exact (ok.bit _ a b rfl ha hb).2

theorem immForm_some {st : St} {k : Kind} {lhs rhs v : Slot} {c : Int}
    (h : st.immForm k lhs rhs = some (v, c)) :
    (k = .add ∧ ((v = lhs ∧ st.mode rhs = .C (.fix c)) ∨ (v = rhs ∧ st.mode lhs = .C (.fix c)))) ∨
      (k = .sub ∧ v = lhs ∧ st.mode rhs = .C (.fix c)) := by
  unfold St.immForm at h
  have fin : ∀ (o : Option (Slot × Int)), (match o with
      | some (v, c) => if -(2 ^ 31) ≤ 2 * c ∧ 2 * c < 2 ^ 31 then some (v, c) else none
      | none => none) = some (v, c) → o = some (v, c) := by
    intro o ho
    cases o with
    | none => simp at ho
    | some p =>
      obtain ⟨v', c'⟩ := p
      simp only at ho
      split_ifs at ho
      exact ho
  cases k with
  | add =>
    have h1 := fin _ h
    simp only at h1
    cases hr : st.fixLit rhs with
    | some c' =>
      simp only [hr, Option.some.injEq, Prod.mk.injEq] at h1
      obtain ⟨rfl, rfl⟩ := h1
      exact .inl ⟨rfl, .inl ⟨rfl, fixLit_some hr⟩⟩
    | none =>
      simp only [hr, Option.map_eq_some_iff, Prod.mk.injEq] at h1
      obtain ⟨c', hl, rfl, rfl⟩ := h1
      exact .inl ⟨rfl, .inr ⟨rfl, fixLit_some hl⟩⟩
  | sub =>
    have h1 := fin _ h
    simp only [Option.map_eq_some_iff, Prod.mk.injEq] at h1
    obtain ⟨c', hl, rfl, rfl⟩ := h1
    exact .inr ⟨rfl, rfl, fixLit_some hl⟩
  | mul | div | band | bor | bxor => simp at h

theorem dropDst_rep {P : Prim} {st : St} {m : Mach} {L : Slot → Val} (dst : Option Slot) (sp : Slot)
    (rep : Rep P st m L All) (w : WF st) :
    WF (st.dropDst dst) ∧ Rep P (st.dropDst dst) m L (Keep sp dst) := by
  cases dst with
  | none => exact ⟨w, rep_weaken rep (fun _ _ => trivial)⟩
  | some d =>
    refine ⟨(GpLe.invalidate st d).wf w, (GpLe.invalidate st d).rep rep rfl (fun _ _ _ => rfl)
      (fun _ _ => trivial) ?_⟩
    intro s hs
    exact .inr ⟨rfl, fun hn => noDirty_invalidate (fun h => hs.2 (by rw [h])) hn⟩

theorem binInt_ok {P : Prim} (ok : P.Ok) {st st' : St} {m : Mach} {L : Slot → Val} {k : Kind}
    {dst : Option Slot} {lhs rhs sp : Slot} {ins : List Ins} (w : WF st)
    (rep : Rep P st m L All) (hl : (st.mode lhs).live = true) (hr : (st.mode rhs).live = true)
    (hrange : Ranged L)
    (hdiv : k = .div → ¬ (L lhs = .fix (-(2 ^ 62)) ∧ L rhs = .fix (-1)))
    (hsafe : ∀ i ∈ ins, i.spoils dst sp = false)
    (h : st.binInt P k dst lhs rhs sp = some (st', ins)) :
    StepPost P st st' m ins L [lhs, rhs] dst sp (P.arith k (L lhs) (L rhs)) := by
  unfold St.binInt at h
  cases hf : st.foldLits P k lhs rhs with
  | some v =>
    rw [hf] at h
    simp only [Option.map_eq_some_iff, Prod.mk.injEq] at h
    obtain ⟨stf, hd, rfl, rfl⟩ := h
    unfold St.foldLits at hf
    cases ha : st.fixLit lhs with
    | none => simp [ha] at hf
    | some a =>
      cases hb : st.fixLit rhs with
      | none => simp [ha, hb] at hf
      | some b =>
        simp only [ha, hb] at hf
        have hLa := rep_C rep trivial (fixLit_some ha)
        have hLb := rep_C rep trivial (fixLit_some hb)
        have hres := foldInt_ok ok (hrange lhs a hLa) (hrange rhs b hLb) hf
        obtain ⟨w1, rep1⟩ := dropDst_rep dst sp rep w
        obtain ⟨w2, rep2⟩ := defCOpt_ok (D := fun s => s < sp) w1 rep1 hd
        exact .inl ⟨m, _, rfl, by rw [hLa, hLb, hres], w2, rep2⟩
  | none =>
    rw [hf] at h
    simp only at h
    unfold St.binGp at h
    cases hi : st.immForm k lhs rhs with
    | some p =>
      obtain ⟨v, c⟩ := p
      simp only [hi] at h
      have hop := immForm_some hi
      refine binImm_ok ok w rep ?_ hop hsafe h
      rcases hop with ⟨_, ⟨rfl, _⟩ | ⟨rfl, _⟩⟩ | ⟨_, rfl, _⟩
      · exact hl
      · exact hr
      · exact hl
    | none =>
      simp only [hi] at h
      exact binReg_ok ok w rep hl hr hrange hdiv hsafe h

/-! ### Moves -/

theorem flush_exec {P : Prim} {st : St} {m : Mach} {L : Slot → Val} (rep : Rep P st m L All) :
    ∀ (l : List GReg) (m0 : Mach), m0.gp = m.gp →
      ∃ m', exec P m0 (l.filterMap fun r =>
        match st.gp r with
        | some h => if h.dirty then some (Ins.r2s r h.slot) else none
        | none => none) = .ok m' ∧ m'.gp = m.gp ∧ m'.fpr = m0.fpr ∧
        (∀ s, m'.stack s = m0.stack s ∨ m'.stack s = L s) ∧
        (∀ r h, r ∈ l → st.gp r = some h → h.dirty = true → m'.stack h.slot = L h.slot) := by
  intro l
  induction l with
  | nil => intro m0 h0; exact ⟨m0, rfl, h0, rfl, fun _ => .inl rfl, by simp⟩
  | cons r l ih =>
    intro m0 h0
    cases hg : st.gp r with
    | none =>
      obtain ⟨m', e, h1, h2, h3, h4⟩ := ih m0 h0
      refine ⟨m', by simpa [List.filterMap_cons, hg] using e, h1, h2, h3, ?_⟩
      intro q h hq hgq hd
      rcases List.mem_cons.1 hq with rfl | hq
      · rw [hg] at hgq; simp at hgq
      · exact h4 q h hq hgq hd
    | some hh =>
      cases hd0 : hh.dirty with
      | false =>
        obtain ⟨m', e, h1, h2, h3, h4⟩ := ih m0 h0
        refine ⟨m', by simpa [List.filterMap_cons, hg, hd0] using e, h1, h2, h3, ?_⟩
        intro q h hq hgq hd
        rcases List.mem_cons.1 hq with rfl | hq
        · rw [hg] at hgq; simp only [Option.some.injEq] at hgq; subst hgq; rw [hd0] at hd; simp at hd
        · exact h4 q h hq hgq hd
      | true =>
        obtain ⟨m', e, h1, h2, h3, h4⟩ := ih { m0 with stack := upd m0.stack hh.slot (m0.gp r) } h0
        have hv : m0.gp r = L hh.slot := by rw [h0]; exact rep.hold r hh hg
        refine ⟨m', ?_, h1, h2, ?_, ?_⟩
        · simp only [List.filterMap_cons, hg, hd0, if_true]
          simp only [exec, exec1]
          exact e
        · intro s
          rcases h3 s with h | h
          · by_cases hs : s = hh.slot
            · subst hs; right; rw [h]; simp [hv]
            · left; rw [h]; simp only; rw [upd_ne _ _ hs]
          · exact .inr h
        · intro q h hq hgq hd
          rcases List.mem_cons.1 hq with rfl | hq
          · rw [hg] at hgq; simp only [Option.some.injEq] at hgq; subst hgq
            rcases h3 hh.slot with h | h
            · rw [h]; simp [hv]
            · exact h
          · exact h4 q h hq hgq hd

theorem flush_ok {P : Prim} {st : St} {m : Mach} {L : Slot → Val} (w : WF st) (rep : Rep P st m L All) :
    ∃ m', exec P m st.flushGp.2 = .ok m' ∧ WF st.flushGp.1 ∧ Rep P st.flushGp.1 m' L All := by
  obtain ⟨m', e, h1, h2, h3, h4⟩ := flush_exec rep (List.range nGp) m rfl
  have hle : GpLe st st.flushGp.1 := ⟨rfl, rfl, rfl, rfl, by intro r h hh; simp [St.flushGp] at hh⟩
  refine ⟨m', e, hle.wf w, hle.rep rep h2 (fun r _ hh => by simp [St.flushGp] at hh) (fun _ h => h) ?_⟩
  intro s _
  rcases h3 s with h | h
  · by_cases hn : noDirty st s
    · exact .inr ⟨h, fun _ => hn⟩
    · left
      unfold noDirty at hn
      simp only [not_forall] at hn
      obtain ⟨r, hh, hg, hs, hd⟩ := hn
      rw [← hs]
      exact h4 r hh (by simpa using (w.lt r hh hg).1) hg (by simpa using hd)
  · exact .inl h

/-- The move, once no GP register holds anything. -/
theorem copySlot_ok {P : Prim} {st st' : St} {m : Mach} {L : Slot → Val} {src dst : Slot} {ins : List Ins}
    (w : WF st) (rep : Rep P st m L All) (hgp : ∀ r, st.gp r = none)
    (h : st.copySlot src dst = some (st', ins)) :
    ∃ m', exec P m ins = .ok m' ∧ WF st' ∧ Rep P st' m' (upd L dst (L src)) All := by
  have hreg : st.regOf src = none := by
    unfold St.regOf
    simp [hgp]
  have hnd : ∀ s, noDirty st s := fun s r hh hg => by rw [hgp] at hg; simp at hg
  have hs := rep.slot src trivial
  unfold RepSlot at hs
  unfold St.copySlot at h
  by_cases hsd : src = dst
  · rw [if_pos hsd] at h
    simp only [Option.some.injEq, Prod.mk.injEq] at h
    obtain ⟨rfl, rfl⟩ := h
    refine ⟨m, rfl, w, ?_⟩
    have : upd L dst (L src) = L := by
      funext t; unfold upd; split
      · next h => rw [h, hsd]
      · rfl
    rw [this]; exact rep
  · rw [if_neg hsd] at h
    -- a machine that only changed the destination's home
    have base : ∀ m' : Mach, m'.fpr = m.fpr → (∀ t, t ≠ dst → m'.stack t = m.stack t) → ∀ M,
        RepM P m' (m'.stack dst) (L src) M → Rep P (st.relink dst M) m' (upd L dst (L src)) All := by
      intro m' hf hst M hM
      have r1 : Rep P st m' L (fun t => t ≠ dst) := by
        refine (GpLe.refl st).rep rep hf (fun r hh hg => by rw [hgp] at hg; simp at hg)
          (fun _ _ => trivial) ?_
        intro t ht
        exact .inr ⟨hst t ht, id⟩
      refine relink_rep r1 (fun t ht => upd_ne _ _ ht) (fun t ht _ => ht) ?_
      intro _
      simpa using hM
    have base2 : ∀ m' : Mach, m'.fpr = m.fpr → (∀ t, t ≠ dst → m'.stack t = m.stack t) → ∀ M,
        RepM P m' (m'.stack dst) (L src) M →
        Rep P ((st.relink dst .V).relink dst M) m' (upd L dst (L src)) All := by
      intro m' hf hst M hM
      have r1 := base m' hf hst .V trivial
      refine relink_rep r1 (fun t ht => rfl) (fun t ht _ => trivial) ?_
      intro _
      simpa using hM
    cases hm : st.mode src with
    | F x =>
      rw [hm] at hs
      simp only [hm, Option.map_eq_some_iff, Prod.mk.injEq] at h
      obtain ⟨st1, hd, rfl, rfl⟩ := h
      obtain ⟨_, hn, rfl⟩ := discard_some hd
      rw [clear_eq, setF_eq]
      refine ⟨m, rfl, ?_, base2 m rfl (fun _ _ => rfl) _ hs⟩
      refine relink_wf (relink_wf w (.inr rfl) (by simp [Mode.reg])) (.inl (by rw [(relink_fields _ _ _).1]; exact hn)) ?_
      intro y hy
      simp only [Mode.reg, Option.some.injEq] at hy
      subst hy
      rw [(relink_fields _ _ _).2.2.2.2]
      exact reg_lt w (s := src) (by rw [hm]; rfl)
    | Sf x g =>
      rw [hm] at hs
      simp only [hm, Option.map_eq_some_iff, Prod.mk.injEq] at h
      obtain ⟨st1, hd, rfl, rfl⟩ := h
      obtain ⟨_, hn, rfl⟩ := discard_some hd
      rw [clear_eq, setSf_eq]
      refine ⟨{ m with gp := upd m.gp scratch (m.stack src), stack := upd m.stack dst (m.stack src) }, ?_, ?_,
        base2 { m with gp := upd m.gp scratch (m.stack src), stack := upd m.stack dst (m.stack src) } rfl
          (fun t ht => upd_ne _ _ ht) _ ?_⟩
      · simp [exec, exec1]
      · refine relink_wf (relink_wf w (.inr rfl) (by simp [Mode.reg])) (.inl (by rw [(relink_fields _ _ _).1]; exact hn)) ?_
        intro y hy
        simp only [Mode.reg, Option.some.injEq] at hy
        subst hy
        rw [(relink_fields _ _ _).2.2.2.2]
        exact reg_lt w (s := src) (by rw [hm]; rfl)
      · simp only [RepM, upd_same]; exact hs
    | S g =>
      rw [hm] at hs
      simp only [hm, hreg, Option.map_eq_some_iff, Prod.mk.injEq] at h
      obtain ⟨st1, hd, rfl, rfl⟩ := h
      obtain ⟨_, hn, rfl⟩ := defS_some hd
      refine ⟨{ m with gp := upd m.gp scratch (m.stack src), stack := upd m.stack dst (m.stack src) }, ?_,
        relink_wf w (.inl hn) (by simp [Mode.reg]), 
        base { m with gp := upd m.gp scratch (m.stack src), stack := upd m.stack dst (m.stack src) } rfl
          (fun t ht => upd_ne _ _ ht) _ ?_⟩
      · simp [exec, exec1]
      · simp only [RepM, upd_same]; exact ⟨hs.1, hs.2 (hnd src)⟩
    | C v =>
      rw [hm] at hs
      simp only [hm, Option.map_eq_some_iff, Prod.mk.injEq] at h
      obtain ⟨st1, hd, rfl, rfl⟩ := h
      obtain ⟨_, hn, rfl⟩ := defC_some hd
      exact ⟨m, rfl, relink_wf w (.inl hn) (by simp [Mode.reg]), base m rfl (fun _ _ => rfl) _ hs⟩
    | V => simp [hm] at h
    | maybeNone => simp [hm] at h
    | none => simp [hm] at h

/-! ### One instruction -/

/-- the slot an instruction writes -/
def Op.dst : Op → Option Slot
  | .lit d _ _ => some d
  | .mov d _ _ => some d
  | .bin _ d _ _ _ _ _ => d

/-- the slots an instruction reads -/
def Op.reads : Op → List Slot
  | .lit _ _ _ => []
  | .mov _ s _ => [s]
  | .bin _ _ l r _ _ _ => [l, r]

/-- the value an instruction produces, if it does not raise -/
def Op.result (P : Prim) (L : Slot → Val) : Op → Option Val
  | .lit _ v _ => some v
  | .mov _ s _ => some (L s)
  | .bin k _ l r _ _ _ => P.arith k (L l) (L r)

theorem interp1_eq (P : Prim) (L : Slot → Val) (op : Op) :
    interp1 P L op = (op.result P L).map (setD L op.dst) := by
  cases op with
  | lit d v sp => rfl
  | mov d s sp => rfl
  | bin k dst l r icL icR sp =>
    simp only [interp1, Op.result, Op.dst]
    cases P.arith k (L l) (L r) with
    | none => rfl
    | some v => cases dst <;> rfl

/-- The static hazards of the code emitted for one instruction, given the state
before and after: an overflow exit that stores a spoilt register, an in-place float
operation on a register other slots share, a float operator on a slot known only to
hold an Integer or a Float. The last two clauses are about the bytecode: an operator
with one operand twice has one class in its inline cache, and no register is moved
to itself. -/
def Op.safe (st st' : St) (ins : List Ins) : Op → Bool
  | .bin k dst l r icL icR sp =>
    ins.all (fun i => !i.spoils dst sp) &&
    ins.all (fun i => match i with
      | .fbin _ d _ _ => (List.range sp).all fun t => !decide ((st'.mode t).reg = some d) || decide (some t = dst)
      | _ => true) &&
    ((decide (st.opClass l icL = some .int) && decide (st.opClass r icR = some .int)) ||
      (!(st.mode l).isBoth && !(st.mode r).isBoth)) &&
    (!decide (l = r) || decide (icL = icR))
  | .mov d s _ => decide (d ≠ s)
  | _ => true

/-- No `-2^62 / -1`. -/
def Op.noMinDiv (L : Slot → Val) : Op → Prop
  | .bin k _ l r _ _ _ => k = .div → ¬ (L l = .fix (-(2 ^ 62)) ∧ L r = .fix (-1))
  | _ => True

theorem compile1_ok {P : Prim} (ok : P.Ok) {st st' : St} {m : Mach} {L : Slot → Val} {op : Op}
    {ins : List Ins} (w : WF st) (rep : Rep P st m L All) (hrange : Ranged L) (hdiv : op.noMinDiv L)
    (hsafe : op.safe st st' ins = true) (h : st.compile1 P op = some (st', ins)) :
    StepPost P st st' m ins L op.reads op.dst op.sp (op.result P L) := by
  cases op with
  | lit d v sp =>
    have h' : (st.defC d v).map (fun st => (st, ([] : List Ins))) = some (st', ins) := by
      cases v with
      | obj a b => simp [St.compile1] at h
      | _ => exact h
    simp only [Option.map_eq_some_iff, Prod.mk.injEq] at h'
    obtain ⟨st1, hd, rfl, rfl⟩ := h'
    obtain ⟨_, hn, rfl⟩ := defC_some hd
    refine .inl ⟨m, v, rfl, rfl, relink_wf w (.inl hn) (by simp [Mode.reg]), ?_⟩
    refine relink_rep rep (fun s hs => upd_ne _ _ hs) (fun _ _ _ => trivial) ?_
    intro _
    simp [RepM, setD, Op.dst]
  | mov d s sp =>
    unfold St.compile1 at h
    simp only [Option.map_eq_some_iff, Prod.mk.injEq] at h
    obtain ⟨⟨st1, i2⟩, hc, rfl, rfl⟩ := h
    obtain ⟨m1, e1, w1, rep1⟩ := flush_ok w rep
    obtain ⟨m2, e2, w2, rep2⟩ := copySlot_ok w1 rep1 (fun _ => rfl) hc
    exact .inl ⟨m2, L s, by rw [exec_append_ok e1]; exact e2, rfl, w2, rep_weaken rep2 (fun _ _ => trivial)⟩
  | bin k dst l r icL icR sp =>
    simp only [Op.safe, Bool.and_eq_true, List.all_eq_true, Bool.not_eq_true', Bool.or_eq_true,
      decide_eq_true_eq, decide_eq_false_iff_not] at hsafe
    obtain ⟨⟨⟨hs1, hs2⟩, hs3⟩, hs4⟩ := hsafe
    have hs2' : ∀ k d a b, Ins.fbin k d a b ∈ ins → ∀ t, t < sp → (st'.mode t).reg = some d → some t = dst := by
      intro k d a b hi t ht hr
      have := hs2 _ hi
      simp only [List.all_eq_true, List.mem_range, Bool.or_eq_true, Bool.not_eq_true', decide_eq_true_eq,
        decide_eq_false_iff_not] at this
      rcases this t ht with h | h
      · exact absurd hr h
      · exact h
    have hdiv' : k = .div → ¬ (L l = .fix (-(2 ^ 62)) ∧ L r = .fix (-1)) := hdiv
    unfold St.compile1 at h
    simp only at h
    cases hcl : st.opClass l icL with
    | none => simp [hcl] at h
    | some lc =>
      cases hcr : st.opClass r icR with
      | none => cases lc <;> simp [hcl, hcr] at h
      | some rc =>
        by_cases hint : lc = .int ∧ rc = .int
        · obtain ⟨rfl, rfl⟩ := hint
          simp only [hcl, hcr] at h
          cases hg : st.guardRecv l .int with
          | none => simp [hg] at h
          | some p =>
            obtain ⟨st1, i1⟩ := p
            simp only [hg, Option.map_eq_some_iff, Prod.mk.injEq] at h
            obtain ⟨⟨st2, i2⟩, hb, rfl, rfl⟩ := h
            obtain ⟨hp, _⟩ := guardRecv_int_ok w rep (opClass_live hcl) hg
            refine hp.then ?_
            intro m1 w1 rep1 le1
            exact binInt_ok ok w1 rep1 (by rw [le1]; exact opClass_live hcl) (by rw [le1]; exact opClass_live hcr)
              hrange hdiv' (fun i hi => hs1 i (List.mem_append_right _ hi)) hb
        · have hs3' : (st.mode l).isBoth = false ∧ (st.mode r).isBoth = false := by
            rcases hs3 with ⟨h1, h2⟩ | h3
            · rw [hcl] at h1; rw [hcr] at h2
              exact absurd ⟨Option.some.inj h1, Option.some.inj h2⟩ hint
            · exact h3
          have h' : (if k.isArith then
              match st.guardRecv l lc with
              | none => none
              | some (st, i1) => (st.binFlt P k dst l r lc rc).map fun q => (q.1, i1 ++ q.2)
              else none) = some (st', ins) := by
            rw [hcl, hcr] at h
            cases lc <;> cases rc
            · exact absurd ⟨rfl, rfl⟩ hint
            · exact h
            · exact h
            · exact h
          split_ifs at h' with hk
          have tl := opClass_ty hcl hs3'.1
          have tr := opClass_ty hcr hs3'.2
          have hcc : l = r → lc = rc := by
            rintro rfl
            rcases hs4 with h | rfl
            · exact absurd rfl h
            · rw [hcl] at hcr; exact Option.some.inj hcr
          cases hg : st.guardRecv l lc with
          | none => simp [hg] at h'
          | some p =>
            obtain ⟨st1, i1⟩ := p
            simp only [hg, Option.map_eq_some_iff, Prod.mk.injEq] at h'
            obtain ⟨⟨st2, i2⟩, hb, rfl, rfl⟩ := h'
            have hpt : PrePost P st st1 m i1 L ∧ (∀ t c, t ≠ l ∨ c = lc → TyOk st t c → TyOk st1 t c) := by
              cases lc with
              | int => exact guardRecv_int_ok w rep (opClass_live hcl) hg
              | flt => exact guardRecv_flt_ok w rep tl hg
            refine hpt.1.then ?_
            intro m1 w1 rep1 le1
            refine binFlt_ok ok w1 rep1 hk hint (hpt.2 l lc (.inr rfl) tl) ?_ hcc ?_ hb
            · by_cases hlr : l = r
              · exact .inr hlr
              · exact .inl (hpt.2 r rc (.inl fun h => hlr h.symm) tr)
            · intro k d a b hi
              exact hs2' k d a b (List.mem_append_right _ hi)

/-! ### Clearing above the stack pointer -/

theorem clearFrom_ok {P : Prim} {m : Mach} {L : Slot → Val} : ∀ (k s : Nat) (st : St) (D : Nat → Prop),
    WF st → Rep P st m L D →
    WF (st.clearFrom k s) ∧ Rep P (st.clearFrom k s) m L (fun t : Nat => D t ∨ (s ≤ t ∧ t < s + k)) ∧
    (st.clearFrom k s).n = st.n ∧
    (∀ t : Nat, (st.clearFrom k s).mode t = if s ≤ t ∧ t < s + k then .V else st.mode t) := by
  intro k
  induction k with
  | zero =>
    intro s st D w rep
    refine ⟨w, rep_weaken rep ?_, rfl, ?_⟩
    · rintro t (h | h)
      · exact h
      · omega
    · intro t
      rw [if_neg (by omega)]; rfl
  | succ k ih =>
    intro s st D w rep
    have e : st.clearFrom (k + 1) s = (st.relink s .V).clearFrom k (s + 1) := by
      unfold St.clearFrom; rw [clear_eq]; cases k <;> rfl
    have w1 : WF (st.relink s .V) := relink_wf w (.inr rfl) (by simp [Mode.reg])
    have rep1 : Rep P (st.relink s .V) m L (fun t : Nat => D t ∨ t = s) :=
      relink_rep rep (fun _ _ => rfl) (fun t ht h => h.resolve_right ht) (fun _ => trivial)
    obtain ⟨h1, h2, h3, h4⟩ := ih (s + 1) _ _ w1 rep1
    rw [e]
    refine ⟨h1, rep_weaken h2 ?_, by rw [h3, (relink_fields _ _ _).1], ?_⟩
    · rintro (t : Nat) (h | h)
      · exact .inl (.inl h)
      · by_cases ht : t = s
        · exact .inl (.inr ht)
        · right; omega
    · intro t
      rw [h4, (relink_fields _ _ _).2.2.2.1]
      by_cases ht : t = s
      · subst ht
        rw [if_neg (by omega), if_pos (by omega)]; simp
      · rw [upd_ne _ _ ht]
        by_cases hh : s + 1 ≤ t ∧ t < s + 1 + k
        · rw [if_pos hh, if_pos (by omega)]
        · rw [if_neg hh, if_neg (by omega)]

theorem clearAbove_ok {P : Prim} {m : Mach} {L : Slot → Val} {st : St} {sp : Nat} (w : WF st)
    (rep : Rep P st m L (fun s : Nat => s < sp)) :
    WF (st.clearAbove sp) ∧ Rep P (st.clearAbove sp) m L All := by
  obtain ⟨h1, h2, h3, h4⟩ := clearFrom_ok (st.n - sp) sp st _ w rep
  refine ⟨h1, ⟨?_, h2.hold⟩⟩
  intro (t : Nat) _
  by_cases ht : t < sp ∨ (sp ≤ t ∧ t < sp + (st.n - sp))
  · exact h2.slot t ht
  · have : (st.clearAbove sp).mode t = .V := by
      apply h1.big
      show (St.clearFrom _ _ _).n ≤ t
      rw [h3]; omega
    unfold RepSlot
    rw [this]; trivial

theorem clearFrom_mode : ∀ (k s : Nat) (st : St) (t : Nat),
    (st.clearFrom k s).mode t = if s ≤ t ∧ t < s + k then .V else st.mode t := by
  intro k
  induction k with
  | zero => intro s st t; rw [if_neg (by omega)]; rfl
  | succ k ih =>
    intro s st t
    have e : st.clearFrom (k + 1) s = (st.relink s .V).clearFrom k (s + 1) := by
      unfold St.clearFrom; rw [clear_eq]; cases k <;> rfl
    rw [e, ih, (relink_fields _ _ _).2.2.2.1]
    by_cases ht : t = s
    · subst ht
      rw [if_neg (by omega), if_pos (by omega)]; simp
    · rw [upd_ne _ _ ht]
      by_cases hh : s + 1 ≤ t ∧ t < s + 1 + k
      · rw [if_pos hh, if_pos (by omega)]
      · rw [if_neg hh, if_neg (by omega)]

end Verif.JitState
