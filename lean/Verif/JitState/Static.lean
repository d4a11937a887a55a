import Verif.JitState.Live

/-! The compiler's state stays well-formed, whatever the machine does. -/

namespace Verif.JitState

theorem wf_lt {st : St} (w : WF st) {s : Slot} (h : st.mode s ≠ .V) : s < st.n := by
  by_contra hs
  exact h (w.big s (Nat.le_of_not_lt hs))

theorem pin_wf {st : St} (w : WF st) (x : FReg) : WF (st.pin x) := by
  obtain ⟨p, h, _⟩ := pin_eq st x
  rw [h]; exact wf_pin.2 w

theorem unpin_wf {st : St} (w : WF st) (x : FReg) : WF (st.unpin x) := wf_pin.2 w

theorem pin_len (st : St) (x : FReg) : (st.pin x).vf = st.vf := by
  obtain ⟨p, h, _⟩ := pin_eq st x
  rw [h]

theorem alloc_relink_wf {st : St} (w : WF st) {s : Slot} {M : Mode} (hs : s < st.n)
    (hM : M.reg = some st.alloc.2) : WF (st.alloc.1.relink s M) := by
  obtain ⟨w', sp⟩ := alloc_spec w
  exact relink_wf w' (.inl (by rw [sp.n]; exact hs)) (fun y hy => by rw [hM] at hy; cases hy; exact sp.lt)

theorem loadC_wf {st st' : St} {s : Slot} {v : Val} {ins : List Ins} {x : FReg} (w : WF st) (hs : s < st.n)
    (h : st.loadC s v = some (st', ins, x)) : WF st' ∧ x < st'.vf.length := by
  unfold St.loadC at h
  have lt := (alloc_spec w).2.lt
  cases v with
  | flo f =>
    simp only [Option.some.injEq, Prod.mk.injEq] at h
    obtain ⟨rfl, _, rfl⟩ := h
    rw [setF_eq]
    exact ⟨alloc_relink_wf w hs rfl, by rw [(relink_fields _ _ _).2.2.2.2]; exact lt⟩
  | fix i =>
    simp only [Option.some.injEq, Prod.mk.injEq] at h
    obtain ⟨rfl, _, rfl⟩ := h
    rw [setSf_eq]
    exact ⟨alloc_relink_wf w hs rfl, by rw [(relink_fields _ _ _).2.2.2.2]; exact lt⟩
  | obj a b => simp at h

theorem loadFpr_wf {st st' : St} {s : Slot} {ins : List Ins} {x : FReg} (w : WF st)
    (h : st.loadFpr s = some (st', ins, x)) : WF st' ∧ x < st'.vf.length := by
  unfold St.loadFpr at h
  have lt := (alloc_spec w).2.lt
  cases hm : st.mode s with
  | Sf y g =>
    simp only [hm, Option.some.injEq, Prod.mk.injEq] at h
    obtain ⟨rfl, _, rfl⟩ := h
    exact ⟨w, reg_lt w (s := s) (by rw [hm]; rfl)⟩
  | F y =>
    simp only [hm, Option.some.injEq, Prod.mk.injEq] at h
    obtain ⟨rfl, _, rfl⟩ := h
    exact ⟨w, reg_lt w (s := s) (by rw [hm]; rfl)⟩
  | S g =>
    simp only [hm, Option.some.injEq, Prod.mk.injEq] at h
    obtain ⟨rfl, _, rfl⟩ := h
    rw [setSf_eq]
    exact ⟨alloc_relink_wf w (wf_lt w (by rw [hm]; simp)) rfl, by rw [(relink_fields _ _ _).2.2.2.2]; exact lt⟩
  | C v => simp only [hm] at h; exact loadC_wf w (wf_lt w (by rw [hm]; simp)) h
  | V => simp [hm] at h
  | maybeNone => simp [hm] at h
  | none => simp [hm] at h

theorem loadFprFix_wf {st st' : St} {s : Slot} {ins : List Ins} {x : FReg} (w : WF st)
    (h : st.loadFprFix s = some (st', ins, x)) : WF st' ∧ x < st'.vf.length := by
  unfold St.loadFprFix at h
  cases hm : st.mode s with
  | Sf y g =>
    simp only [hm, Option.some.injEq, Prod.mk.injEq] at h
    obtain ⟨rfl, _, rfl⟩ := h
    exact ⟨w, reg_lt w (s := s) (by rw [hm]; rfl)⟩
  | F y =>
    simp only [hm, Option.some.injEq, Prod.mk.injEq] at h
    obtain ⟨rfl, _, rfl⟩ := h
    exact ⟨w, reg_lt w (s := s) (by rw [hm]; rfl)⟩
  | S g =>
    simp only [hm, Option.some.injEq, Prod.mk.injEq] at h
    obtain ⟨rfl, _, rfl⟩ := h
    have hs : s < st.n := wf_lt w (by rw [hm]; simp)
    have h1 : WF (if g = .fixnum then st else st.setMode s (.S .fixnum)) ∧
        s < (if g = .fixnum then st else st.setMode s (.S .fixnum)).n := by
      split
      · exact ⟨w, hs⟩
      · exact ⟨setMode_S_wf w hm, hs⟩
    rw [setSf_eq]
    exact ⟨alloc_relink_wf h1.1 h1.2 rfl, by rw [(relink_fields _ _ _).2.2.2.2]; exact (alloc_spec h1.1).2.lt⟩
  | C v => simp only [hm] at h; exact loadC_wf w (wf_lt w (by rw [hm]; simp)) h
  | V => simp [hm] at h
  | maybeNone => simp [hm] at h
  | none => simp [hm] at h

theorem fetchF_wf {st st' : St} {s : Slot} {c : NCls} {ins : List Ins} {x : FReg} (w : WF st)
    (h : st.fetchF s c = some (st', ins, x)) : WF st' ∧ x < st'.vf.length := by
  cases c with
  | int => exact loadFprFix_wf w h
  | flt => exact loadFpr_wf w h

theorem loadC_len {st st' : St} {s : Slot} {v : Val} {ins : List Ins} {x : FReg} (w : WF st)
    (h : st.loadC s v = some (st', ins, x)) : st.vf.length ≤ st'.vf.length := by
  unfold St.loadC at h
  have le := (alloc_spec w).2.len
  cases v with
  | flo f =>
    simp only [Option.some.injEq, Prod.mk.injEq] at h
    obtain ⟨rfl, _, rfl⟩ := h
    rw [setF_eq, (relink_fields _ _ _).2.2.2.2]; exact le
  | fix i =>
    simp only [Option.some.injEq, Prod.mk.injEq] at h
    obtain ⟨rfl, _, rfl⟩ := h
    rw [setSf_eq, (relink_fields _ _ _).2.2.2.2]; exact le
  | obj a b => simp at h

theorem fetchF_len {st st' : St} {s : Slot} {c : NCls} {ins : List Ins} {x : FReg} (w : WF st)
    (h : st.fetchF s c = some (st', ins, x)) : st.vf.length ≤ st'.vf.length := by
  cases c with
  | int =>
    simp only [St.fetchF, St.loadFprFix] at h
    cases hm : st.mode s with
    | S g =>
      simp only [hm, Option.some.injEq, Prod.mk.injEq] at h
      obtain ⟨rfl, _, rfl⟩ := h
      rw [setSf_eq, (relink_fields _ _ _).2.2.2.2]
      split
      · exact (alloc_spec w).2.len
      · exact (alloc_spec (setMode_S_wf w hm)).2.len
    | C v => simp only [hm] at h; exact loadC_len w h
    | Sf y g => simp only [hm, Option.some.injEq, Prod.mk.injEq] at h; obtain ⟨rfl, _⟩ := h; exact Nat.le_refl _
    | F y => simp only [hm, Option.some.injEq, Prod.mk.injEq] at h; obtain ⟨rfl, _⟩ := h; exact Nat.le_refl _
    | V => simp [hm] at h
    | maybeNone => simp [hm] at h
    | none => simp [hm] at h
  | flt =>
    simp only [St.fetchF, St.loadFpr] at h
    cases hm : st.mode s with
    | S g =>
      simp only [hm, Option.some.injEq, Prod.mk.injEq] at h
      obtain ⟨rfl, _, rfl⟩ := h
      rw [setSf_eq, (relink_fields _ _ _).2.2.2.2]
      exact (alloc_spec w).2.len
    | C v => simp only [hm] at h; exact loadC_len w h
    | Sf y g => simp only [hm, Option.some.injEq, Prod.mk.injEq] at h; obtain ⟨rfl, _⟩ := h; exact Nat.le_refl _
    | F y => simp only [hm, Option.some.injEq, Prod.mk.injEq] at h; obtain ⟨rfl, _⟩ := h; exact Nat.le_refl _
    | V => simp [hm] at h
    | maybeNone => simp [hm] at h
    | none => simp [hm] at h

theorem loadBin_wf {st st' : St} {lhs rhs : Slot} {lc rc : NCls} {ins : List Ins} {x y : FReg} (w : WF st)
    (h : st.loadBin lhs rhs lc rc = some (st', ins, x, y)) : WF st' ∧ x < st'.vf.length := by
  unfold St.loadBin at h
  cases hf : st.fetchF lhs lc with
  | none => simp [hf] at h
  | some p =>
    obtain ⟨st1, i1, z⟩ := p
    simp only [hf] at h
    obtain ⟨w1, lt1⟩ := fetchF_wf w hf
    split_ifs at h
    · cases hf2 : (st1.pin z).fetchF rhs rc with
      | none => simp [hf2] at h
      | some p =>
        obtain ⟨st2, i2, z2⟩ := p
        simp only [hf2, Option.some.injEq, Prod.mk.injEq] at h
        obtain ⟨rfl, _, rfl, _⟩ := h
        have len := fetchF_len (pin_wf w1 z) hf2
        rw [pin_len] at len
        exact ⟨unpin_wf (fetchF_wf (pin_wf w1 z) hf2).1 _, Nat.lt_of_lt_of_le lt1 len⟩
    · simp only [Option.some.injEq, Prod.mk.injEq] at h
      obtain ⟨rfl, _, rfl, _⟩ := h
      exact ⟨w1, lt1⟩

theorem relink_noreg_wf {st : St} (w : WF st) {d : Slot} {M : Mode} (hd : d < st.n) (hM : M.reg = none) :
    WF (st.relink d M) := relink_wf w (.inl hd) (fun y hy => by rw [hM] at hy; cases hy)

theorem defCOpt_wf {st st' : St} {dst : Option Slot} {v : Val} (w : WF st) (h : st.defCOpt dst v = some st') :
    WF st' := by
  unfold St.defCOpt at h
  cases dst with
  | none => simp only [Option.some.injEq] at h; subst h; exact w
  | some d =>
    obtain ⟨_, hn, rfl⟩ := defC_some h
    exact relink_noreg_wf w hn rfl

theorem relink2_wf {st : St} (w : WF st) {d : Slot} {M : Mode} (hd : d < st.n)
    (hM : ∀ y, M.reg = some y → y < st.vf.length) : WF ((st.relink d .V).relink d M) := by
  obtain ⟨f1, _, _, _, f5⟩ := relink_fields st d .V
  exact relink_wf (relink_noreg_wf w hd rfl) (.inl (by rw [f1]; exact hd)) (fun y hy => by rw [f5]; exact hM y hy)

theorem binFlt_wf {P : Prim} {st st' : St} {k : Kind} {dst : Option Slot} {lhs rhs : Slot} {lc rc : NCls}
    {ins : List Ins} (w : WF st) (h : st.binFlt P k dst lhs rhs lc rc = some (st', ins)) : WF st' := by
  unfold St.binFlt at h
  cases hfold : st.foldFlt P k lhs rhs with
  | some f =>
    rw [hfold] at h
    simp only [Option.map_eq_some_iff, Prod.mk.injEq] at h
    obtain ⟨stf, hd, rfl, rfl⟩ := h
    exact defCOpt_wf w hd
  | none =>
    rw [hfold] at h
    simp only at h
    cases hlb : st.loadBin lhs rhs lc rc with
    | none => simp [hlb] at h
    | some p =>
      obtain ⟨st2, i1, x, y⟩ := p
      simp only [hlb] at h
      obtain ⟨w2, lt2⟩ := loadBin_wf w hlb
      cases dst with
      | none =>
        simp only [Option.some.injEq, Prod.mk.injEq] at h
        obtain ⟨rfl, rfl⟩ := h
        exact w2
      | some d =>
        simp only at h
        have w3 := pin_wf (pin_wf w2 x) y
        split_ifs at h
        · simp only [Option.map_eq_some_iff, Prod.mk.injEq] at h
          obtain ⟨st4, hd, rfl, _⟩ := h
          unfold St.defFWith at hd
          simp only [Option.map_eq_some_iff] at hd
          obtain ⟨st5, hd, rfl⟩ := hd
          obtain ⟨_, hn, rfl⟩ := discard_some hd
          rw [clear_eq, setF_eq]
          exact unpin_wf (unpin_wf (relink2_wf w3 hn (fun z hz => by cases hz; rw [pin_len, pin_len]; exact lt2)) _) _
        · simp only [Option.map_eq_some_iff, Prod.mk.injEq] at h
          obtain ⟨⟨st4, z⟩, hd, rfl, _⟩ := h
          unfold St.defF at hd
          simp only [Option.map_eq_some_iff, Prod.mk.injEq] at hd
          obtain ⟨st5, hd, rfl, _⟩ := hd
          obtain ⟨_, hn, rfl⟩ := discard_some hd
          rw [clear_eq, setF_eq]
          obtain ⟨w4, sp⟩ := alloc_spec w3
          exact unpin_wf (unpin_wf (relink2_wf w4 hn (fun z hz => by cases hz; exact sp.lt)) _) _

theorem writeBackSlot_wf {st st' : St} {s : Slot} {ins : List Ins} (w : WF st)
    (h : st.writeBackSlot s = some (st', ins)) : WF st' ∧ s < st'.n := by
  unfold St.writeBackSlot at h
  have hmi : (st.invalidate s).mode = st.mode := rfl
  simp only [hmi] at h
  have w1 := (GpLe.invalidate st s).wf w
  cases hm : st.mode s with
  | F x =>
    simp only [hm, Option.some.injEq, Prod.mk.injEq] at h
    obtain ⟨rfl, rfl⟩ := h
    have hs : s < st.n := wf_lt w (by rw [hm]; simp)
    rw [setSf_eq, (relink_fields _ _ _).1]
    exact ⟨relink_wf w1 (.inl hs) (fun y hy => by cases hy; exact reg_lt w1 (s := s) (by rw [hmi, hm]; rfl)), hs⟩
  | V => simp [hm] at h
  | none => simp [hm] at h
  | _ =>
    simp only [hm, Option.some.injEq, Prod.mk.injEq] at h
    obtain ⟨rfl, rfl⟩ := h
    exact ⟨w1, wf_lt w (by rw [hm]; simp)⟩

theorem allocReg_wf {st st' : St} {pins : List GReg} {r : GReg} {sp : Option (GReg × Slot)} (w : WF st)
    (h : st.allocReg pins = some (st', r, sp)) : WF st' ∧ r < nGp := by
  obtain ⟨hr, _, rfl, _⟩ := St.allocReg_spec h
  exact ⟨(GpLe.freeReg st r).wf w, hr⟩

theorem gpEnsure_wf {st st' : St} {s : Slot} {pins : List GReg} {ins : List Ins} {r : GReg} {g : Bool} (w : WF st)
    (h : st.gpEnsure s pins = some (st', ins, r, g)) : WF st' ∧ r < nGp := by
  unfold St.gpEnsure at h
  cases hr : st.regOf s with
  | some q =>
    simp only [hr, Option.some.injEq, Prod.mk.injEq] at h
    obtain ⟨rfl, _, rfl, _⟩ := h
    exact ⟨w, (St.regOf_some hr).1⟩
  | none =>
    simp only [hr] at h
    cases hc : st.fixLit s with
    | some i =>
      simp only [hc] at h
      cases ha : st.allocReg pins with
      | none => simp [ha] at h
      | some p =>
        obtain ⟨st1, q, sp⟩ := p
        simp only [ha, Option.some.injEq, Prod.mk.injEq] at h
        obtain ⟨rfl, _, rfl, _⟩ := h
        obtain ⟨w1, hq⟩ := allocReg_wf w ha
        refine ⟨bind_wf w1 hq ?_ (by simp), hq⟩
        rw [(allocReg_fr ha).n]
        exact wf_lt w (by rw [fixLit_some hc]; simp)
    | none =>
      simp only [hc] at h
      cases hw : st.writeBackSlot s with
      | none => simp [hw] at h
      | some p =>
        obtain ⟨st2, ins2⟩ := p
        simp only [hw] at h
        obtain ⟨w2, hs⟩ := writeBackSlot_wf w hw
        cases ha : st2.allocReg pins with
        | none => simp [ha] at h
        | some p =>
          obtain ⟨st1, q, sp⟩ := p
          simp only [ha, Option.some.injEq, Prod.mk.injEq] at h
          obtain ⟨rfl, _, rfl, _⟩ := h
          obtain ⟨w1, hq⟩ := allocReg_wf w2 ha
          refine ⟨bind_wf w1 hq ?_ (by simp), hq⟩
          rw [(allocReg_fr ha).n]
          exact hs

theorem dropDst_wf {st : St} (w : WF st) (dst : Option Slot) : WF (st.dropDst dst) := by
  cases dst with
  | none => exact w
  | some d => exact (GpLe.invalidate st d).wf w

theorem dstReg_wf {st st' : St} {lhs : Slot} {lgp r : GReg} {ld : Bool} {extra : List GReg}
    {spill : Option (GReg × Slot)} (w : WF st) (hl : lgp < nGp) (h : st.dstReg lhs lgp ld extra = some (st', r, spill)) :
    WF st' ∧ r < nGp := by
  unfold St.dstReg at h
  split_ifs at h
  · simp only [Option.some.injEq, Prod.mk.injEq] at h
    obtain ⟨rfl, rfl, _⟩ := h; exact ⟨w, hl⟩
  · simp only [Option.some.injEq, Prod.mk.injEq] at h
    obtain ⟨rfl, rfl, _⟩ := h; exact ⟨(GpLe.invalidate _ _).wf w, hl⟩
  · exact allocReg_wf w h

theorem bindDst_wf {st st' : St} {dst : Option Slot} {r : GReg} (w : WF st) (hr : r < nGp)
    (h : st.bindDst dst r = some st') : WF st' := by
  unfold St.bindDst at h
  cases dst with
  | none => simp only [Option.some.injEq] at h; subst h; exact w
  | some d =>
    simp only [Option.map_eq_some_iff] at h
    obtain ⟨st1, hd, rfl⟩ := h
    obtain ⟨_, hn, rfl⟩ := defS_some hd
    obtain ⟨f1, _, _, f4, _⟩ := relink_fields st d (.S .fixnum)
    exact bind_wf (relink_noreg_wf w hn rfl) hr (by rw [f1]; exact hn) (fun _ => ⟨.fixnum, by rw [f4, upd_same]⟩)

theorem if_refine_wf {st : St} (w : WF st) (g : Bool) (s : Slot) : WF (if g then st.refineFix s else st) := by
  split
  · exact refineFix_wf w s
  · exact w

theorem binImm_wf {st st' : St} {k : Kind} {dst : Option Slot} {v sp : Slot} {c : Int} {ins : List Ins} (w : WF st)
    (h : st.binImm k dst v c sp = some (st', ins)) : WF st' := by
  unfold St.binImm at h
  cases he : st.gpEnsure v [] with
  | none => simp [he] at h
  | some p =>
    obtain ⟨st3, i1, lgp, g1⟩ := p
    simp only [he] at h
    cases hd : ((st3.dropDst dst).freeAbove sp).dstReg v lgp (st3.dirtyRegOf v).isSome [] with
    | none => simp [hd] at h
    | some p =>
      obtain ⟨st5, dgp, spill⟩ := p
      simp only [hd, Option.map_eq_some_iff, Prod.mk.injEq] at h
      obtain ⟨stf, hb, rfl, _⟩ := h
      obtain ⟨w3, hl⟩ := gpEnsure_wf w he
      obtain ⟨w5, hr⟩ := dstReg_wf ((GpLe.freeAbove _ sp).wf (dropDst_wf w3 dst)) hl hd
      exact bindDst_wf (if_refine_wf w5 _ _) hr hb

theorem syncRhs_wf {st : St} (w : WF st) (k : Kind) (rhs : Slot) : WF (st.syncRhs k rhs).1 := by
  unfold St.syncRhs
  split
  · split
    · have key : ∀ r h, (st.sync rhs).gp r = some h → ∃ h', st.gp r = some h' ∧ h'.slot = h.slot ∧ (h.dirty = true → h'.dirty = true) := by
        intro r h hh
        unfold St.sync at hh
        simp only at hh
        cases hg : st.gp r with
        | none => simp [hg] at hh
        | some h' =>
          simp only [hg] at hh
          split at hh <;> simp only [Option.some.injEq] at hh <;> subst hh
          · exact ⟨h', rfl, rfl, fun h => by simp at h⟩
          · exact ⟨h', rfl, rfl, fun h => h⟩
      refine ⟨w.vf, ?_, ?_, ?_, w.big⟩
      · intro r r' h h' e1 e2 e3
        obtain ⟨a, a1, a2, _⟩ := key r h e1
        obtain ⟨b, b1, b2, _⟩ := key r' h' e2
        exact w.inj r r' a b a1 b1 (by rw [a2, b2, e3])
      · intro r h e
        obtain ⟨a, a1, a2, _⟩ := key r h e
        rw [← a2]
        exact w.lt r a a1
      · intro r h e hd
        obtain ⟨a, a1, a2, a3⟩ := key r h e
        rw [← a2]
        exact w.dirty r a a1 (a3 hd)
    · exact w
  · exact w

theorem binReg_wf {st st' : St} {k : Kind} {dst : Option Slot} {lhs rhs sp : Slot} {ins : List Ins} (w : WF st)
    (h : st.binReg k dst lhs rhs sp = some (st', ins)) : WF st' := by
  unfold St.binReg at h
  cases he : st.gpEnsure lhs [] with
  | none => simp [he] at h
  | some p =>
    obtain ⟨st1, i1, lgp, g1⟩ := p
    simp only [he] at h
    obtain ⟨w1, hl⟩ := gpEnsure_wf w he
    cases he2 : st1.gpEnsure rhs [lgp] with
    | none => simp [he2] at h
    | some p =>
      obtain ⟨st2, i2, rgp, g2⟩ := p
      simp only [he2] at h
      have w2 := (gpEnsure_wf w1 he2).1
      cases hd : (((st2.syncRhs k rhs).1.dropDst dst).freeAbove sp).dstRegBin k lhs lgp rgp
          ((st2.syncRhs k rhs).1.dirtyRegOf lhs).isSome with
      | none => simp [hd] at h
      | some p =>
        obtain ⟨st5, dgp, spill⟩ := p
        simp only [hd, Option.map_eq_some_iff, Prod.mk.injEq] at h
        obtain ⟨stf, hb, rfl, _⟩ := h
        have w4 := (GpLe.freeAbove _ sp).wf (dropDst_wf (syncRhs_wf w2 k rhs) dst)
        have w5 : WF st5 ∧ dgp < nGp := by
          unfold St.dstRegBin at hd
          split_ifs at hd
          · exact allocReg_wf w4 hd
          · exact dstReg_wf w4 hl hd
          · exact dstReg_wf w4 hl hd
        refine bindDst_wf ?_ w5.2 hb
        have w6 := if_refine_wf (if_refine_wf w5.1 g1 lhs) (g2 && (lhs != rhs)) rhs
        by_cases hk : k.clobbers = true
        · rw [if_pos hk]; exact (GpLe.invalidate _ _).wf w6
        · rw [if_neg hk]; exact w6

theorem binInt_wf {P : Prim} {st st' : St} {k : Kind} {dst : Option Slot} {lhs rhs sp : Slot} {ins : List Ins} (w : WF st)
    (h : st.binInt P k dst lhs rhs sp = some (st', ins)) : WF st' := by
  unfold St.binInt at h
  cases hf : st.foldLits P k lhs rhs with
  | some v =>
    rw [hf] at h
    simp only [Option.map_eq_some_iff, Prod.mk.injEq] at h
    obtain ⟨stf, hd, rfl, rfl⟩ := h
    exact defCOpt_wf (dropDst_wf w dst) hd
  | none =>
    rw [hf] at h
    simp only at h
    unfold St.binGp at h
    cases hi : st.immForm k lhs rhs with
    | some p => obtain ⟨v, c⟩ := p; simp only [hi] at h; exact binImm_wf w h
    | none => simp only [hi] at h; exact binReg_wf w h

theorem guardRecv_wf {st st' : St} {s : Slot} {c : NCls} {ins : List Ins} (w : WF st)
    (h : st.guardRecv s c = some (st', ins)) : WF st' := by
  unfold St.guardRecv at h
  cases c with
  | int =>
    simp only at h
    split_ifs at h
    · simp only [Option.some.injEq, Prod.mk.injEq] at h
      obtain ⟨rfl, _⟩ := h; exact w
    · cases he : st.gpEnsure s [] with
      | none => simp [he] at h
      | some p =>
        obtain ⟨st1, i1, r, g⟩ := p
        simp only [he] at h
        split_ifs at h
        · simp only [Option.some.injEq, Prod.mk.injEq] at h
          obtain ⟨rfl, _⟩ := h; exact refineFix_wf (gpEnsure_wf w he).1 s
        · simp only [Option.some.injEq, Prod.mk.injEq] at h
          obtain ⟨rfl, _⟩ := h; exact (gpEnsure_wf w he).1
  | flt =>
    simp only at h
    split_ifs at h
    · simp only [Option.some.injEq, Prod.mk.injEq] at h
      obtain ⟨rfl, _⟩ := h; exact w
    · simp only [Option.map_eq_some_iff, Prod.mk.injEq] at h
      obtain ⟨⟨st1, i1, x⟩, hf, rfl, _⟩ := h
      exact (loadFpr_wf w hf).1

theorem copySlot_wf {st st' : St} {src dst : Slot} {ins : List Ins} (w : WF st)
    (h : st.copySlot src dst = some (st', ins)) : WF st' := by
  unfold St.copySlot at h
  by_cases hsd : src = dst
  · rw [if_pos hsd] at h
    simp only [Option.some.injEq, Prod.mk.injEq] at h
    obtain ⟨rfl, rfl⟩ := h
    exact w
  · rw [if_neg hsd] at h
    cases hm : st.mode src with
    | F x =>
      simp only [hm, Option.map_eq_some_iff, Prod.mk.injEq] at h
      obtain ⟨st1, hd, rfl, rfl⟩ := h
      obtain ⟨_, hn, rfl⟩ := discard_some hd
      rw [clear_eq, setF_eq]
      exact relink2_wf w hn (fun y hy => by cases hy; exact reg_lt w (s := src) (by rw [hm]; rfl))
    | Sf x g =>
      simp only [hm, Option.map_eq_some_iff, Prod.mk.injEq] at h
      obtain ⟨st1, hd, rfl, rfl⟩ := h
      obtain ⟨_, hn, rfl⟩ := discard_some hd
      rw [clear_eq, setSf_eq]
      exact relink2_wf w hn (fun y hy => by cases hy; exact reg_lt w (s := src) (by rw [hm]; rfl))
    | S g =>
      simp only [hm, Option.map_eq_some_iff, Prod.mk.injEq] at h
      obtain ⟨st1, hd, rfl, rfl⟩ := h
      obtain ⟨_, hn, rfl⟩ := defS_some hd
      exact relink_noreg_wf w hn rfl
    | C v =>
      simp only [hm, Option.map_eq_some_iff, Prod.mk.injEq] at h
      obtain ⟨st1, hd, rfl, rfl⟩ := h
      obtain ⟨_, hn, rfl⟩ := defC_some hd
      exact relink_noreg_wf w hn rfl
    | V => simp [hm] at h
    | maybeNone => simp [hm] at h
    | none => simp [hm] at h

theorem flushGp_wf {st : St} (w : WF st) : WF st.flushGp.1 := by
  have hle : GpLe st st.flushGp.1 := ⟨rfl, rfl, rfl, rfl, by intro r h hh; simp [St.flushGp] at hh⟩
  exact hle.wf w

theorem clearFrom_wf : ∀ (k s : Nat) (st : St), WF st → WF (st.clearFrom k s)
  | 0, _, _, w => w
  | k + 1, s, st, w => clearFrom_wf k (s + 1) _ (by rw [clear_eq]; exact relink_wf w (.inr rfl) (by simp [Mode.reg]))

theorem compile1_wf {P : Prim} {st st' : St} {op : Op} {ins : List Ins} (w : WF st)
    (h : st.compile1 P op = some (st', ins)) : WF st' := by
  cases op with
  | lit d v sp =>
    have h' : (st.defC d v).map (fun st => (st, ([] : List Ins))) = some (st', ins) := by
      cases v with
      | obj a b => simp [St.compile1] at h
      | _ => exact h
    simp only [Option.map_eq_some_iff, Prod.mk.injEq] at h'
    obtain ⟨st1, hd, rfl, rfl⟩ := h'
    obtain ⟨_, hn, rfl⟩ := defC_some hd
    exact relink_noreg_wf w hn rfl
  | mov d s sp =>
    simp only [St.compile1, Option.map_eq_some_iff, Prod.mk.injEq] at h
    obtain ⟨⟨st1, i1⟩, hc, rfl, _⟩ := h
    exact copySlot_wf (flushGp_wf w) hc
  | bin k dst l r icL icR sp =>
    unfold St.compile1 at h
    simp only at h
    split at h
    · cases hg : st.guardRecv l .int with
      | none => simp [hg] at h
      | some p =>
        obtain ⟨st1, i1⟩ := p
        simp only [hg, Option.map_eq_some_iff, Prod.mk.injEq] at h
        obtain ⟨⟨st2, i2⟩, hb, rfl, _⟩ := h
        exact binInt_wf (guardRecv_wf w hg) hb
    · split_ifs at h
      rename_i lc rc _ _ _ _
      cases hg : st.guardRecv l lc with
      | none => simp [hg] at h
      | some p =>
        obtain ⟨st1, i1⟩ := p
        simp only [hg, Option.map_eq_some_iff, Prod.mk.injEq] at h
        obtain ⟨⟨st2, i2⟩, hb, rfl, _⟩ := h
        exact binFlt_wf (guardRecv_wf w hg) hb
    · cases h

theorem step_wf {P : Prim} {st st' : St} {op : Op} {ins : List Ins} (w : WF st)
    (h : st.step P op = some (st', ins)) : WF st' := by
  unfold St.step at h
  simp only [Option.map_eq_some_iff, Prod.mk.injEq] at h
  obtain ⟨⟨st1, i1⟩, hc, rfl, _⟩ := h
  exact clearFrom_wf _ _ _ (compile1_wf w hc)

theorem compileBlock_wf {P : Prim} : ∀ (ops : List Op) (st stf : St) (code : List (List Ins)), WF st →
    compileBlock P st ops = some (stf, code) → WF stf := by
  intro ops
  induction ops with
  | nil =>
    intro st stf code w h
    simp only [compileBlock, Option.some.injEq, Prod.mk.injEq] at h
    obtain ⟨rfl, _⟩ := h; exact w
  | cons op ops ih =>
    intro st stf code w h
    unfold compileBlock at h
    cases hst : st.step P op with
    | none => simp [hst] at h
    | some p =>
      obtain ⟨st', ins⟩ := p
      simp only [hst, Option.map_eq_some_iff, Prod.mk.injEq] at h
      obtain ⟨⟨stf', rest⟩, hcb, rfl, rfl⟩ := h
      exact ih st' stf' rest (step_wf w hst) hcb

end Verif.JitState
