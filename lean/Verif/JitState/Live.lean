import Verif.JitState.Step

/-! Which slots the state describes after an instruction, independent of any machine. -/

namespace Verif.JitState

/-- Same frame size, same live slots. -/
structure Fr (st st' : St) : Prop where
  n : st'.n = st.n
  live : LiveEq st st'

theorem Fr.refl (st : St) : Fr st st := ⟨rfl, LiveEq.refl _⟩
theorem Fr.trans {a b c : St} (h1 : Fr a b) (h2 : Fr b c) : Fr a c :=
  ⟨h2.n.trans h1.n, h1.live.trans h2.live⟩
theorem GpLe.fr {a b : St} (h : GpLe a b) : Fr a b := ⟨h.n, h.liveEq⟩

/-- As `Fr`, with the destination defined. -/
structure FrD (st st' : St) (dst : Option Slot) : Prop where
  n : st'.n = st.n
  live : ∀ s, (st'.mode s).live = ((st.mode s).live || decide (some s = dst))
  lt : ∀ d, dst = some d → d < st.n

theorem FrD.pre {a b c : St} {dst : Option Slot} (h1 : Fr a b) (h2 : FrD b c dst) : FrD a c dst :=
  ⟨h2.n.trans h1.n, fun s => by rw [h2.live, h1.live], fun d hd => by rw [← h1.n]; exact h2.lt d hd⟩

theorem FrD.post {a b c : St} {dst : Option Slot} (h1 : FrD a b dst) (h2 : Fr b c) : FrD a c dst :=
  ⟨h2.n.trans h1.n, fun s => by rw [h2.live, h1.live], h1.lt⟩

theorem FrD.none {a b : St} (h : Fr a b) : FrD a b none := ⟨h.n, fun s => by rw [h.live]; simp, by simp⟩

theorem relink_fr {st : St} {d : Slot} {M : Mode} (h : M.live = (st.mode d).live) : Fr st (st.relink d M) := by
  obtain ⟨h1, _, _, h4, _⟩ := relink_fields st d M
  refine ⟨h1, fun s => ?_⟩
  rw [h4]
  by_cases hs : s = d
  · subst hs; simpa using h
  · rw [upd_ne _ _ hs]

theorem relink_frD {st : St} {d : Slot} {M : Mode} (h : M.live = true) (hd : d < st.n) :
    FrD st (st.relink d M) (some d) := by
  obtain ⟨h1, _, _, h4, _⟩ := relink_fields st d M
  refine ⟨h1, fun s => ?_, fun d' h => by simp only [Option.some.injEq] at h; rw [← h]; exact hd⟩
  rw [h4]
  by_cases hs : s = d
  · subst hs; simp [h]
  · rw [upd_ne _ _ hs]; simp [hs]

theorem relink2_frD {st : St} {d : Slot} {M : Mode} (h : M.live = true) (hd : d < st.n) :
    FrD st ((st.relink d .V).relink d M) (some d) := by
  obtain ⟨h1, _, _, h4, _⟩ := relink_fields st d .V
  obtain ⟨h1', _, _, h4', _⟩ := relink_fields (st.relink d .V) d M
  refine ⟨h1'.trans h1, fun s => ?_, fun d' h => by simp only [Option.some.injEq] at h; rw [← h]; exact hd⟩
  rw [h4', h4]
  by_cases hs : s = d
  · subst hs; simp [h]
  · rw [upd_ne _ _ hs, upd_ne _ _ hs]; simp [hs]

theorem alloc_fr (st : St) : Fr st st.alloc.1 := by
  unfold St.alloc St.tryAlloc
  cases st.pickVacant with
  | some x => exact Fr.refl _
  | none =>
    simp only
    cases st.pickVictim with
    | none => exact ⟨rfl, LiveEq.refl _⟩
    | some x =>
      refine ⟨rfl, fun s => ?_⟩
      simp only [St.demote]
      split
      · cases hm : st.mode s <;> rfl
      · rfl

theorem pin_fr (st : St) (x : FReg) : Fr st (st.pin x) := by
  obtain ⟨p, h, _⟩ := pin_eq st x
  rw [h]; exact ⟨rfl, LiveEq.refl _⟩

theorem unpin_fr (st : St) (x : FReg) : Fr st (st.unpin x) := ⟨rfl, LiveEq.refl _⟩

theorem setMode_fr {st : St} {s : Slot} {M : Mode} (h : M.live = (st.mode s).live) : Fr st (st.setMode s M) := by
  refine ⟨rfl, fun t => ?_⟩
  simp only [St.setMode]
  split
  · next e => rw [h, e]
  · rfl

theorem loadC_fr {st st' : St} {s : Slot} {v : Val} {ins : List Ins} {x : FReg} (hl : (st.mode s).live = true)
    (h : st.loadC s v = some (st', ins, x)) : Fr st st' := by
  unfold St.loadC at h
  have hl' : (st.alloc.1.mode s).live = true := by rw [(alloc_fr st).live]; exact hl
  cases v with
  | flo f =>
    simp only [Option.some.injEq, Prod.mk.injEq] at h
    obtain ⟨rfl, _⟩ := h
    rw [setF_eq]
    exact (alloc_fr st).trans (relink_fr (by rw [hl']; rfl))
  | fix i =>
    simp only [Option.some.injEq, Prod.mk.injEq] at h
    obtain ⟨rfl, _⟩ := h
    rw [setSf_eq]
    exact (alloc_fr st).trans (relink_fr (by rw [hl']; rfl))
  | obj a b => simp at h

theorem loadFpr_fr {st st' : St} {s : Slot} {ins : List Ins} {x : FReg}
    (h : st.loadFpr s = some (st', ins, x)) : Fr st st' := by
  unfold St.loadFpr at h
  cases hm : st.mode s with
  | Sf y g => simp only [hm, Option.some.injEq, Prod.mk.injEq] at h; obtain ⟨rfl, _⟩ := h; exact Fr.refl _
  | F y => simp only [hm, Option.some.injEq, Prod.mk.injEq] at h; obtain ⟨rfl, _⟩ := h; exact Fr.refl _
  | S g =>
    simp only [hm, Option.some.injEq, Prod.mk.injEq] at h
    obtain ⟨rfl, _⟩ := h
    rw [setSf_eq]
    refine (alloc_fr st).trans (relink_fr ?_)
    rw [(alloc_fr st).live, hm]; rfl
  | C v => simp only [hm] at h; exact loadC_fr (by rw [hm]; rfl) h
  | V => simp [hm] at h
  | maybeNone => simp [hm] at h
  | none => simp [hm] at h

theorem loadFprFix_fr {st st' : St} {s : Slot} {ins : List Ins} {x : FReg}
    (h : st.loadFprFix s = some (st', ins, x)) : Fr st st' := by
  unfold St.loadFprFix at h
  cases hm : st.mode s with
  | Sf y g => simp only [hm, Option.some.injEq, Prod.mk.injEq] at h; obtain ⟨rfl, _⟩ := h; exact Fr.refl _
  | F y => simp only [hm, Option.some.injEq, Prod.mk.injEq] at h; obtain ⟨rfl, _⟩ := h; exact Fr.refl _
  | S g =>
    simp only [hm, Option.some.injEq, Prod.mk.injEq] at h
    obtain ⟨rfl, _⟩ := h
    have h1 : Fr st (if g = .fixnum then st else st.setMode s (.S .fixnum)) := by
      split
      · exact Fr.refl _
      · exact setMode_fr (by rw [hm]; rfl)
    rw [setSf_eq]
    refine (h1.trans (alloc_fr _)).trans (relink_fr ?_)
    rw [(alloc_fr _).live, h1.live, hm]; rfl
  | C v => simp only [hm] at h; exact loadC_fr (by rw [hm]; rfl) h
  | V => simp [hm] at h
  | maybeNone => simp [hm] at h
  | none => simp [hm] at h

theorem fetchF_fr {st st' : St} {s : Slot} {c : NCls} {ins : List Ins} {x : FReg}
    (h : st.fetchF s c = some (st', ins, x)) : Fr st st' := by
  cases c with
  | int => exact loadFprFix_fr h
  | flt => exact loadFpr_fr h

theorem loadBin_fr {st st' : St} {lhs rhs : Slot} {lc rc : NCls} {ins : List Ins} {x y : FReg}
    (h : st.loadBin lhs rhs lc rc = some (st', ins, x, y)) : Fr st st' := by
  unfold St.loadBin at h
  cases hf : st.fetchF lhs lc with
  | none => simp [hf] at h
  | some p =>
    obtain ⟨st1, i1, z⟩ := p
    simp only [hf] at h
    split_ifs at h
    · cases hf2 : (st1.pin z).fetchF rhs rc with
      | none => simp [hf2] at h
      | some p =>
        obtain ⟨st2, i2, z2⟩ := p
        simp only [hf2, Option.some.injEq, Prod.mk.injEq] at h
        obtain ⟨rfl, _⟩ := h
        exact (((fetchF_fr hf).trans (pin_fr _ _)).trans (fetchF_fr hf2)).trans (unpin_fr _ _)
    · simp only [Option.some.injEq, Prod.mk.injEq] at h
      obtain ⟨rfl, _⟩ := h
      exact fetchF_fr hf

theorem defCOpt_frD {st st' : St} {dst : Option Slot} {v : Val} (h : st.defCOpt dst v = some st') :
    FrD st st' dst := by
  unfold St.defCOpt at h
  cases dst with
  | none => simp only [Option.some.injEq] at h; subst h; exact FrD.none (Fr.refl _)
  | some d => obtain ⟨_, hn, rfl⟩ := defC_some h; exact relink_frD rfl hn

theorem binFlt_frD {P : Prim} {st st' : St} {k : Kind} {dst : Option Slot} {lhs rhs : Slot} {lc rc : NCls}
    {ins : List Ins} (h : st.binFlt P k dst lhs rhs lc rc = some (st', ins)) : FrD st st' dst := by
  unfold St.binFlt at h
  cases hfold : st.foldFlt P k lhs rhs with
  | some f =>
    rw [hfold] at h
    simp only [Option.map_eq_some_iff, Prod.mk.injEq] at h
    obtain ⟨stf, hd, rfl, rfl⟩ := h
    exact defCOpt_frD hd
  | none =>
    rw [hfold] at h
    simp only at h
    cases hlb : st.loadBin lhs rhs lc rc with
    | none => simp [hlb] at h
    | some p =>
      obtain ⟨st2, i1, x, y⟩ := p
      simp only [hlb] at h
      have f2 := loadBin_fr hlb
      cases dst with
      | none =>
        simp only [Option.some.injEq, Prod.mk.injEq] at h
        obtain ⟨rfl, rfl⟩ := h
        exact FrD.none f2
      | some d =>
        simp only at h
        have f3 := (f2.trans (pin_fr st2 x)).trans (pin_fr (st2.pin x) y)
        split_ifs at h
        · simp only [Option.map_eq_some_iff, Prod.mk.injEq] at h
          obtain ⟨st4, hd, rfl, _⟩ := h
          unfold St.defFWith at hd
          simp only [Option.map_eq_some_iff] at hd
          obtain ⟨st5, hd, rfl⟩ := hd
          obtain ⟨_, hn, rfl⟩ := discard_some hd
          rw [clear_eq, setF_eq]
          exact ((FrD.pre f3 (relink2_frD rfl hn)).post (unpin_fr _ _)).post (unpin_fr _ _)
        · simp only [Option.map_eq_some_iff, Prod.mk.injEq] at h
          obtain ⟨⟨st4, z⟩, hd, rfl, _⟩ := h
          unfold St.defF at hd
          simp only [Option.map_eq_some_iff, Prod.mk.injEq] at hd
          obtain ⟨st5, hd, rfl, _⟩ := hd
          obtain ⟨_, hn, rfl⟩ := discard_some hd
          rw [clear_eq, setF_eq]
          exact ((FrD.pre (f3.trans (alloc_fr _)) (relink2_frD rfl hn)).post (unpin_fr _ _)).post (unpin_fr _ _)

theorem writeBackSlot_fr {st st' : St} {s : Slot} {ins : List Ins}
    (h : st.writeBackSlot s = some (st', ins)) : Fr st st' := by
  refine ⟨?_, fun t => ?_⟩
  · unfold St.writeBackSlot at h
    have hmi : (st.invalidate s).mode = st.mode := rfl
    simp only [hmi] at h
    cases hm : st.mode s with
    | F x =>
      simp only [hm, Option.some.injEq, Prod.mk.injEq] at h
      obtain ⟨rfl, rfl⟩ := h
      rw [setSf_eq, (relink_fields _ _ _).1]; rfl
    | V => simp [hm] at h
    | none => simp [hm] at h
    | _ => simp only [hm, Option.some.injEq, Prod.mk.injEq] at h; obtain ⟨rfl, rfl⟩ := h; rfl
  · rcases writeBackSlot_mode (t := t) h with e | ⟨x, h1, h2⟩
    · rw [e]
    · rw [h1, h2]; rfl

theorem bind_fr (st : St) (r : GReg) (s : Slot) (d : Bool) : Fr st (st.bind r s d) := ⟨rfl, LiveEq.refl _⟩

theorem allocReg_fr {st st' : St} {pins : List GReg} {r : GReg} {sp : Option (GReg × Slot)}
    (h : st.allocReg pins = some (st', r, sp)) : Fr st st' := by
  obtain ⟨_, _, rfl, _⟩ := St.allocReg_spec h
  exact ⟨rfl, LiveEq.refl _⟩

theorem gpEnsure_fr {st st' : St} {s : Slot} {pins : List GReg} {ins : List Ins} {r : GReg} {g : Bool}
    (h : st.gpEnsure s pins = some (st', ins, r, g)) : Fr st st' := by
  unfold St.gpEnsure at h
  cases hr : st.regOf s with
  | some q =>
    simp only [hr, Option.some.injEq, Prod.mk.injEq] at h
    obtain ⟨rfl, _⟩ := h
    exact Fr.refl _
  | none =>
    simp only [hr] at h
    cases hc : st.fixLit s with
    | some i =>
      simp only [hc] at h
      cases ha : st.allocReg pins with
      | none => simp [ha] at h
      | some p =>
        obtain ⟨st1, q, sp⟩ := p
        simp only [ha, Option.some.injEq, Prod.mk.injEq] at h
        obtain ⟨rfl, _⟩ := h
        exact (allocReg_fr ha).trans (bind_fr _ _ _ _)
    | none =>
      simp only [hc] at h
      cases hw : st.writeBackSlot s with
      | none => simp [hw] at h
      | some p =>
        obtain ⟨st2, ins2⟩ := p
        simp only [hw] at h
        cases ha : st2.allocReg pins with
        | none => simp [ha] at h
        | some p =>
          obtain ⟨st1, q, sp⟩ := p
          simp only [ha, Option.some.injEq, Prod.mk.injEq] at h
          obtain ⟨rfl, _⟩ := h
          exact ((writeBackSlot_fr hw).trans (allocReg_fr ha)).trans (bind_fr _ _ _ _)

theorem refineFix_fr (st : St) (s : Slot) : Fr st (st.refineFix s) :=
  ⟨(refineFix_fields st s).2.2.1, refineFix_live st s⟩

theorem dropDst_fr (st : St) (dst : Option Slot) : Fr st (st.dropDst dst) := by
  cases dst with
  | none => exact Fr.refl _
  | some d => exact (GpLe.invalidate st d).fr

theorem dstReg_fr {st st' : St} {lhs : Slot} {lgp r : GReg} {ld : Bool} {extra : List GReg}
    {spill : Option (GReg × Slot)} (h : st.dstReg lhs lgp ld extra = some (st', r, spill)) : Fr st st' := by
  unfold St.dstReg at h
  split_ifs at h
  · simp only [Option.some.injEq, Prod.mk.injEq] at h
    obtain ⟨rfl, _⟩ := h; exact Fr.refl _
  · simp only [Option.some.injEq, Prod.mk.injEq] at h
    obtain ⟨rfl, _⟩ := h; exact (GpLe.invalidate _ _).fr
  · exact allocReg_fr h

theorem bindDst_frD {st st' : St} {dst : Option Slot} {r : GReg} (h : st.bindDst dst r = some st') :
    FrD st st' dst := by
  unfold St.bindDst at h
  cases dst with
  | none => simp only [Option.some.injEq] at h; subst h; exact FrD.none (Fr.refl _)
  | some d =>
    simp only [Option.map_eq_some_iff] at h
    obtain ⟨st1, hd, rfl⟩ := h
    obtain ⟨_, hn, rfl⟩ := defS_some hd
    exact (relink_frD rfl hn).post (bind_fr _ _ _ _)

theorem if_refine_fr (st : St) (g : Bool) (s : Slot) : Fr st (if g then st.refineFix s else st) := by
  split
  · exact refineFix_fr _ _
  · exact Fr.refl _

theorem binImm_frD {st st' : St} {k : Kind} {dst : Option Slot} {v sp : Slot} {c : Int} {ins : List Ins}
    (h : st.binImm k dst v c sp = some (st', ins)) : FrD st st' dst := by
  unfold St.binImm at h
  cases he : st.gpEnsure v [] with
  | none => simp [he] at h
  | some p =>
    obtain ⟨st3, i1, lgp, g1⟩ := p
    simp only [he] at h
    cases hd : ((st3.dropDst dst).freeAbove sp).dstReg v lgp (st3.dirtyRegOf v).isSome [] with
    | none => simp [hd] at h
    | some p =>
      obtain ⟨st5, dgp, spill⟩ := p
      simp only [hd, Option.map_eq_some_iff, Prod.mk.injEq] at h
      obtain ⟨stf, hb, rfl, _⟩ := h
      have f1 := (((gpEnsure_fr he).trans (dropDst_fr _ dst)).trans (GpLe.freeAbove _ sp).fr).trans (dstReg_fr hd)
      exact FrD.pre (f1.trans (if_refine_fr _ _ _)) (bindDst_frD hb)

theorem syncRhs_fr (st : St) (k : Kind) (rhs : Slot) : Fr st (st.syncRhs k rhs).1 := by
  unfold St.syncRhs
  split
  · split
    · exact ⟨rfl, LiveEq.refl _⟩
    · exact Fr.refl _
  · exact Fr.refl _

theorem binReg_frD {st st' : St} {k : Kind} {dst : Option Slot} {lhs rhs sp : Slot} {ins : List Ins}
    (h : st.binReg k dst lhs rhs sp = some (st', ins)) : FrD st st' dst := by
  unfold St.binReg at h
  cases he : st.gpEnsure lhs [] with
  | none => simp [he] at h
  | some p =>
    obtain ⟨st1, i1, lgp, g1⟩ := p
    simp only [he] at h
    cases he2 : st1.gpEnsure rhs [lgp] with
    | none => simp [he2] at h
    | some p =>
      obtain ⟨st2, i2, rgp, g2⟩ := p
      simp only [he2] at h
      cases hd : (((st2.syncRhs k rhs).1.dropDst dst).freeAbove sp).dstRegBin k lhs lgp rgp
          ((st2.syncRhs k rhs).1.dirtyRegOf lhs).isSome with
      | none => simp [hd] at h
      | some p =>
        obtain ⟨st5, dgp, spill⟩ := p
        simp only [hd, Option.map_eq_some_iff, Prod.mk.injEq] at h
        obtain ⟨stf, hb, rfl, _⟩ := h
        have f5 : Fr ((((st2.syncRhs k rhs).1.dropDst dst)).freeAbove sp) st5 := by
          unfold St.dstRegBin at hd
          split_ifs at hd
          · exact allocReg_fr hd
          · exact dstReg_fr hd
          · exact dstReg_fr hd
        have f1 := ((((gpEnsure_fr he).trans (gpEnsure_fr he2)).trans (syncRhs_fr _ k rhs)).trans
          (dropDst_fr _ dst)).trans (GpLe.freeAbove _ sp).fr
        have f2 := ((f1.trans f5).trans (if_refine_fr _ g1 lhs)).trans
          (if_refine_fr _ (g2 && (lhs != rhs)) rhs)
        refine FrD.pre (f2.trans ?_) (bindDst_frD hb)
        by_cases hk : k.clobbers = true
        · rw [if_pos hk]; exact (GpLe.invalidate _ _).fr
        · rw [if_neg hk]; exact Fr.refl _

theorem binInt_frD {P : Prim} {st st' : St} {k : Kind} {dst : Option Slot} {lhs rhs sp : Slot} {ins : List Ins}
    (h : st.binInt P k dst lhs rhs sp = some (st', ins)) : FrD st st' dst := by
  unfold St.binInt at h
  cases hf : st.foldLits P k lhs rhs with
  | some v =>
    rw [hf] at h
    simp only [Option.map_eq_some_iff, Prod.mk.injEq] at h
    obtain ⟨stf, hd, rfl, rfl⟩ := h
    exact FrD.pre (dropDst_fr _ _) (defCOpt_frD hd)
  | none =>
    rw [hf] at h
    simp only at h
    unfold St.binGp at h
    cases hi : st.immForm k lhs rhs with
    | some p => obtain ⟨v, c⟩ := p; simp only [hi] at h; exact binImm_frD h
    | none => simp only [hi] at h; exact binReg_frD h

theorem guardRecv_fr {st st' : St} {s : Slot} {c : NCls} {ins : List Ins}
    (h : st.guardRecv s c = some (st', ins)) : Fr st st' := by
  unfold St.guardRecv at h
  cases c with
  | int =>
    simp only at h
    split_ifs at h
    · simp only [Option.some.injEq, Prod.mk.injEq] at h
      obtain ⟨rfl, _⟩ := h; exact Fr.refl _
    · cases he : st.gpEnsure s [] with
      | none => simp [he] at h
      | some p =>
        obtain ⟨st1, i1, r, g⟩ := p
        simp only [he] at h
        split_ifs at h
        · simp only [Option.some.injEq, Prod.mk.injEq] at h
          obtain ⟨rfl, _⟩ := h; exact (gpEnsure_fr he).trans (refineFix_fr _ _)
        · simp only [Option.some.injEq, Prod.mk.injEq] at h
          obtain ⟨rfl, _⟩ := h; exact gpEnsure_fr he
  | flt =>
    simp only at h
    split_ifs at h
    · simp only [Option.some.injEq, Prod.mk.injEq] at h
      obtain ⟨rfl, _⟩ := h; exact Fr.refl _
    · simp only [Option.map_eq_some_iff, Prod.mk.injEq] at h
      obtain ⟨⟨st1, i1, x⟩, hf, rfl, _⟩ := h
      exact loadFpr_fr hf

theorem copySlot_frD {st st' : St} {src dst : Slot} {ins : List Ins} (hl : (st.mode src).live = true)
    (hn : src < st.n) (h : st.copySlot src dst = some (st', ins)) : FrD st st' (some dst) := by
  unfold St.copySlot at h
  by_cases hsd : src = dst
  · rw [if_pos hsd] at h
    simp only [Option.some.injEq, Prod.mk.injEq] at h
    obtain ⟨rfl, rfl⟩ := h
    subst hsd
    refine ⟨rfl, fun s => ?_, fun d hd => by simp only [Option.some.injEq] at hd; rw [← hd]; exact hn⟩
    by_cases hs : s = src
    · subst hs; simp [hl]
    · simp [hs]
  · rw [if_neg hsd] at h
    cases hm : st.mode src with
    | F x =>
      simp only [hm, Option.map_eq_some_iff, Prod.mk.injEq] at h
      obtain ⟨st1, hd, rfl, rfl⟩ := h
      obtain ⟨_, hn, rfl⟩ := discard_some hd
      rw [clear_eq, setF_eq]; exact relink2_frD rfl hn
    | Sf x g =>
      simp only [hm, Option.map_eq_some_iff, Prod.mk.injEq] at h
      obtain ⟨st1, hd, rfl, rfl⟩ := h
      obtain ⟨_, hn, rfl⟩ := discard_some hd
      rw [clear_eq, setSf_eq]; exact relink2_frD rfl hn
    | S g =>
      simp only [hm, Option.map_eq_some_iff, Prod.mk.injEq] at h
      obtain ⟨st1, hd, rfl, rfl⟩ := h
      obtain ⟨_, hn, rfl⟩ := defS_some hd
      exact relink_frD rfl hn
    | C v =>
      simp only [hm, Option.map_eq_some_iff, Prod.mk.injEq] at h
      obtain ⟨st1, hd, rfl, rfl⟩ := h
      obtain ⟨_, hn, rfl⟩ := defC_some hd
      exact relink_frD rfl hn
    | V => simp [hm] at h
    | maybeNone => simp [hm] at h
    | none => simp [hm] at h

/-- The state describes no slot beyond the frame. -/
def Big (st : St) : Prop := ∀ s, (st.mode s).live = true → s < st.n

theorem copySlot_src {st st' : St} {src dst : Slot} {ins : List Ins} (hne : dst ≠ src)
    (h : st.copySlot src dst = some (st', ins)) : (st.mode src).live = true := by
  unfold St.copySlot at h
  rw [if_neg (fun h => hne h.symm)] at h
  cases hm : st.mode src <;> simp [hm, Mode.live] at h ⊢

/-- What an instruction reads is live, and what it leaves live. -/
theorem compile1_live {P : Prim} {st st' : St} {op : Op} {ins : List Ins} (hb : Big st)
    (hself : ∀ d s sp, op = .mov d s sp → d ≠ s)
    (h : st.compile1 P op = some (st', ins)) :
    (∀ s ∈ op.reads, (st.mode s).live = true) ∧ FrD st st' op.dst := by
  cases op with
  | lit d v sp =>
    have h' : (st.defC d v).map (fun st => (st, ([] : List Ins))) = some (st', ins) := by
      cases v with
      | obj a b => simp [St.compile1] at h
      | _ => exact h
    simp only [Option.map_eq_some_iff, Prod.mk.injEq] at h'
    obtain ⟨st1, hd, rfl, rfl⟩ := h'
    obtain ⟨_, hn, rfl⟩ := defC_some hd
    exact ⟨by simp [Op.reads], relink_frD rfl hn⟩
  | mov d s sp =>
    unfold St.compile1 at h
    simp only [Option.map_eq_some_iff, Prod.mk.injEq] at h
    obtain ⟨⟨st1, i2⟩, hc, rfl, rfl⟩ := h
    have hs : (st.mode s).live = true := copySlot_src (st := st.flushGp.1) (hself d s sp rfl) hc
    refine ⟨by simpa [Op.reads] using hs, ?_⟩
    have f : Fr st st.flushGp.1 := ⟨rfl, LiveEq.refl _⟩
    exact FrD.pre f (copySlot_frD hs (hb s hs) hc)
  | bin k dst l r icL icR sp =>
    unfold St.compile1 at h
    simp only at h
    cases hcl : st.opClass l icL with
    | none => simp [hcl] at h
    | some lc =>
      cases hcr : st.opClass r icR with
      | none => cases lc <;> simp [hcl, hcr] at h
      | some rc =>
        refine ⟨?_, ?_⟩
        · intro s hs
          simp only [Op.reads, List.mem_cons, List.not_mem_nil, or_false] at hs
          rcases hs with rfl | rfl
          · exact opClass_live hcl
          · exact opClass_live hcr
        · by_cases hint : lc = .int ∧ rc = .int
          · obtain ⟨rfl, rfl⟩ := hint
            simp only [hcl, hcr] at h
            cases hg : st.guardRecv l .int with
            | none => simp [hg] at h
            | some p =>
              obtain ⟨st1, i1⟩ := p
              simp only [hg, Option.map_eq_some_iff, Prod.mk.injEq] at h
              obtain ⟨⟨st2, i2⟩, hb, rfl, rfl⟩ := h
              exact FrD.pre (guardRecv_fr hg) (binInt_frD hb)
          · have h' : (if k.isArith then
                match st.guardRecv l lc with
                | none => none
                | some (st, i1) => (st.binFlt P k dst l r lc rc).map fun q => (q.1, i1 ++ q.2)
                else none) = some (st', ins) := by
              rw [hcl, hcr] at h
              cases lc <;> cases rc
              · exact absurd ⟨rfl, rfl⟩ hint
              · exact h
              · exact h
              · exact h
            split_ifs at h' with hk
            cases hg : st.guardRecv l lc with
            | none => simp [hg] at h'
            | some p =>
              obtain ⟨st1, i1⟩ := p
              simp only [hg, Option.map_eq_some_iff, Prod.mk.injEq] at h'
              obtain ⟨⟨st2, i2⟩, hb, rfl, rfl⟩ := h'
              exact FrD.pre (guardRecv_fr hg) (binFlt_frD hb)

theorem clearFrom_n : ∀ (k s : Nat) (st : St), (st.clearFrom k s).n = st.n := by
  intro k
  induction k with
  | zero => intro s st; rfl
  | succ k ih =>
    intro s st
    have e : st.clearFrom (k + 1) s = (st.relink s .V).clearFrom k (s + 1) := by
      unfold St.clearFrom; rw [clear_eq]; cases k <;> rfl
    rw [e, ih, (relink_fields _ _ _).1]

theorem step_live {P : Prim} {st st' : St} {op : Op} {ins : List Ins} (hb : Big st)
    (hself : ∀ d s sp, op = .mov d s sp → d ≠ s)
    (h : st.step P op = some (st', ins)) :
    (∀ s ∈ op.reads, (st.mode s).live = true) ∧ Big st' ∧ st'.n = st.n ∧
    (∀ s : Nat, (st'.mode s).live = true ↔ s < op.sp ∧ ((st.mode s).live = true ∨ some s = op.dst)) := by
  unfold St.step at h
  simp only [Option.map_eq_some_iff, Prod.mk.injEq] at h
  obtain ⟨⟨st1, i1⟩, hc, rfl, rfl⟩ := h
  obtain ⟨hr, f⟩ := compile1_live hb hself hc
  have hb1 : Big st1 := by
    intro s hs
    rw [f.live] at hs
    simp only [Bool.or_eq_true, decide_eq_true_eq] at hs
    rw [f.n]
    rcases hs with hs | hs
    · exact hb s hs
    · exact f.lt s hs.symm
  have hm : ∀ s : Nat, (((st1, i1).1.clearAbove op.sp).mode s).live = true ↔
      s < op.sp ∧ ((st.mode s).live = true ∨ some s = op.dst) := by
    intro s
    unfold St.clearAbove
    rw [clearFrom_mode]
    by_cases hh : (op.sp : Nat) ≤ s ∧ s < op.sp + ((st1, i1).1.n - op.sp)
    · rw [if_pos hh]
      simp only [Mode.live, Bool.false_eq_true, false_iff, not_and]
      intro h; exact absurd h (Nat.not_lt.2 hh.1)
    · rw [if_neg hh]
      have := f.live s
      simp only at *
      constructor
      · intro hl
        have hn := hb1 s hl
        rw [this] at hl
        simp only [Bool.or_eq_true, decide_eq_true_eq] at hl
        refine ⟨?_, hl⟩
        by_contra hlt
        apply hh
        have h1 := Nat.le_of_not_lt hlt
        refine ⟨h1, ?_⟩
        have hn : s < st1.n := hn
        have h2 : (op.sp : Nat) ≤ st1.n := Nat.le_trans h1 (Nat.le_of_lt hn)
        rw [Nat.add_sub_cancel' h2]; exact hn
      · rintro ⟨_, hl⟩
        rw [this]
        simpa using hl
  refine ⟨hr, ?_, ?_, hm⟩
  · intro s hs
    have := (hm s).1 hs
    show s < (St.clearFrom _ _ _).n
    rw [clearFrom_n]
    show s < st1.n
    rw [f.n]
    rcases this.2 with h | h
    · exact hb s h
    · exact f.lt s h.symm
  · show (St.clearFrom _ _ _).n = _
    rw [clearFrom_n]; exact f.n

end Verif.JitState
