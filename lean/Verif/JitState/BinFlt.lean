import Verif.JitState.Load

/-! Float operators, class guards, moves and literals. -/

namespace Verif.JitState

theorem wf_pin {st : St} {p : List FReg} : WF { st with pinned := p } ↔ WF st :=
  ⟨fun w => ⟨w.vf, w.inj, w.lt, w.dirty, w.big⟩, fun w => ⟨w.vf, w.inj, w.lt, w.dirty, w.big⟩⟩

theorem rep_pin {P : Prim} {st : St} {m : Mach} {L : Slot → Val} {D : Slot → Prop} {p : List FReg} :
    Rep P { st with pinned := p } m L D ↔ Rep P st m L D :=
  ⟨fun r => ⟨r.slot, r.hold⟩, fun r => ⟨r.slot, r.hold⟩⟩

theorem pin_eq (st : St) (x : FReg) : ∃ p, st.pin x = { st with pinned := p } ∧ x ∈ p ∧
    ∀ y ∈ st.pinned, y ∈ p := by
  unfold St.pin
  split
  · next h => exact ⟨st.pinned, rfl, h, fun _ h => h⟩
  · exact ⟨st.pinned ++ [x], rfl, by simp, fun y hy => by simp [hy]⟩

theorem unpin_eq (st : St) (x : FReg) : ∃ p, st.unpin x = { st with pinned := p } := ⟨_, rfl⟩

theorem tyOk_C {st : St} {s : Slot} {c : NCls} {v : Val} (hc : TyOk st s c) (hm : st.mode s = .C v)
    (hv : ∀ a b, v ≠ .obj a b) : c.sat v := by
  unfold TyOk at hc
  rw [hm] at hc
  cases v with
  | fix i =>
    cases c with
    | int => exact ⟨i, rfl⟩
    | flt => simp [Mode.guarded, Guarded.ofVal, NCls.g] at hc
  | flo f =>
    cases c with
    | int => simp [Mode.guarded, Guarded.ofVal, NCls.g] at hc
    | flt => exact ⟨f, rfl⟩
  | obj a b => exact absurd rfl (hv a b)

theorem arith_flt {P : Prim} (ok : P.Ok) {k : Kind} (hk : k.isArith = true) {lc rc : NCls}
    (hne : ¬ (lc = .int ∧ rc = .int)) {a b : Val} (ha : lc.sat a) (hb : rc.sat b) :
    P.arith k a b = some (.flo (P.fop k (toF P a) (toF P b))) := by
  cases lc <;> cases rc
  · exact absurd ⟨rfl, rfl⟩ hne
  · obtain ⟨i, rfl⟩ := ha; obtain ⟨f, rfl⟩ := hb; exact ok.if_ k i f hk
  · obtain ⟨i, rfl⟩ := ha; obtain ⟨f, rfl⟩ := hb; exact ok.fi k i f hk
  · obtain ⟨i, rfl⟩ := ha; obtain ⟨f, rfl⟩ := hb; exact ok.ff k i f hk

theorem reg_lt {st : St} (w : WF st) {s : Slot} {x : FReg} (h : (st.mode s).reg = some x) :
    x < st.vf.length := St.slots_lt ((w.vf x s).2 h)

theorem loadBin_ok {P : Prim} {st st' : St} {m : Mach} {L : Slot → Val} {lhs rhs : Slot} {lc rc : NCls}
    {ins : List Ins} {x y : FReg} (w : WF st) (rep : Rep P st m L All)
    (hl : TyOk st lhs lc) (hr : TyOk st rhs rc ∨ lhs = rhs) (hcc : lhs = rhs → lc = rc)
    (h : st.loadBin lhs rhs lc rc = some (st', ins, x, y)) :
    (∃ m', exec P m ins = .ok m' ∧ WF st' ∧ Rep P st' m' L All ∧ lc.sat (L lhs) ∧ rc.sat (L rhs) ∧
      (st'.mode lhs).reg = some x ∧ (st'.mode rhs).reg = some y ∧ st'.n = st.n ∧ LiveEq st st') ∨
    (∃ stk, exec P m ins = .error stk ∧ ∀ t, (st.mode t).live = true → stk t = L t) := by
  unfold St.loadBin at h
  by_cases hlr : lhs = rhs
  · subst hlr
    obtain rfl := hcc rfl
    rw [if_neg (by simp)] at h
    cases hf : st.fetchF lhs lc with
    | none => simp [hf] at h
    | some p =>
      obtain ⟨st1, i1, z⟩ := p
      simp only [hf, Option.some.injEq, Prod.mk.injEq] at h
      obtain ⟨rfl, rfl, rfl, rfl⟩ := h
      obtain ⟨hp, hs⟩ := fetchF_ok w rep hl hf
      rcases hp with ⟨m', e, w', r', hsat⟩ | hp
      · refine .inl ⟨m', e, w', r', hsat, hsat, hs.reg, hs.reg, hs.n, ?_⟩
        intro t
        by_cases ht : t = lhs
        · subst ht; exact hs.live
        · exact (hs.others t ht).live
      · exact .inr hp
  · rw [if_pos hlr] at h
    have hr : TyOk st rhs rc := by
      rcases hr with hr | hr
      · exact hr
      · exact absurd hr hlr
    cases hf : st.fetchF lhs lc with
    | none => simp [hf] at h
    | some p =>
      obtain ⟨st1, i1, z⟩ := p
      simp only [hf] at h
      obtain ⟨hp1, hs1⟩ := fetchF_ok w rep hl hf
      cases hf2 : (st1.pin z).fetchF rhs rc with
      | none => simp [hf2] at h
      | some p =>
        obtain ⟨st2, i2, z2⟩ := p
        simp only [hf2, Option.some.injEq, Prod.mk.injEq] at h
        obtain ⟨rfl, rfl, rfl, rfl⟩ := h
        obtain ⟨p1, hp1e, hzp, _⟩ := pin_eq st1 z
        obtain ⟨p2, hp2e⟩ := unpin_eq st2 z
        have hty1 : TyOk (st1.pin z) rhs rc := by
          rw [hp1e]
          exact (hs1.others rhs (fun h => hlr h.symm)).tyOk hr
        have le1 : LiveEq st st1 := by
          intro t
          by_cases ht : t = lhs
          · subst ht; exact hs1.live
          · exact (hs1.others t ht).live
        rcases hp1 with ⟨m1, e1, w1, rep1, hsat1⟩ | ⟨stk, e1, hstk⟩
        · obtain ⟨hp2, hs2⟩ := fetchF_ok (P := P) (m := m1) (L := L)
            (show WF (st1.pin z) by rw [hp1e]; exact wf_pin.2 w1)
            (by rw [hp1e]; exact rep_pin.2 rep1) hty1 hf2
          have hmode1 : (st1.pin z).mode = st1.mode := by rw [hp1e]
          rcases hp2 with ⟨m2, e2, w2, rep2, hsat2⟩ | ⟨stk, e2, hstk⟩
          · refine .inl ⟨m2, ?_, by rw [hp2e]; exact wf_pin.2 w2, by rw [hp2e]; exact rep_pin.2 rep2,
              hsat1, hsat2, ?_, ?_, ?_, ?_⟩
            · rw [exec_append_ok e1]; exact e2
            · rw [hp2e]
              have : st2.mode lhs = (st1.pin z).mode lhs := by
                refine hs2.pins lhs z hlr (by rw [hp1e]; exact hzp) ?_ (by rw [hmode1]; exact hs1.reg)
                rw [hp1e]; exact reg_lt w1 hs1.reg
              simp only
              rw [this, hmode1]; exact hs1.reg
            · rw [hp2e]; exact hs2.reg
            · rw [hp2e]
              have := hs2.n
              rw [hp1e] at this
              exact this.trans hs1.n
            · intro t
              rw [hp2e]
              simp only
              rw [← le1 t, ← hmode1]
              by_cases ht : t = rhs
              · subst ht; exact hs2.live
              · exact (hs2.others t ht).live
          · refine .inr ⟨stk, by rw [exec_append_ok e1]; exact e2, ?_⟩
            intro t ht
            refine hstk t ?_
            rw [hmode1, le1 t]; exact ht
        · exact .inr ⟨stk, exec_append_error e1, hstk⟩

theorem rep_weaken {P : Prim} {st : St} {m : Mach} {L : Slot → Val} {D D' : Slot → Prop}
    (rep : Rep P st m L D) (h : ∀ s, D' s → D s) : Rep P st m L D' :=
  ⟨fun s hs => rep.slot s (h s hs), rep.hold⟩

theorem defCOpt_ok {P : Prim} {st st' : St} {m : Mach} {L : Slot → Val} {dst : Option Slot} {v : Val}
    {D : Slot → Prop} (w : WF st) (rep : Rep P st m L (fun s => D s ∧ some s ≠ dst))
    (h : st.defCOpt dst v = some st') : WF st' ∧ Rep P st' m (setD L dst v) D := by
  unfold St.defCOpt at h
  cases dst with
  | none =>
    simp only [Option.some.injEq] at h
    subst h
    exact ⟨w, rep_weaken rep (fun s hs => ⟨hs, by simp⟩)⟩
  | some d =>
    obtain ⟨_, hdn, rfl⟩ := defC_some h
    refine ⟨relink_wf w (.inl hdn) (by simp [Mode.reg]), ?_⟩
    refine relink_rep rep (fun s hs => upd_ne _ _ hs) (fun s hs hD => ⟨hD, by simpa using hs⟩) ?_
    intro _
    simp [RepM, setD]

theorem binFlt_ok {P : Prim} (ok : P.Ok) {st st' : St} {m : Mach} {L : Slot → Val} {k : Kind}
    {dst : Option Slot} {lhs rhs sp : Slot} {lc rc : NCls} {ins : List Ins} {reads : List Slot} (w : WF st)
    (rep : Rep P st m L All) (hk : k.isArith = true) (hne : ¬ (lc = .int ∧ rc = .int))
    (hl : TyOk st lhs lc) (hr : TyOk st rhs rc ∨ lhs = rhs) (hcc : lhs = rhs → lc = rc)
    (hsafe : ∀ k d a b, Ins.fbin k d a b ∈ ins → ∀ t, t < sp → (st'.mode t).reg = some d → some t = dst)
    (h : st.binFlt P k dst lhs rhs lc rc = some (st', ins)) :
    StepPost P st st' m ins L reads dst sp (P.arith k (L lhs) (L rhs)) := by
  unfold St.binFlt at h
  cases hfold : st.foldFlt P k lhs rhs with
  | some f =>
    rw [hfold] at h
    unfold St.foldFlt at hfold
    simp only [Option.map_eq_some_iff, Prod.mk.injEq] at h
    obtain ⟨stf, hd, rfl, rfl⟩ := h
    have hco : ∀ s a, st.coerceF P s = some a → ∃ v, st.mode s = .C v ∧ (∀ p q, v ≠ .obj p q) ∧
        toF P v = a := by
      intro s a ha
      unfold St.coerceF at ha
      split at ha
      · next f hf => simp only [Option.some.injEq] at ha; exact ⟨_, hf, by simp, ha⟩
      · next f hf => simp only [Option.some.injEq] at ha; exact ⟨_, hf, by simp, ha⟩
      · simp at ha
    cases ha : st.coerceF P lhs with
    | none => simp [ha] at hfold
    | some a =>
      cases hb : st.coerceF P rhs with
      | none => simp [ha, hb] at hfold
      | some b =>
        simp only [ha, hb] at hfold
        obtain ⟨va, hma, hna, rfl⟩ := hco lhs a ha
        obtain ⟨vb, hmb, hnb, rfl⟩ := hco rhs b hb
        have hf : P.fop k (toF P va) (toF P vb) = f := by
          split at hfold
          · simpa using hfold
          · simp at hfold
        have hLa := rep_C rep trivial hma
        have hLb := rep_C rep trivial hmb
        have hr' : rc.sat vb := by
          rcases hr with hr | hr
          · exact tyOk_C hr hmb hnb
          · obtain rfl := hcc hr
            subst hr
            exact tyOk_C hl hmb hnb
        have hres := arith_flt ok hk hne (tyOk_C hl hma hna) hr'
        obtain ⟨h1, h2⟩ := defCOpt_ok (D := fun s => s < sp) w
          (rep_weaken rep (fun _ _ => trivial)) hd
        exact .inl ⟨m, _, rfl, by rw [hLa, hLb, hres, hf], h1, h2⟩
  | none =>
    rw [hfold] at h
    simp only at h
    cases hlb : st.loadBin lhs rhs lc rc with
    | none => simp [hlb] at h
    | some p =>
      obtain ⟨st2, i1, x, y⟩ := p
      simp only [hlb] at h
      rcases loadBin_ok w rep hl hr hcc hlb with
        ⟨m2, e2, w2, rep2, hsl, hsr, hrx, hry, hn2, le2⟩ | ⟨stk, e2, hstk⟩
      · have hres := arith_flt ok hk hne hsl hsr
        have hx : m2.fpr x = toF P (L lhs) := rep_reg (rep2.slot lhs trivial) hrx
        have hy : m2.fpr y = toF P (L rhs) := rep_reg (rep2.slot rhs trivial) hry
        cases dst with
        | none =>
          simp only [Option.some.injEq, Prod.mk.injEq] at h
          obtain ⟨rfl, rfl⟩ := h
          exact .inl ⟨m2, _, e2, hres, w2, rep_weaken rep2 (fun _ _ => trivial)⟩
        | some d =>
          simp only at h
          obtain ⟨p1, hp1, _, hsub⟩ := pin_eq st2 x
          obtain ⟨p2, hp2, _, _⟩ := pin_eq (st2.pin x) y
          generalize hst3 : (st2.pin x).pin y = st3 at *
          have e3 : st3 = { st2 with pinned := p2 } := by rw [hp2, hp1]
          have w3 : WF st3 := by rw [e3]; exact wf_pin.2 w2
          have rep3 : Rep P st3 m2 L All := by rw [e3]; exact rep_pin.2 rep2
          by_cases hdl : d = lhs
          · rw [if_pos hdl] at h
            cases hdf : st3.defFWith d x with
            | none => simp [hdf] at h
            | some st4 =>
              simp only [hdf, Option.map_some, Option.some.injEq, Prod.mk.injEq] at h
              obtain ⟨rfl, rfl⟩ := h
              unfold St.defFWith at hdf
              cases hdd : st3.discard d with
              | none => simp [hdd] at hdf
              | some st5 =>
                obtain ⟨_, hdn, rfl⟩ := discard_some hdd
                simp only [hdd, Option.map_some, Option.some.injEq] at hdf
                subst hdf
                rw [clear_eq, setF_eq] at hsafe ⊢
                have w5 : WF (st3.relink d .V) := relink_wf w3 (.inr rfl) (by simp [Mode.reg])
                obtain ⟨n5, _, _, m5, v5⟩ := relink_fields st3 d .V
                obtain ⟨n6, _, _, m6, v6⟩ := relink_fields (st3.relink d .V) d (.F x)
                have hxl : x < st3.vf.length := by rw [e3]; exact reg_lt w2 hrx
                have w6 : WF ((st3.relink d .V).relink d (.F x)) := by
                  refine relink_wf w5 (.inl (by rw [n5]; exact hdn)) ?_
                  intro z hz
                  simp only [Mode.reg, Option.some.injEq] at hz
                  subst hz
                  rw [v5]; exact hxl
                have hsf : ∀ t, t < sp → t ≠ d → (st3.mode t).reg ≠ some x := by
                  intro t ht htd hreg
                  have := hsafe k x x y (by simp) t ht (by
                    show (((st3.relink d .V).relink d (.F x)).mode t).reg = some x
                    rw [m6, upd_ne _ _ htd, m5, upd_ne _ _ htd]; exact hreg)
                  simp only [Option.some.injEq] at this
                  exact htd this
                refine .inl ⟨{ m2 with fpr := upd m2.fpr x (P.fop k (m2.fpr x) (m2.fpr y)) },
                  .flo (P.fop k (m2.fpr x) (m2.fpr y)), ?_, ?_, ?_, ?_⟩
                · rw [exec_append_ok e2]; rfl
                · rw [hres, hx, hy]
                · exact wf_pin.2 (wf_pin.2 w6)
                · refine rep_pin.2 (rep_pin.2 ?_)
                  have rep5 : Rep P (st3.relink d .V) m2 L (fun s => s < sp ∧ s ≠ d) :=
                    relink_rep rep3 (fun _ _ => rfl) (fun _ _ _ => trivial) (fun h => absurd rfl h.2)
                  have rep5' := rep_fpr (x := x) (f := P.fop k (m2.fpr x) (m2.fpr y)) rep5 (by
                    rintro t ⟨ht, htd⟩
                    rw [m5, upd_ne _ _ htd]
                    exact hsf t ht htd)
                  refine relink_rep rep5' (fun s hs => upd_ne _ _ hs) (fun s hs hD => ⟨hD, hs⟩) ?_
                  intro _
                  simp [RepM, setD]
          · rw [if_neg hdl] at h
            cases hdf : st3.defF d with
            | none => simp [hdf] at h
            | some q =>
              obtain ⟨st4, z⟩ := q
              simp only [hdf, Option.map_some, Option.some.injEq, Prod.mk.injEq] at h
              obtain ⟨rfl, rfl⟩ := h
              unfold St.defF at hdf
              simp only at hdf
              obtain ⟨wa, a⟩ := alloc_spec w3
              cases hdd : st3.alloc.1.discard d with
              | none => simp [hdd] at hdf
              | some st5 =>
                obtain ⟨_, hdn, rfl⟩ := discard_some hdd
                simp only [hdd, Option.map_some, Option.some.injEq, Prod.mk.injEq] at hdf
                obtain ⟨rfl, rfl⟩ := hdf
                rw [clear_eq, setF_eq]
                have w5 : WF (st3.alloc.1.relink d .V) := relink_wf wa (.inr rfl) (by simp [Mode.reg])
                obtain ⟨n5, _, _, m5, v5⟩ := relink_fields st3.alloc.1 d .V
                have w6 : WF ((st3.alloc.1.relink d .V).relink d (.F st3.alloc.2)) := by
                  refine relink_wf w5 (.inl (by rw [n5]; exact hdn)) ?_
                  intro z hz
                  simp only [Mode.reg, Option.some.injEq] at hz
                  subst hz
                  rw [v5]; exact a.lt
                refine .inl ⟨{ m2 with fpr := upd m2.fpr st3.alloc.2 (P.fop k (m2.fpr x) (m2.fpr y)) },
                  .flo (P.fop k (m2.fpr x) (m2.fpr y)), ?_, ?_, ?_, ?_⟩
                · rw [exec_append_ok e2]; rfl
                · rw [hres, hx, hy]
                · exact wf_pin.2 (wf_pin.2 w6)
                · refine rep_pin.2 (rep_pin.2 ?_)
                  have repa : Rep P st3.alloc.1
                      { m2 with fpr := upd m2.fpr st3.alloc.2 (P.fop k (m2.fpr x) (m2.fpr y)) } L All :=
                    a.rep rep3 (fun _ _ _ => rfl) rfl (fun y hy => upd_ne _ _ hy)
                  have rep5 : Rep P (st3.alloc.1.relink d .V)
                      { m2 with fpr := upd m2.fpr st3.alloc.2 (P.fop k (m2.fpr x) (m2.fpr y)) } L
                      (fun s => s < sp ∧ s ≠ d) :=
                    relink_rep repa (fun _ _ => rfl) (fun _ _ _ => trivial) (fun h => absurd rfl h.2)
                  refine relink_rep rep5 (fun s hs => upd_ne _ _ hs) (fun s hs hD => ⟨hD, hs⟩) ?_
                  intro _
                  simp [RepM, setD]
      · have herr : exec P m ins = .error stk := by
          cases dst with
          | none =>
            simp only [Option.some.injEq, Prod.mk.injEq] at h
            rw [← h.2]; exact e2
          | some d =>
            simp only at h
            split at h
            · simp only [Option.map_eq_some_iff, Prod.mk.injEq] at h
              obtain ⟨_, _, _, rfl⟩ := h
              exact exec_append_error e2
            · simp only [Option.map_eq_some_iff, Prod.mk.injEq] at h
              obtain ⟨_, _, _, rfl⟩ := h
              exact exec_append_error e2
        exact .inr ⟨stk, herr, .inl hstk⟩

end Verif.JitState
