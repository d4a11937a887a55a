import Verif.JitState.IntOp
import Mathlib.Tactic.Tauto

/-! From the snapshot on: destination register, guards, the operation itself and
the binding of its result. -/

namespace Verif.JitState

/-- the frame after writing an optional destination -/
def setD (L : Slot → Val) (dst : Option Slot) (v : Val) : Slot → Val :=
  match dst with | some d => upd L d v | none => L

/-- Slots that keep their value across an instruction. -/
def Keep (sp : Slot) (dst : Option Slot) (s : Slot) : Prop := s < sp ∧ some s ≠ dst

/-- How a choice of destination register behaves: some bindings are dropped after
their values were stored, the register is free, and it is not the dirty home of an
operand. -/
structure DstSpec (P : Prim) (st st' : St) (lhs rhs : Slot) (r : GReg)
    (spill : Option (GReg × Slot)) : Prop where
  le : GpLe st st'
  lt : r < nGp
  free : st'.gp r = none
  run : ∀ m L D, Rep P st m L D → ∃ m', exec P m (spillIns spill) = .ok m' ∧ m'.gp = m.gp ∧
    m'.fpr = m.fpr ∧ (∀ s, m'.stack s = m.stack s ∨ m'.stack s = L s) ∧ Rep P st' m' L D

theorem DstSpec.ofAlloc {P : Prim} {st st' : St} {lhs rhs : Slot} {pins : List GReg} {r : GReg}
    {spill : Option (GReg × Slot)} (h : st.allocReg pins = some (st', r, spill)) :
    DstSpec P st st' lhs rhs r spill ∧ r ∉ pins := by
  obtain ⟨hr, hp, rfl, rfl⟩ := St.allocReg_spec h
  refine ⟨⟨GpLe.freeReg st r, hr, by simp [St.freeReg], ?_⟩, hp⟩
  intro m L D rep
  exact freeReg_rep r rep

theorem dstReg_ok {P : Prim} {st st' : St} {lhs rhs : Slot} {lgp : GReg} {ld : Bool}
    {extra : List GReg} {r : GReg} {spill : Option (GReg × Slot)} (hl : lgp < nGp)
    (hclean : ld = false → noDirty st lhs)
    (h : st.dstReg lhs lgp ld extra = some (st', r, spill)) :
    DstSpec P st st' lhs rhs r spill ∧ r ∉ extra ∧ (r = lgp → ld = false) := by
  unfold St.dstReg at h
  split_ifs at h with h1 h2
  · simp only [Option.some.injEq, Prod.mk.injEq] at h
    obtain ⟨rfl, rfl, rfl⟩ := h
    simp only [Bool.and_eq_true, Bool.not_eq_true', List.contains_eq_mem, decide_eq_false_iff_not,
      Option.isNone_iff_eq_none] at h1
    refine ⟨⟨GpLe.refl _, hl, h1.2, ?_⟩, h1.1.2, fun _ => h1.1.1⟩
    intro m L D rep
    exact ⟨m, rfl, rfl, rfl, fun _ => .inl rfl, rep⟩
  · simp only [Option.some.injEq, Prod.mk.injEq] at h
    obtain ⟨rfl, rfl, rfl⟩ := h
    simp only [Bool.and_eq_true, Bool.not_eq_true', List.contains_eq_mem, decide_eq_false_iff_not,
      beq_iff_eq] at h2
    obtain ⟨_, hh, hg, hs⟩ := St.regOf_some h2.2
    refine ⟨⟨GpLe.invalidate _ _, hl, ?_, ?_⟩, h2.1.2, fun _ => h2.1.1⟩
    · simp [St.invalidate, hg, hs]
    · intro m L D rep
      refine ⟨m, rfl, rfl, rfl, fun _ => .inl rfl, ?_⟩
      refine (GpLe.invalidate st lhs).rep rep rfl (fun _ _ _ => rfl) (fun _ h => h) ?_
      intro s _
      refine .inr ⟨rfl, fun hn => ?_⟩
      by_cases hs' : s = lhs
      · subst hs'; exact hclean h2.1.1
      · exact noDirty_invalidate hs' hn
  · obtain ⟨h3, h4⟩ := DstSpec.ofAlloc (P := P) (lhs := lhs) (rhs := rhs) h
    simp only [List.mem_cons, not_or] at h4
    exact ⟨h3, h4.2, fun h => absurd h h4.1⟩

/-- Dropping the destination's cache and the dead temporaries. -/
theorem drop_rep {P : Prim} {st : St} {m : Mach} {L : Slot → Val} (dst : Option Slot) (sp : Slot)
    (rep : Rep P st m L All) :
    GpLe st ((st.dropDst dst).freeAbove sp) ∧ Rep P ((st.dropDst dst).freeAbove sp) m L (Keep sp dst) := by
  have hle : GpLe st (st.dropDst dst) := by
    cases dst with
    | none => exact GpLe.refl _
    | some d => exact GpLe.invalidate _ _
  have hle2 := hle.trans (GpLe.freeAbove (st.dropDst dst) sp)
  refine ⟨hle2, hle2.rep rep rfl (fun _ _ _ => rfl) (fun _ _ => trivial) ?_⟩
  intro s hs
  refine .inr ⟨rfl, fun hn => ?_⟩
  have h1 := noDirty_freeAbove hs.1 hn
  cases dst with
  | none => exact h1
  | some d => exact noDirty_invalidate (fun h => hs.2 (by rw [h])) h1

/-- The outcomes of the instruction that computes: a result in `dgp`, an overflow
exit that may have spoilt `dgp`, or an exit that spoilt at most the clobbered
register. -/
def FinSpec (P : Prim) (ins : Ins) (wb : WB) (dgp : GReg) (clob : Option GReg) (ov : Bool) (m : Mach)
    (res : Option Val) : Prop :=
  (∃ i g', exec1 P m ins = .ok { m with gp := g' } ∧ g' dgp = .fix i ∧
      (∀ q, q ≠ dgp → some q ≠ clob → g' q = m.gp q) ∧ res = some (.fix i)) ∨
  (∃ g', exec1 P m ins = .error (applyWB wb { m with gp := g' }) ∧
      (∀ q, q ≠ dgp → some q ≠ clob → g' q = m.gp q) ∧ res ≠ none ∧ ov = true) ∨
  (∃ g', exec1 P m ins = .error (applyWB wb { m with gp := g' }) ∧
      (∀ q, some q ≠ clob → g' q = m.gp q))

/-- What compiled code for one instruction must achieve. -/
def StepPost (P : Prim) (st st' : St) (m : Mach) (ins : List Ins) (L : Slot → Val) (reads : List Slot)
    (dst : Option Slot) (sp : Slot) (res : Option Val) : Prop :=
  (∃ m' v, exec P m ins = .ok m' ∧ res = some v ∧ WF st' ∧
      Rep P st' m' (setD L dst v) (fun s => s < sp)) ∨
  (∃ stk, exec P m ins = .error stk ∧
    ((∀ s, (st.mode s).live = true → stk s = L s) ∨
     (res ≠ none ∧ ∀ s, (st.mode s).live = true → Keep sp dst s ∨ s ∈ reads → stk s = L s)))

/-- binding the result -/
theorem bindDst_ok {P : Prim} {st st' : St} {m : Mach} {L : Slot → Val} {dst : Option Slot} {sp : Slot}
    {r : GReg} {i : Int} (w : WF st) (rep : Rep P st m L (Keep sp dst)) (hr : r < nGp)
    (hfree : st.gp r = none) (hv : m.gp r = .fix i) (h : st.bindDst dst r = some st') :
    WF st' ∧ Rep P st' m (setD L dst (.fix i)) (fun s => s < sp) ∧
    (∀ s, (st'.mode s).live = ((st.mode s).live || decide (some s = dst))) := by
  unfold St.bindDst at h
  cases dst with
  | none =>
    simp only [Option.some.injEq] at h
    subst h
    refine ⟨w, ⟨fun s hs => rep.slot s ⟨hs, by simp⟩, rep.hold⟩, by simp⟩
  | some d =>
    simp only at h
    cases hd : st.defS d .fixnum with
    | none => simp [hd] at h
    | some st1 =>
      obtain ⟨_, hdn, rfl⟩ := defS_some hd
      simp only [hd, Option.map_some, Option.some.injEq] at h
      subst h
      obtain ⟨hn, _, hgp, hmode, _⟩ := relink_fields st d (.S .fixnum)
      have w1 : WF (st.relink d (.S .fixnum)) := relink_wf w (.inl hdn) (by simp [Mode.reg])
      have hfree1 : (st.relink d (.S .fixnum)).gp r = none := by
        rw [hgp]
        unfold St.invalidate
        simp [hfree]
      have hnh : ∀ q h, (st.relink d (.S .fixnum)).gp q = some h → h.slot ≠ d := by
        intro q h hq; rw [hgp] at hq; exact St.invalidate_none hq
      refine ⟨?_, ?_, ?_⟩
      · refine bind_wf w1 hr (by rw [hn]; exact hdn) (fun _ => ⟨.fixnum, ?_⟩)
        rw [hmode]; simp
      · refine bind_rep (D := Keep sp (some d)) ?_ hfree1 ?_ hnh ?_ ?_
        · refine relink_rep rep (fun s hs => upd_ne _ _ hs) (fun s _ h => h) ?_
          intro hk; exact absurd rfl hk.2
        · simp [setD, hv]
        · intro t ht hne; exact ⟨ht, by simpa using hne⟩
        · intro _
          refine .inr ⟨rfl, .fixnum, ?_, ?_⟩
          · rw [hmode]; simp
          · simp [setD, Guarded.sat]
      · intro s
        rw [(bind_mode _ r d true).1, hmode]
        unfold upd
        split
        · next hs => subst hs; simp [Mode.live]
        · next hs => simp [hs]

/-- The guards between the snapshot and the operation. -/
theorem guards_ok {P : Prim} {m : Mach} {wb : WB} {l r : GReg} {g1 g2 : Bool} :
    (exec P m ((if g1 then [Ins.guard .fixnum l wb] else []) ++
        (if g2 then [Ins.guard .fixnum r wb] else [])) = .ok m ∧
      (g1 = true → ∃ i, m.gp l = .fix i) ∧ (g2 = true → ∃ i, m.gp r = .fix i)) ∨
    (exec P m ((if g1 then [Ins.guard .fixnum l wb] else []) ++
        (if g2 then [Ins.guard .fixnum r wb] else [])) = .error (applyWB wb m)) := by
  cases g1 <;> cases g2
  · left; simp [exec]
  · simp only [Bool.false_eq_true, if_false, if_true, List.nil_append, exec, exec1]
    by_cases h : Guarded.sat .fixnum (m.gp r) = true
    · left; simp [h]; exact sat_fixnum h
    · right; simp [h]
  · simp only [Bool.false_eq_true, if_false, if_true, List.append_nil, exec, exec1]
    by_cases h : Guarded.sat .fixnum (m.gp l) = true
    · left; simp [h]; exact sat_fixnum h
    · right; simp [h]
  · simp only [if_true, List.cons_append, List.nil_append, exec, exec1]
    by_cases h : Guarded.sat .fixnum (m.gp l) = true
    · by_cases h' : Guarded.sat .fixnum (m.gp r) = true
      · left; simp [h, h']; exact ⟨sat_fixnum h, sat_fixnum h'⟩
      · right; simp [h, h']
    · right; simp [h]

/-- conditional refine -/
theorem condRefine {P : Prim} {st : St} {m : Mach} {L : Slot → Val} {D : Slot → Prop} {s : Slot}
    {b : Bool} (w : WF st) (rep : Rep P st m L D) (h : b = true → ∃ i, L s = .fix i) :
    WF (if b then st.refineFix s else st) ∧ Rep P (if b then st.refineFix s else st) m L D ∧
    (if b then st.refineFix s else st).gp = st.gp ∧
    LiveEq st (if b then st.refineFix s else st) := by
  cases b with
  | false => exact ⟨w, rep, rfl, LiveEq.refl _⟩
  | true =>
    exact ⟨refineFix_wf w s, refineFix_rep rep (h rfl), (refineFix_fields st s).1, refineFix_live st s⟩

/-- From the snapshot to the bound result. -/
theorem tail_ok {P : Prim} {st3 st5 st' : St} {m3 : Mach} {L : Slot → Val} {dst : Option Slot}
    {lhs rhs sp : Slot} {lgp rgp dgp : GReg} {spill : Option (GReg × Slot)} {g1 g2 : Bool}
    {clob : Option GReg} {ov : Bool} {fin : Ins} {res : Option Val} {reads : List Slot}
    (w3 : WF st3) (rep3 : Rep P st3 m3 L All)
    (hL : ∃ h, st3.gp lgp = some h ∧ h.slot = lhs) (hR : ∃ h, st3.gp rgp = some h ∧ h.slot = rhs)
    (hreads : ∀ s ∈ reads, s = lhs ∨ s = rhs ∨ noDirty st3 s)
    (f1 : g1 = false → ∃ i, L lhs = .fix i)
    (f2 : g2 = false → lhs ≠ rhs → ∃ i, L rhs = .fix i)
    (hclob : ∀ q, clob = some q → q = rgp ∧ noDirty st3 rhs)
    (hdst : DstSpec P ((st3.dropDst dst).freeAbove sp) st5 lhs rhs dgp spill)
    (hdl : dgp = lgp → noDirty st3 lhs) (hdr : dgp = rgp → noDirty st3 rhs)
    (hsafe : ov = true → ∀ s, (Src.gp dgp, s) ∈ st3.wb → some s = dst ∨ sp ≤ s)
    (hfin : ∀ m : Mach, (∃ i, m.gp lgp = .fix i ∧ L lhs = .fix i) → (∃ i, m.gp rgp = .fix i ∧ L rhs = .fix i) →
      FinSpec P fin st3.wb dgp clob ov m res)
    (hb : ((if clob.isSome then
        ((if g2 then (if g1 then st5.refineFix lhs else st5).refineFix rhs
          else (if g1 then st5.refineFix lhs else st5)).invalidate rhs)
        else (if g2 then (if g1 then st5.refineFix lhs else st5).refineFix rhs
          else (if g1 then st5.refineFix lhs else st5)) : St).bindDst dst dgp) = some st') :
    StepPost P st3 st' m3 (spillIns spill ++ ((if g1 then [Ins.guard .fixnum lgp st3.wb] else []) ++
        (if g2 then [Ins.guard .fixnum rgp st3.wb] else [])) ++ [fin]) L reads dst sp res := by
  obtain ⟨hle4, rep4⟩ := drop_rep dst sp rep3
  obtain ⟨m5, e5, g5, f5, s5, rep5⟩ := hdst.run m3 L _ rep4
  have hle5 : GpLe st3 st5 := hle4.trans hdst.le
  have w5 := hle5.wf w3
  obtain ⟨hhl, hgl, hsl⟩ := hL
  obtain ⟨hhr, hgr, hsr⟩ := hR
  have vl : m5.gp lgp = L lhs := by rw [g5, rep3.hold lgp hhl hgl, hsl]
  have vr : m5.gp rgp = L rhs := by rw [g5, rep3.hold rgp hhr hgr, hsr]
  -- snapshots
  have snapAll : ∀ m', m'.fpr = m5.fpr → m'.stack = m5.stack →
      ∀ s, (st3.mode s).live = true →
      (∀ r h, st3.gp r = some h → h.dirty = true → h.slot = s → m'.gp r = m5.gp r) →
      applyWB st3.wb m' s = L s := by
    intro m' hf hs s hl hg
    refine applyWB_snap w3 (Snap_of_rep rep3 (m' := m') trivial hl (by rw [hf, f5]) ?_ ?_)
    · rw [hs]; exact s5 s
    · intro r h h1 h2 h3; rw [hg r h h1 h2 h3, g5]
  -- the state after a successful operation
  have finish : ∀ (i : Int) (g' : GReg → Val), (∃ i, L lhs = .fix i) → (∃ i, L rhs = .fix i) →
      g' dgp = .fix i → (∀ q, q ≠ dgp → some q ≠ clob → g' q = m5.gp q) →
      WF st' ∧ Rep P st' { m5 with gp := g' } (setD L dst (.fix i)) (fun s => s < sp) := by
    intro i g' hlf hrf hgd hgq
    obtain ⟨wa, ra, ga, _⟩ := condRefine (b := g1) w5 rep5 (fun _ => hlf)
    obtain ⟨wb, rb, gb, _⟩ := condRefine (s := rhs) (b := g2) wa ra (fun _ => hrf)
    have hgp : (if g2 then (if g1 then st5.refineFix lhs else st5).refineFix rhs
          else (if g1 then st5.refineFix lhs else st5)).gp = st5.gp := by rw [gb, ga]
    generalize hst : (if g2 then (if g1 then st5.refineFix lhs else st5).refineFix rhs
          else (if g1 then st5.refineFix lhs else st5)) = stb at *
    cases clob with
    | none =>
      simp only [Option.isSome_none, Bool.false_eq_true, if_false] at hb
      have rc : Rep P stb { m5 with gp := g' } L (Keep sp dst) := by
        refine (GpLe.refl stb).rep rb rfl ?_ (fun _ h => h) (fun _ _ => .inr ⟨rfl, id⟩)
        intro q h hq
        refine hgq q ?_ (by simp)
        rintro rfl
        rw [hgp, hdst.free] at hq; simp at hq
      obtain ⟨h1, h2, _⟩ := bindDst_ok wb rc hdst.lt (by rw [hgp]; exact hdst.free) hgd hb
      exact ⟨h1, h2⟩
    | some c =>
      simp only [Option.isSome_some, if_true] at hb
      obtain ⟨rfl, hnd⟩ := hclob c rfl
      have hfree' : (stb.invalidate rhs).gp dgp = none := by
        unfold St.invalidate
        simp [hgp, hdst.free]
      have rc : Rep P (stb.invalidate rhs) { m5 with gp := g' } L (Keep sp dst) := by
        refine (GpLe.invalidate stb rhs).rep rb rfl ?_ (fun _ h => h) ?_
        · intro q h hq
          refine hgq q ?_ ?_
          · rintro rfl
            rw [hfree'] at hq; simp at hq
          · intro hqc
            simp only [Option.some.injEq] at hqc
            subst hqc
            have h1 := St.invalidate_none hq
            have h2 := (GpLe.invalidate stb rhs).gp _ _ hq
            rw [hgp] at h2
            have h3 := hle5.gp _ _ h2
            rw [hgr] at h3
            simp only [Option.some.injEq] at h3
            subst h3
            exact h1 hsr
        · intro s _
          refine .inr ⟨rfl, fun hn => ?_⟩
          by_cases hs : s = rhs
          · subst hs
            intro r h hg hh
            rw [hgp] at hg
            exact hnd r h (hle5.gp r h hg) hh
          · exact noDirty_invalidate hs hn
      obtain ⟨h1, h2, _⟩ := bindDst_ok ((GpLe.invalidate stb rhs).wf wb) rc hdst.lt hfree' hgd hb
      exact ⟨h1, h2⟩
  rcases guards_ok (P := P) (m := m5) (wb := st3.wb) (l := lgp) (r := rgp) (g1 := g1) (g2 := g2) with
    ⟨eg, hgl1, hgr1⟩ | eg
  · have hlf : ∃ i, L lhs = .fix i := by
      cases g1 with
      | false => exact f1 rfl
      | true => obtain ⟨i, hi⟩ := hgl1 rfl; exact ⟨i, by rw [← vl, hi]⟩
    have hrf : ∃ i, L rhs = .fix i := by
      by_cases hlr : lhs = rhs
      · rw [← hlr]; exact hlf
      · cases g2 with
        | false => exact f2 rfl hlr
        | true => obtain ⟨i, hi⟩ := hgr1 rfl; exact ⟨i, by rw [← vr, hi]⟩
    have eall : exec P m3 (spillIns spill ++ ((if g1 then [Ins.guard .fixnum lgp st3.wb] else []) ++
        (if g2 then [Ins.guard .fixnum rgp st3.wb] else [])) ++ [fin]) = exec P m5 [fin] := by
      rw [List.append_assoc, exec_append_ok e5, exec_append_ok eg]
    have hf := hfin m5 (by obtain ⟨i, hi⟩ := hlf; exact ⟨i, by rw [vl, hi], hi⟩)
      (by obtain ⟨i, hi⟩ := hrf; exact ⟨i, by rw [vr, hi], hi⟩)
    rcases hf with ⟨i, g', he, hgd, hgq, hres⟩ | ⟨g', he, hgq, hres, hov⟩ | ⟨g', he, hgq⟩
    · obtain ⟨h1, h2⟩ := finish i g' hlf hrf hgd hgq
      refine .inl ⟨{ m5 with gp := g' }, .fix i, ?_, hres, h1, h2⟩
      rw [eall]; simp [exec, he]
    · refine .inr ⟨_, by rw [eall]; simp [exec, he]; rfl, .inr ⟨hres, ?_⟩⟩
      intro s hl hk
      refine snapAll { m5 with gp := g' } rfl rfl s hl ?_
      intro r h hg hd hs
      refine hgq r ?_ ?_
      · rintro rfl
        rcases hk with hk | hk
        · have hm := hsafe hov s (mem_wb.2 (.inr (.inr ⟨r, h, rfl, hdst.lt, hg, hd, hs⟩)))
          rcases hm with hm | hm
          · exact hk.2 hm
          · exact absurd hk.1 (Nat.not_lt.2 hm)
        · rcases hreads s hk with rfl | rfl | hnd
          · have hrl : r = lgp := w3.inj r lgp h hhl hg hgl (by rw [hs, hsl])
            have := hdl hrl r h hg hs
            rw [hd] at this; simp at this
          · have hrl : r = rgp := w3.inj r rgp h hhr hg hgr (by rw [hs, hsr])
            have := hdr hrl r h hg hs
            rw [hd] at this; simp at this
          · have := hnd r h hg hs
            rw [hd] at this; simp at this
      · intro hc
        obtain ⟨rfl, hnd⟩ := hclob r hc.symm
        rw [hgr] at hg
        simp only [Option.some.injEq] at hg
        subst hg
        have := hnd r hhr hgr hsr
        rw [hd] at this; simp at this
    · refine .inr ⟨_, by rw [eall]; simp [exec, he]; rfl, .inl ?_⟩
      intro s hl
      refine snapAll { m5 with gp := g' } rfl rfl s hl ?_
      intro r h hg hd hs
      refine hgq r ?_
      intro hc
      obtain ⟨rfl, hnd⟩ := hclob r hc.symm
      rw [hgr] at hg
      simp only [Option.some.injEq] at hg
      subst hg
      have := hnd r hhr hgr hsr
      rw [hd] at this; simp at this
  · refine .inr ⟨applyWB st3.wb m5, ?_, .inl ?_⟩
    · rw [List.append_assoc, exec_append_ok e5, exec_append_error eg]
    · intro s hl
      exact snapAll m5 rfl rfl s hl (fun _ _ _ _ _ => rfl)

end Verif.JitState
