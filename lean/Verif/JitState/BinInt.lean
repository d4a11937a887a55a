import Verif.JitState.Tail
import Mathlib.Tactic.Linarith

/-! Integer operators as a whole. -/

namespace Verif.JitState

/-- An instruction whose overflow exit would store a spoilt register over a slot
that must survive. -/
def Ins.spoils (dst : Option Slot) (sp : Slot) : Ins → Bool
  | .bin k d _ _ wb =>
    (k = .add ∨ k = .sub ∨ k = .mul) ∧
      wb.any fun p => p.1 = .gp d ∧ some p.2 ≠ dst ∧ p.2 < sp
  | .dbl d _ wb => wb.any fun p => p.1 = .gp d ∧ some p.2 ≠ dst ∧ p.2 < sp
  | .imm _ d _ _ wb => wb.any fun p => p.1 = .gp d ∧ some p.2 ≠ dst ∧ p.2 < sp
  | _ => false

theorem spoils_any {wb : WB} {d : GReg} {dst : Option Slot} {sp : Slot}
    (h : (wb.any fun p => p.1 = .gp d ∧ some p.2 ≠ dst ∧ p.2 < sp) = false) :
    ∀ s, (Src.gp d, s) ∈ wb → some s = dst ∨ sp ≤ s := by
  intro s hs
  rw [List.any_eq_false] at h
  have := h _ hs
  simp only [true_and, decide_eq_true_eq, not_and, Nat.not_lt] at this
  by_cases hd : some s = dst
  · exact .inl hd
  · exact .inr (this hd)

theorem StepPost.prepend {P : Prim} {st st3 st' : St} {m m3 : Mach} {i1 ins : List Ins}
    {L : Slot → Val} {reads : List Slot} {dst : Option Slot} {sp : Slot} {res : Option Val}
    (hl : LiveEq st st3) (he : exec P m i1 = .ok m3)
    (h : StepPost P st3 st' m3 ins L reads dst sp res) :
    StepPost P st st' m (i1 ++ ins) L reads dst sp res := by
  rcases h with ⟨m', v, e, h⟩ | ⟨stk, e, h⟩
  · exact .inl ⟨m', v, by rw [exec_append_ok he]; exact e, h⟩
  · refine .inr ⟨stk, by rw [exec_append_ok he]; exact e, ?_⟩
    rcases h with h | ⟨h1, h⟩
    · exact .inl fun s hs => h s (by rw [hl s]; exact hs)
    · exact .inr ⟨h1, fun s hs => h s (by rw [hl s]; exact hs)⟩

theorem wf_C_noDirty {st : St} (w : WF st) {s : Slot} {v : Val} (h : st.mode s = .C v) :
    noDirty st s := by
  intro r hh hg hs
  by_contra hd
  obtain ⟨g, hg'⟩ := w.dirty r hh hg (by simpa using hd)
  rw [hs, h] at hg'
  simp at hg'

theorem wrap63_id {i : Int} (h : inFix i = true) : wrap63 i = i := by
  unfold inFix at h
  simp only [Bool.and_eq_true, decide_eq_true_eq] at h
  unfold wrap63
  rw [Int.emod_eq_of_lt] <;> omega

theorem fdiv_inFix {a b : Int} (ha : inFix a = true) (hb : inFix b = true) (hb0 : b ≠ 0)
    (hov : ¬ (a = -(2 ^ 62) ∧ b = -1)) : inFix (a.fdiv b) = true := by
  unfold inFix at *
  simp only [Bool.and_eq_true, decide_eq_true_eq] at *
  rw [Int.fdiv_eq_ediv]
  by_cases hpos : 0 < b
  · have h1 : 0 ≤ b ∨ b ∣ a := .inl (by omega)
    rw [if_pos h1]
    have h2 : a / b ≤ 2 ^ 62 - 1 := by
      apply Int.ediv_le_of_le_mul hpos
      nlinarith
    have h3 : -(2 ^ 62) ≤ a / b := by
      rw [Int.le_ediv_iff_mul_le hpos]
      nlinarith
    omega
  · obtain ⟨c, rfl⟩ : ∃ c, b = -c := ⟨-b, by omega⟩
    have hc : 0 < c := by omega
    rw [Int.ediv_neg]
    have hm := Int.mul_ediv_add_emod a c
    have hm1 := Int.emod_nonneg a (b := c) (by omega)
    have hm2 := Int.emod_lt_of_pos a hc
    have h2 : a / c ≤ 2 ^ 62 - 1 := by
      apply Int.ediv_le_of_le_mul hc
      nlinarith
    by_cases hc1 : c = 1
    · subst hc1
      have : ¬ a = -(2 ^ 62) := fun h => hov ⟨h, rfl⟩
      rw [if_pos (Or.inr ⟨-a, by omega⟩)]
      simp only [Int.ediv_one]
      omega
    · have h3 : -(2 ^ 62) + 1 ≤ a / c := by
        rw [Int.le_ediv_iff_mul_le hc]
        have : 2 ≤ c := by omega
        nlinarith
      split <;> omega

/-- the register-form instruction -/
theorem fin_bin {P : Prim} (ok : P.Ok) {k : Kind} {d l r : GReg} {wb : WB} {m : Mach} {a b : Int}
    (ha : m.gp l = .fix a) (hb : m.gp r = .fix b) (ra : inFix a = true) (rb : inFix b = true)
    (hdiv : k = .div → ¬ (a = -(2 ^ 62) ∧ b = -1)) :
    FinSpec P (.bin k d l r wb) wb d (if k.clobbers then some r else none)
      (decide (k = .add ∨ k = .sub ∨ k = .mul)) m (P.arith k (.fix a) (.fix b)) := by
  cases k with
  | add =>
    simp only [Kind.clobbers, Bool.false_eq_true, if_false]
    by_cases h : inFix (a + b) = true
    · left
      refine ⟨a + b, upd m.gp d (.fix (a + b)), by simp [exec1, ha, hb, Val.int, h], by simp, ?_, (ok.add a b).2 h⟩
      intro q hq _; exact upd_ne _ _ hq
    · right; left
      refine ⟨upd m.gp d (P.junk .add a b), by simp [exec1, ha, hb, Val.int, h], ?_, (ok.add a b).1, rfl⟩
      intro q hq _; exact upd_ne _ _ hq
  | sub =>
    simp only [Kind.clobbers, Bool.false_eq_true, if_false]
    by_cases h : inFix (a - b) = true
    · left
      refine ⟨a - b, upd m.gp d (.fix (a - b)), by simp [exec1, ha, hb, Val.int, h], by simp, ?_, (ok.sub a b).2 h⟩
      intro q hq _; exact upd_ne _ _ hq
    · right; left
      refine ⟨upd m.gp d (P.junk .sub a b), by simp [exec1, ha, hb, Val.int, h], ?_, (ok.sub a b).1, rfl⟩
      intro q hq _; exact upd_ne _ _ hq
  | mul =>
    simp only [Kind.clobbers, if_true]
    by_cases h : inFix (a * b) = true
    · left
      refine ⟨a * b, upd (upd m.gp r (P.junkR b)) d (.fix (a * b)), by simp [exec1, ha, hb, Val.int, h],
        by simp, ?_, (ok.mul a b).2 h⟩
      intro q hq hc
      rw [upd_ne _ _ hq, upd_ne _ _ (fun hh => hc (by rw [hh]))]
    · right; left
      refine ⟨upd (upd m.gp r (P.junkR b)) d (P.junk .mul a b), by simp [exec1, ha, hb, Val.int, h], ?_,
        (ok.mul a b).1, rfl⟩
      intro q hq hc
      rw [upd_ne _ _ hq, upd_ne _ _ (fun hh => hc (by rw [hh]))]
  | div =>
    simp only [Kind.clobbers, if_true]
    by_cases h : b = 0
    · right; right
      refine ⟨upd m.gp r (P.junkR b), by simp [exec1, hb, Val.int, h], ?_⟩
      intro q hc
      exact upd_ne _ _ (fun hh => hc (by rw [hh]))
    · left
      have hin := fdiv_inFix ra rb h (hdiv rfl)
      refine ⟨a.fdiv b, upd (upd m.gp r (P.junkR b)) d (.fix (a.fdiv b)), by
        simp [exec1, ha, hb, Val.int, h, wrap63_id hin], by simp, ?_, ok.div a b h hin⟩
      intro q hq hc
      rw [upd_ne _ _ hq, upd_ne _ _ (fun hh => hc (by rw [hh]))]
  | band =>
    left
    refine ⟨P.bit .band a b, upd m.gp d (.fix (P.bit .band a b)), by simp [exec1, ha, hb, Val.int], by simp, ?_,
      (ok.bit .band a b rfl ra rb).2⟩
    intro q hq _; exact upd_ne _ _ hq
  | bor =>
    left
    refine ⟨P.bit .bor a b, upd m.gp d (.fix (P.bit .bor a b)), by simp [exec1, ha, hb, Val.int], by simp, ?_,
      (ok.bit .bor a b rfl ra rb).2⟩
    intro q hq _; exact upd_ne _ _ hq
  | bxor =>
    left
    refine ⟨P.bit .bxor a b, upd m.gp d (.fix (P.bit .bxor a b)), by simp [exec1, ha, hb, Val.int], by simp, ?_,
      (ok.bit .bxor a b rfl ra rb).2⟩
    intro q hq _; exact upd_ne _ _ hq

theorem fin_dbl {P : Prim} (ok : P.Ok) {d l : GReg} {wb : WB} {m : Mach} {a : Int}
    (ha : m.gp l = .fix a) :
    FinSpec P (.dbl d l wb) wb d none true m (P.arith .add (.fix a) (.fix a)) := by
  by_cases h : inFix (a + a) = true
  · left
    refine ⟨a + a, upd m.gp d (.fix (a + a)), by simp [exec1, ha, Val.int, h], by simp, ?_, (ok.add a a).2 h⟩
    intro q hq _; exact upd_ne _ _ hq
  · right; left
    refine ⟨upd m.gp d (P.junk .add a a), by simp [exec1, ha, Val.int, h], ?_, (ok.add a a).1, rfl⟩
    intro q hq _; exact upd_ne _ _ hq

theorem fin_imm {P : Prim} (ok : P.Ok) {k : Kind} {d l : GReg} {c : Int} {wb : WB} {m : Mach} {a : Int}
    {x y : Val} (hk : (k = .add ∧ ((x = .fix a ∧ y = .fix c) ∨ (x = .fix c ∧ y = .fix a))) ∨
      (k = .sub ∧ x = .fix a ∧ y = .fix c))
    (ha : m.gp l = .fix a) :
    FinSpec P (.imm k d l c wb) wb d none true m (P.arith k x y) := by
  rcases hk with ⟨rfl, hxy⟩ | ⟨rfl, rfl, rfl⟩
  · have hres : P.arith .add x y ≠ none ∧
        (inFix (a + c) = true → P.arith .add x y = some (.fix (a + c))) := by
      rcases hxy with ⟨rfl, rfl⟩ | ⟨rfl, rfl⟩
      · exact ok.add a c
      · have := ok.add c a
        rw [Int.add_comm] at this; exact this
    by_cases h : inFix (a + c) = true
    · left
      refine ⟨a + c, upd m.gp d (.fix (a + c)), by simp [exec1, ha, Val.int, h], by simp, ?_, hres.2 h⟩
      intro q hq _; exact upd_ne _ _ hq
    · right; left
      refine ⟨upd m.gp d (P.junk .add a c), by simp [exec1, ha, Val.int, h], ?_, hres.1, rfl⟩
      intro q hq _; exact upd_ne _ _ hq
  · by_cases h : inFix (a - c) = true
    · left
      refine ⟨a - c, upd m.gp d (.fix (a - c)), by simp [exec1, ha, Val.int, h], by simp, ?_, (ok.sub a c).2 h⟩
      intro q hq _; exact upd_ne _ _ hq
    · right; left
      refine ⟨upd m.gp d (P.junk .sub a c), by simp [exec1, ha, Val.int, h], ?_, (ok.sub a c).1, rfl⟩
      intro q hq _; exact upd_ne _ _ hq

theorem fixLit_some {st : St} {s : Slot} {c : Int} (h : st.fixLit s = some c) :
    st.mode s = .C (.fix c) := by
  unfold St.fixLit at h
  split at h
  · next j hj => simp only [Option.some.injEq] at h; subst h; exact hj
  · simp at h

theorem rep_C {P : Prim} {st : St} {m : Mach} {L : Slot → Val} {D : Slot → Prop} {s : Slot} {v : Val}
    (rep : Rep P st m L D) (hD : D s) (h : st.mode s = .C v) : L s = v := by
  have := rep.slot s hD
  unfold RepSlot at this
  rw [h] at this; exact this

theorem writeBackSlot_C {st st' : St} {s t : Slot} {ins : List Ins} {v : Val}
    (h : st.writeBackSlot s = some (st', ins)) (ht : st.mode t = .C v) : st'.mode t = .C v := by
  unfold St.writeBackSlot at h
  have hmi : (st.invalidate s).mode = st.mode := rfl
  simp only [hmi] at h
  cases hm : st.mode s with
  | F x =>
    simp only [hm, Option.some.injEq, Prod.mk.injEq] at h
    obtain ⟨rfl, rfl⟩ := h
    rw [setSf_eq, (relink_fields _ _ _).2.2.2.1, upd_ne, hmi]
    · exact ht
    · rintro rfl; rw [hm] at ht; simp at ht
  | V => simp [hm] at h
  | none => simp [hm] at h
  | _ => simp only [hm, Option.some.injEq, Prod.mk.injEq] at h; obtain ⟨rfl, rfl⟩ := h; exact ht

theorem gpEnsure_C {st st' : St} {s t : Slot} {pins : List GReg} {ins : List Ins} {r : GReg} {g : Bool}
    {v : Val} (h : st.gpEnsure s pins = some (st', ins, r, g)) (ht : st.mode t = .C v) :
    st'.mode t = .C v := by
  unfold St.gpEnsure at h
  cases hr : st.regOf s with
  | some q =>
    simp only [hr, Option.some.injEq, Prod.mk.injEq] at h
    obtain ⟨rfl, _⟩ := h
    exact ht
  | none =>
    simp only [hr] at h
    cases hc : st.fixLit s with
    | some i =>
      simp only [hc] at h
      cases ha : st.allocReg pins with
      | none => simp [ha] at h
      | some p =>
        obtain ⟨st1, q, sp⟩ := p
        simp only [ha, Option.some.injEq, Prod.mk.injEq] at h
        obtain ⟨rfl, _⟩ := h
        obtain ⟨_, _, rfl, _⟩ := St.allocReg_spec ha
        exact ht
    | none =>
      simp only [hc] at h
      cases hw : st.writeBackSlot s with
      | none => simp [hw] at h
      | some p =>
        obtain ⟨st2, ins2⟩ := p
        simp only [hw] at h
        have := writeBackSlot_C hw ht
        cases ha : st2.allocReg pins with
        | none => simp [ha] at h
        | some p =>
          obtain ⟨st1, q, sp⟩ := p
          simp only [ha, Option.some.injEq, Prod.mk.injEq] at h
          obtain ⟨rfl, _⟩ := h
          obtain ⟨_, _, rfl, _⟩ := St.allocReg_spec ha
          exact this

theorem noDirty_le {st st' : St} (h : GpLe st st') {s : Slot} (hn : noDirty st s) : noDirty st' s :=
  fun r hh hg hs => hn r hh (h.gp r hh hg) hs

theorem binImm_ok {P : Prim} (ok : P.Ok) {st st' : St} {m : Mach} {L : Slot → Val} {k : Kind}
    {dst : Option Slot} {v lhs rhs sp : Slot} {c : Int} {ins : List Ins} (w : WF st)
    (rep : Rep P st m L All) (hl : (st.mode v).live = true)
    (hop : (k = .add ∧ ((v = lhs ∧ st.mode rhs = .C (.fix c)) ∨ (v = rhs ∧ st.mode lhs = .C (.fix c)))) ∨
      (k = .sub ∧ v = lhs ∧ st.mode rhs = .C (.fix c)))
    (hsafe : ∀ i ∈ ins, i.spoils dst sp = false)
    (h : st.binImm k dst v c sp = some (st', ins)) :
    StepPost P st st' m ins L [lhs, rhs] dst sp (P.arith k (L lhs) (L rhs)) := by
  unfold St.binImm at h
  cases he : st.gpEnsure v [] with
  | none => simp [he] at h
  | some p =>
    obtain ⟨st3, i1, lgp, g1⟩ := p
    simp only [he] at h
    obtain ⟨m3, e3, w3, rep3, le3, hL, hf1, _, _, _⟩ := gpEnsure_ok w rep hl he
    cases hd : ((st3.dropDst dst).freeAbove sp).dstReg v lgp (st3.dirtyRegOf v).isSome [] with
    | none => simp [hd] at h
    | some p =>
      obtain ⟨st5, dgp, spill⟩ := p
      simp only [hd] at h
      cases hb : (if g1 = true then st5.refineFix v else st5).bindDst dst dgp with
      | none => simp [hb] at h
      | some stf =>
        simp only [hb, Option.map_some, Option.some.injEq, Prod.mk.injEq] at h
        obtain ⟨rfl, rfl⟩ := h
        have hclean : (st3.dirtyRegOf v).isSome = false → noDirty st3 v := by
          intro hh
          exact St.dirtyRegOf_none w3 (by simpa using hh)
        have hle := (drop_rep (P := P) dst sp rep3).1
        have hlt : lgp < nGp := by
          obtain ⟨hh, h1, _⟩ := hL
          exact (w3.lt lgp hh h1).1
        obtain ⟨hds, _, hdl⟩ := dstReg_ok (P := P) (rhs := v) hlt (fun h => noDirty_le hle (hclean h)) hd
        have hins : i1 ++ spillIns spill ++ (if g1 then [Ins.guard .fixnum lgp st3.wb] else [])
            ++ [Ins.imm k dgp lgp c st3.wb] =
            i1 ++ (spillIns spill ++ ((if g1 then [Ins.guard .fixnum lgp st3.wb] else []) ++
              (if false then [Ins.guard .fixnum lgp st3.wb] else [])) ++ [Ins.imm k dgp lgp c st3.wb]) := by
          simp
        rw [hins]
        have hlit : ∀ t, st.mode t = .C (.fix c) → noDirty st3 t := fun t ht =>
          wf_C_noDirty w3 (gpEnsure_C he ht)
        refine StepPost.prepend le3 e3 (tail_ok (g2 := false) (clob := none) (ov := true) (lhs := v)
          (rhs := v) w3 rep3 hL hL ?_ hf1 (fun _ h => absurd rfl h) (by simp) hds
          (fun h => hclean (hdl h)) (fun h => hclean (hdl h)) ?_ ?_ ?_)
        · intro s hs
          simp only [List.mem_cons, List.not_mem_nil, or_false] at hs
          rcases hop with ⟨rfl, ⟨rfl, hr⟩ | ⟨rfl, hr⟩⟩ | ⟨rfl, rfl, hr⟩
          · rcases hs with rfl | rfl
            · exact .inl rfl
            · exact .inr (.inr (hlit _ hr))
          · rcases hs with rfl | rfl
            · exact .inr (.inr (hlit _ hr))
            · exact .inl rfl
          · rcases hs with rfl | rfl
            · exact .inl rfl
            · exact .inr (.inr (hlit _ hr))
        · intro _
          have := hsafe (.imm k dgp lgp c st3.wb) (by simp)
          exact spoils_any this
        · rintro mm ⟨a, hma, hLa⟩ _
          refine fin_imm ok ?_ hma
          rcases hop with ⟨rfl, ⟨rfl, hr⟩ | ⟨rfl, hr⟩⟩ | ⟨rfl, rfl, hr⟩
          · exact .inl ⟨rfl, .inl ⟨hLa, rep_C rep trivial hr⟩⟩
          · exact .inl ⟨rfl, .inr ⟨rep_C rep trivial hr, hLa⟩⟩
          · exact .inr ⟨rfl, hLa, rep_C rep trivial hr⟩
        · simpa using hb

theorem binReg_ok {P : Prim} (ok : P.Ok) {st st' : St} {m : Mach} {L : Slot → Val} {k : Kind}
    {dst : Option Slot} {lhs rhs sp : Slot} {ins : List Ins} (w : WF st)
    (rep : Rep P st m L All) (hl : (st.mode lhs).live = true) (hr : (st.mode rhs).live = true)
    (hrange : Ranged L)
    (hdiv : k = .div → ¬ (L lhs = .fix (-(2 ^ 62)) ∧ L rhs = .fix (-1)))
    (hsafe : ∀ i ∈ ins, i.spoils dst sp = false)
    (h : st.binReg k dst lhs rhs sp = some (st', ins)) :
    StepPost P st st' m ins L [lhs, rhs] dst sp (P.arith k (L lhs) (L rhs)) := by
  unfold St.binReg at h
  cases he : st.gpEnsure lhs [] with
  | none => simp [he] at h
  | some p =>
    obtain ⟨st1, i1, lgp, g1⟩ := p
    simp only [he] at h
    obtain ⟨m1, e1, w1, rep1, le1, ⟨hh1, hg1, hs1⟩, hf1, _, _, _⟩ := gpEnsure_ok w rep hl he
    cases he2 : st1.gpEnsure rhs [lgp] with
    | none => simp [he2] at h
    | some p =>
      obtain ⟨st2, i2, rgp, g2⟩ := p
      simp only [he2] at h
      obtain ⟨m2, e2, w2, rep2, le2, ⟨hh2, hg2, hs2⟩, hf2, hp2, _, _⟩ :=
        gpEnsure_ok w1 rep1 (by rw [le1 rhs]; exact hr) he2
      have hg1' := hp2 lgp hh1 (by simp) hg1
      obtain ⟨m3, e3, w3, rep3, hmode3, hn3, hgp3, hclob3⟩ := syncRhs_ok k rhs w2 rep2
      generalize hst3 : (st2.syncRhs k rhs).1 = st3 at *
      generalize hi3 : (st2.syncRhs k rhs).2 = i3 at *
      obtain ⟨hl3, hl3a, hl3b⟩ := hgp3 lgp hh1 hg1'
      obtain ⟨hr3, hr3a, hr3b⟩ := hgp3 rgp hh2 hg2
      have le3 : LiveEq st st3 := by
        intro s; rw [hmode3]; exact (le1.trans le2) s
      cases hd : ((st3.dropDst dst).freeAbove sp).dstRegBin k lhs lgp rgp (st3.dirtyRegOf lhs).isSome with
      | none => simp [hd] at h
      | some p =>
        obtain ⟨st5, dgp, spill⟩ := p
        simp only [hd] at h
        simp only [Option.map_eq_some_iff, Prod.mk.injEq] at h
        obtain ⟨stf, hb, rfl, rfl⟩ := h
        have hclean : (st3.dirtyRegOf lhs).isSome = false → noDirty st3 lhs := by
          intro hh
          exact St.dirtyRegOf_none w3 (by simpa using hh)
        have hle := (drop_rep (P := P) dst sp rep3).1
        have hlt : lgp < nGp := (w3.lt lgp hl3 hl3a).1
        -- the destination register
        have hdst : DstSpec P ((st3.dropDst dst).freeAbove sp) st5 lhs rhs dgp spill ∧
            (dgp = lgp → noDirty st3 lhs) ∧ (dgp = rgp → noDirty st3 rhs) := by
          unfold St.dstRegBin at hd
          split_ifs at hd with c1 c2
          · obtain ⟨hds, hp⟩ := DstSpec.ofAlloc (P := P) (lhs := lhs) (rhs := rhs) hd
            simp only [List.mem_cons, List.not_mem_nil, or_false, not_or] at hp
            exact ⟨hds, fun h => absurd h hp.1, fun h => absurd h hp.2⟩
          · obtain ⟨hds, _, hdl⟩ := dstReg_ok (P := P) (rhs := rhs) hlt
              (fun h => noDirty_le hle (hclean h)) hd
            refine ⟨hds, fun h => hclean (hdl h), fun h => ?_⟩
            have hlr : lhs = rhs := by
              have := c2.2
              subst this
              rw [hl3a] at hr3a
              simp only [Option.some.injEq] at hr3a
              rw [← hs1, ← hl3b, hr3a, hr3b, hs2]
            rw [← hlr]
            exact hclean (hdl (by rw [h, c2.2]))
          · obtain ⟨hds, hp, hdl⟩ := dstReg_ok (P := P) (rhs := rhs) hlt
              (fun h => noDirty_le hle (hclean h)) hd
            simp only [List.mem_cons, List.not_mem_nil, or_false] at hp
            exact ⟨hds, fun h => hclean (hdl h), fun h => absurd h hp⟩
        have hins : i1 ++ i2 ++ i3 ++ spillIns spill
            ++ (if g1 then [Ins.guard .fixnum lgp st3.wb] else [])
            ++ (if (g2 && (lhs != rhs)) then [Ins.guard .fixnum rgp st3.wb] else [])
            ++ [if k = .add ∧ lgp = rgp then .dbl dgp lgp st3.wb else .bin k dgp lgp rgp st3.wb] =
            (i1 ++ i2 ++ i3) ++ (spillIns spill ++ ((if g1 then [Ins.guard .fixnum lgp st3.wb] else []) ++
              (if (g2 && (lhs != rhs)) then [Ins.guard .fixnum rgp st3.wb] else [])) ++
              [if k = .add ∧ lgp = rgp then .dbl dgp lgp st3.wb else .bin k dgp lgp rgp st3.wb]) := by
          simp
        rw [hins] at hsafe ⊢
        refine StepPost.prepend le3 (m3 := m3) ?_ (tail_ok (lhs := lhs) (rhs := rhs) (lgp := lgp) (rgp := rgp)
          (dgp := dgp) (g1 := g1) (g2 := g2 && (lhs != rhs))
          (clob := if k.clobbers then some rgp else none)
          (ov := decide (k = .add ∨ k = .sub ∨ k = .mul)) w3 rep3
          ⟨hl3, hl3a, by rw [hl3b, hs1]⟩ ⟨hr3, hr3a, by rw [hr3b, hs2]⟩ ?_ hf1 ?_ ?_ hdst.1 hdst.2.1
          hdst.2.2 ?_ ?_ ?_)
        · rw [List.append_assoc, exec_append_ok e1, exec_append_ok e2]; exact e3
        · intro s hs
          simp only [List.mem_cons, List.not_mem_nil, or_false] at hs
          rcases hs with rfl | rfl
          · exact .inl rfl
          · exact .inr (.inl rfl)
        · intro hh hne
          apply hf2
          have hb1 : (lhs != rhs) = true := by simpa using hne
          rw [hb1, Bool.and_true] at hh
          exact hh
        · intro q hq
          by_cases hk : k.clobbers = true
          · rw [if_pos hk] at hq
            simp only [Option.some.injEq] at hq
            exact ⟨hq.symm, hclob3 hk⟩
          · rw [if_neg hk] at hq; simp at hq
        · intro hov
          have hmem := hsafe _ (List.mem_append_right _ (List.mem_append_right _ (List.mem_singleton.2 rfl)))
          by_cases c : k = .add ∧ lgp = rgp
          · rw [if_pos c] at hmem
            exact spoils_any hmem
          · rw [if_neg c] at hmem
            simp only [decide_eq_true_eq] at hov
            simp only [Ins.spoils, decide_eq_false_iff_not, not_and, Bool.not_eq_true] at hmem
            exact spoils_any (hmem hov)
        · rintro mm ⟨a, hma, hLa⟩ ⟨b, hmb, hLb⟩
          rw [hLa, hLb]
          by_cases c : k = .add ∧ lgp = rgp
          · rw [if_pos c]
            obtain ⟨rfl, rfl⟩ := c
            have : a = b := by rw [hma] at hmb; simpa using hmb
            subst this
            simpa [Kind.clobbers] using fin_dbl ok hma
          · rw [if_neg c]
            refine fin_bin ok hma hmb (hrange lhs a hLa) (hrange rhs b hLb) ?_
            intro hk hab
            exact hdiv hk ⟨by rw [hLa, hab.1], by rw [hLb, hab.2]⟩
        · by_cases hk : k.clobbers = true
          · simp only [hk, if_true, Option.isSome_some] at hb ⊢
            exact hb
          · simp only [hk, if_false, Option.isSome_none, Bool.false_eq_true] at hb ⊢
            exact hb

end Verif.JitState
