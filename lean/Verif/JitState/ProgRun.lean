import Verif.JitState.BridgeAll
import Verif.JitState.MergeProof
import Verif.JitState.Static

/-! Programs with branches: compiled code against the interpreter. -/

namespace Verif.JitState

theorem blk_run {P : Prim} (ok : P.Ok) {loc : Nat} : ∀ (ops : List Op) (st stf : St) (m : Mach)
    (L : Slot → Val) (code : List (List Ins)), WF st → Rep P st m L All → Ranged L →
    Covers st loc → (∀ op ∈ ops, loc ≤ op.sp) → (∀ op ∈ ops, op.litOk = true) →
    compileBlock P st ops = some (stf, code) → blockSafe P st ops = true → noMinDiv P L ops →
    RunOk P stf loc L (.blk ops) (runBlk P m ops code) := by
  intro ops
  induction ops with
  | nil =>
    intro st stf m L code w rep hrange _ _ _ hc _ _
    simp only [compileBlock, Option.some.injEq, Prod.mk.injEq] at hc
    obtain ⟨rfl, rfl⟩ := hc
    exact ⟨L, rfl, rep, hrange⟩
  | cons op ops ih =>
    intro st stf m L code w rep hrange hcov hsp hlit hc hsafe hdiv
    have hsafe0 := hsafe
    have hc0 := hc
    unfold blockSafe at hsafe
    unfold compileBlock at hc
    cases hst : st.step P op with
    | none => simp [hst] at hc
    | some p =>
      obtain ⟨st', ins⟩ := p
      simp only [hst, Bool.and_eq_true] at hsafe
      simp only [hst, Option.map_eq_some_iff, Prod.mk.injEq] at hc
      obtain ⟨⟨stf', rest⟩, hcb, rfl, rfl⟩ := hc
      obtain ⟨hr, hb', _, hlive⟩ := step_live w.toBig (safe_self hsafe.1) hst
      have hcov' : Covers st' loc := fun s hs =>
        (hlive s).2 ⟨Nat.lt_of_lt_of_le hs (hsp op (by simp)), .inl (hcov s hs)⟩
      have hsp' : ∀ o ∈ ops, loc ≤ o.sp := fun o ho => hsp o (List.mem_cons_of_mem _ ho)
      have hlit' : ∀ o ∈ ops, o.litOk = true := fun o ho => hlit o (List.mem_cons_of_mem _ ho)
      unfold St.step at hst
      simp only [Option.map_eq_some_iff, Prod.mk.injEq] at hst
      obtain ⟨⟨st1, i1⟩, hc1, rfl, rfl⟩ := hst
      have hpost := compile1_ok ok w rep hrange hdiv.1 (safe_clear hsafe.1) hc1
      unfold runBlk
      rcases hpost with ⟨m', v, e, hres, w1, rep1⟩ | ⟨stk, e, hstk⟩
      · obtain ⟨w2, rep2⟩ := clearAbove_ok w1 rep1
        have hi : interp1 P L op = some (setD L op.dst v) := by rw [interp1_eq, hres]; rfl
        have := ih (st1.clearAbove op.sp) stf' m' (setD L op.dst v) rest w2 rep2
          (ranged_set ok hrange (hlit op (by simp)) hres) hcov' hsp' hlit' hcb hsafe.2 (hdiv.2 _ hi)
        simp only [e]
        have hint : interpP P L (.blk (op :: ops)) = interpP P (setD L op.dst v) (.blk ops) := by
          show interp P L (op :: ops) = interp P _ ops
          rw [interp, hi]
        unfold RunOk at this ⊢
        rw [hint]
        exact this
      · simp only [e]
        show AgreeAt stf' loc (interp P stk (op :: ops)) (interp P L (op :: ops))
        rcases hstk with hstk | ⟨hne, hstk⟩
        · exact (blk_agree (op :: ops) st stf' _ stk L hc0 hsafe0 w.toBig hcov hsp hstk).1
        · have hres := result_congr (P := P) (A := stk) (B := L) (op := op)
            (fun s hs => hstk s (hr s hs) (.inr hs))
          unfold interp
          rw [interp1_eq, interp1_eq, hres]
          cases hv : op.result P L with
          | none => exact absurd hv hne
          | some v =>
            simp only [Option.map_some]
            refine (blk_agree ops _ stf' rest _ _ hcb hsafe.2 hb' hcov' hsp' ?_).1
            intro s hs
            obtain ⟨h1, h2⟩ := (hlive s).1 hs
            by_cases hd : some s = op.dst
            · rw [setD_dst hd, setD_dst hd]
            · rw [setD_ne hd, setD_ne hd]
              rcases h2 with h2 | h2
              · exact hstk s h2 (.inl ⟨h1, hd⟩)
              · exact absurd h2 hd

theorem block_n {P : Prim} : ∀ (ops : List Op) (st stf : St) (code : List (List Ins)), Big st →
    blockSafe P st ops = true → compileBlock P st ops = some (stf, code) → stf.n = st.n := by
  intro ops
  induction ops with
  | nil =>
    intro st stf code _ _ h
    simp only [compileBlock, Option.some.injEq, Prod.mk.injEq] at h
    obtain ⟨rfl, _⟩ := h; rfl
  | cons op ops ih =>
    intro st stf code hb hsafe hc
    unfold blockSafe at hsafe
    unfold compileBlock at hc
    cases hst : st.step P op with
    | none => simp [hst] at hc
    | some p =>
      obtain ⟨st', ins⟩ := p
      simp only [hst, Bool.and_eq_true] at hsafe
      simp only [hst, Option.map_eq_some_iff, Prod.mk.injEq] at hc
      obtain ⟨⟨stf', rest⟩, hcb, rfl, rfl⟩ := hc
      obtain ⟨_, hb', hn, _⟩ := step_live hb (safe_self hsafe.1) hst
      rw [ih st' stf' rest hb' hsafe.2 hcb, hn]

/-- What compiling a branch with its merge amounts to. -/
structure IteC (P : Prim) (st : St) (c : Slot) (p q : Prog) (T : St) (code : Code) where
  sp : St
  sq : St
  cp : Code
  cq : Code
  sp' : St
  sq' : St
  bp : List Ins
  bq : List Ins
  cond : st.flushGp.1.mode c = .S .value
  hp : compileProg P st.flushGp.1 p = some (sp, cp)
  hq : compileProg P st.flushGp.1 q = some (sq, cq)
  join : join2 sp.flushGp.1 sq.flushGp.1 = some T
  bridgeP : sp.flushGp.1.bridge T = some (sp', bp)
  bridgeQ : sq.flushGp.1.bridge T = some (sq', bq)
  code_eq : code = .ite st.flushGp.2 c cp sp.flushGp.2 bp cq sq.flushGp.2 bq

theorem iteC {P : Prim} {st T : St} {c : Slot} {p q : Prog} {code : Code}
    (h : compileProg P st (.ite c p q) = some (T, code)) : Nonempty (IteC P st c p q T code) := by
  unfold compileProg at h
  simp only at h
  by_cases hc : st.flushGp.1.mode c = .S .value
  · rw [if_neg (by simp [hc])] at h
    cases hp : compileProg P st.flushGp.1 p with
    | none => simp [hp] at h
    | some r1 =>
      obtain ⟨sp, cp⟩ := r1
      cases hq : compileProg P st.flushGp.1 q with
      | none => simp [hp, hq] at h
      | some r2 =>
        obtain ⟨sq, cq⟩ := r2
        simp only [hp, hq] at h
        cases hj : join2 sp.flushGp.1 sq.flushGp.1 with
        | none => simp [hj] at h
        | some T' =>
          simp only [hj] at h
          cases hb1 : sp.flushGp.1.bridge T' with
          | none => simp [hb1] at h
          | some r3 =>
            obtain ⟨sp', bp⟩ := r3
            cases hb2 : sq.flushGp.1.bridge T' with
            | none => simp [hb1, hb2] at h
            | some r4 =>
              obtain ⟨sq', bq⟩ := r4
              simp only [hb1, hb2, Option.some.injEq, Prod.mk.injEq] at h
              obtain ⟨rfl, rfl⟩ := h
              exact ⟨⟨sp, sq, cp, cq, sp', sq', bp, bq, hc, hp, hq, hj, hb1, hb2, rfl⟩⟩
  · rw [if_pos (by simpa using hc)] at h
    cases h

theorem IteC.safe {P : Prim} {st T : St} {c : Slot} {p q : Prog} {code : Code} (x : IteC P st c p q T code)
    (h : progSafe P st (.ite c p q) = true) :
    progSafe P st.flushGp.1 p = true ∧ progSafe P st.flushGp.1 q = true ∧
    bridgeSafe x.sp.flushGp.1 T = true ∧ bridgeSafe x.sq.flushGp.1 T = true := by
  unfold progSafe at h
  simp only [x.hp, x.hq, x.join, Bool.and_eq_true] at h
  exact ⟨h.1.1, h.1.2, h.2.1, h.2.2⟩

theorem flush_n (st : St) : st.flushGp.1.n = st.n := rfl
theorem flush_mode (st : St) : st.flushGp.1.mode = st.mode := rfl
theorem flush_gp (st : St) (r : GReg) : st.flushGp.1.gp r = none := rfl

theorem seqC {P : Prim} {st stf : St} {p q : Prog} {code : Code}
    (h : compileProg P st (.seq p q) = some (stf, code)) :
    ∃ st1 cp cq, compileProg P st p = some (st1, cp) ∧ compileProg P st1 q = some (stf, cq) ∧ code = .seq cp cq := by
  unfold compileProg at h
  cases hp : compileProg P st p with
  | none => simp [hp] at h
  | some r =>
    obtain ⟨st1, cp⟩ := r
    simp only [hp, Option.map_eq_some_iff, Prod.mk.injEq] at h
    obtain ⟨⟨stf', cq⟩, hq, rfl, rfl⟩ := h
    exact ⟨st1, cp, cq, rfl, hq, rfl⟩

theorem seq_safe {P : Prim} {st st1 : St} {p q : Prog} {cp : Code} (hp : compileProg P st p = some (st1, cp))
    (h : progSafe P st (.seq p q) = true) : progSafe P st p = true ∧ progSafe P st1 q = true := by
  unfold progSafe at h
  simp only [hp, Bool.and_eq_true] at h
  exact h

theorem compileProg_wf {P : Prim} : ∀ (p : Prog) (st stf : St) (code : Code), WF st →
    progSafe P st p = true → compileProg P st p = some (stf, code) → WF stf ∧ stf.n = st.n := by
  intro p
  induction p with
  | blk ops =>
    intro st stf code w hs h
    simp only [compileProg, Option.map_eq_some_iff, Prod.mk.injEq] at h
    obtain ⟨⟨stf', c⟩, h, rfl, _⟩ := h
    exact ⟨compileBlock_wf ops st stf' c w h, block_n ops st stf' c w.toBig hs h⟩
  | seq p q ihp ihq =>
    intro st stf code w hs h
    obtain ⟨st1, cp, cq, hp, hq, _⟩ := seqC h
    obtain ⟨s1, s2⟩ := seq_safe hp hs
    obtain ⟨w1, n1⟩ := ihp st st1 cp w s1 hp
    obtain ⟨w2, n2⟩ := ihq st1 stf cq w1 s2 hq
    exact ⟨w2, n2.trans n1⟩
  | ite c p q ihp ihq =>
    intro st T code w hs h
    obtain ⟨x⟩ := iteC h
    obtain ⟨s1, s2, _, _⟩ := x.safe hs
    obtain ⟨w1, n1⟩ := ihp _ _ _ (flushGp_wf w) s1 x.hp
    obtain ⟨w2, n2⟩ := ihq _ _ _ (flushGp_wf w) s2 x.hq
    obtain ⟨wT, nT, _⟩ := join2_ok (flushGp_wf w1) (flushGp_wf w2) (flush_gp _) (flush_gp _)
      (by rw [flush_n, flush_n, n1, n2]) x.join
    exact ⟨wT, by rw [nT, flush_n, n1, flush_n]⟩

theorem IteC.joined {P : Prim} {st T : St} {c : Slot} {p q : Prog} {code : Code} (x : IteC P st c p q T code)
    (w : WF st) (hs : progSafe P st (.ite c p q) = true) :
    WF x.sp ∧ WF x.sq ∧ WF T ∧ T.n = x.sp.n ∧ T.n = x.sq.n ∧ (∀ r, T.gp r = none) ∧
    (∀ t, Le (x.sp.mode t) (T.mode t)) ∧ (∀ t, Le (x.sq.mode t) (T.mode t)) ∧
    (∀ t, (x.sp.mode t).live = true → (x.sq.mode t).live = true → (T.mode t).live = true) := by
  obtain ⟨s1, s2, _, _⟩ := x.safe hs
  obtain ⟨w1, n1⟩ := compileProg_wf _ _ _ _ (flushGp_wf w) s1 x.hp
  obtain ⟨w2, n2⟩ := compileProg_wf _ _ _ _ (flushGp_wf w) s2 x.hq
  obtain ⟨wT, nT, g, l1, l2, l3⟩ := join2_ok (flushGp_wf w1) (flushGp_wf w2) (flush_gp _) (flush_gp _)
    (by rw [flush_n, flush_n, n1, n2]) x.join
  exact ⟨w1, w2, wT, nT, by rw [nT, flush_n, n1, n2], g, l1, l2, l3⟩

/-- The interpreter's run depends only on the slots the state describes. -/
theorem prog_agree {P : Prim} {loc : Nat} : ∀ (p : Prog) (st stf : St) (code : Code) (A B : Slot → Val), WF st →
    compileProg P st p = some (stf, code) → progSafe P st p = true → Covers st loc →
    (∀ op ∈ p.ops, loc ≤ op.sp) → (∀ s, (st.mode s).live = true → A s = B s) →
    AgreeAt stf loc (interpP P A p) (interpP P B p) ∧ Covers stf loc := by
  intro p
  induction p with
  | blk ops =>
    intro st stf code A B w h hs hcov hsp hAB
    simp only [compileProg, Option.map_eq_some_iff, Prod.mk.injEq] at h
    obtain ⟨⟨stf', c⟩, h, rfl, _⟩ := h
    exact blk_agree ops st stf' c A B h hs w.toBig hcov hsp hAB
  | seq p q ihp ihq =>
    intro st stf code A B w h hs hcov hsp hAB
    obtain ⟨st1, cp, cq, hp, hq, _⟩ := seqC h
    obtain ⟨s1, s2⟩ := seq_safe hp hs
    have w1 := (compileProg_wf _ _ _ _ w s1 hp).1
    obtain ⟨a1, c1⟩ := ihp st st1 cp A B w hp s1 hcov (fun o ho => hsp o (List.mem_append_left _ ho)) hAB
    have hspq : ∀ op ∈ q.ops, loc ≤ op.sp := fun o ho => hsp o (List.mem_append_right _ ho)
    unfold interpP
    cases ha : interpP P A p with
    | fin a =>
      cases hb : interpP P B p with
      | fin b =>
        rw [ha, hb] at a1
        exact ihq st1 stf cq a b w1 hq s2 c1 hspq a1
      | raised b => rw [ha, hb] at a1; exact a1.elim
    | raised a =>
      cases hb : interpP P B p with
      | fin b => rw [ha, hb] at a1; exact a1.elim
      | raised b =>
        rw [ha, hb] at a1
        exact ⟨a1, (ihq st1 stf cq A A w1 hq s2 c1 hspq (fun _ _ => rfl)).2⟩
  | ite c p q ihp ihq =>
    intro st T code A B w h hs hcov hsp hAB
    obtain ⟨x⟩ := iteC h
    obtain ⟨s1, s2, _, _⟩ := x.safe hs
    obtain ⟨w1, w2, wT, _, _, _, l1, l2, l3⟩ := x.joined w hs
    have hspp : ∀ op ∈ p.ops, loc ≤ op.sp := fun o ho => hsp o (List.mem_append_left _ ho)
    have hspq : ∀ op ∈ q.ops, loc ≤ op.sp := fun o ho => hsp o (List.mem_append_right _ ho)
    obtain ⟨ap, cp⟩ := ihp _ _ _ A B (flushGp_wf w) x.hp s1 hcov hspp hAB
    obtain ⟨aq, cq⟩ := ihq _ _ _ A B (flushGp_wf w) x.hq s2 hcov hspq hAB
    have hcond : A c = B c := hAB c (by have := x.cond; rw [flush_mode] at this; rw [this]; rfl)
    refine ⟨?_, fun s hl => l3 s (cp s hl) (cq s hl)⟩
    unfold interpP
    rw [hcond]
    split
    · exact ap.weaken (fun s hl => (l1 s).live hl)
    · exact aq.weaken (fun s hl => (l2 s).live hl)

theorem RunOk.branch {P : Prim} {st T st' : St} {loc : Nat} {L : Slot → Val} {p : Prog} {r : Run} {b : List Ins}
    (w : WF st) (wT : WF T) (hT : ∀ r, T.gp r = none) (hn : T.n = st.n) (hle : ∀ t, Le (st.mode t) (T.mode t))
    (hsafe : bridgeSafe st.flushGp.1 T = true) (e : st.flushGp.1.bridge T = some (st', b))
    (h : RunOk P st loc L p r) :
    RunOk P T loc L p (r.bind (fun m2 => runIns P m2 (st.flushGp.2 ++ b) (.blk [])) id) := by
  cases r with
  | ok m =>
    obtain ⟨L', h1, h2, h3⟩ := h
    obtain ⟨m1, e1, w1, rep1⟩ := flush_ok w h2
    obtain ⟨m2, e2, rep2⟩ := bridge_ok w1 (flush_gp _) rep1 wT hT hn hle hsafe e
    have : runIns P m (st.flushGp.2 ++ b) (.blk []) = .ok m2 := by
      unfold runIns
      rw [exec_append_ok e1, e2]
    show RunOk P T loc L p (runIns P m (st.flushGp.2 ++ b) (.blk []))
    rw [this]
    exact ⟨L', h1, rep2, h3⟩
  | exit stk rest => exact AgreeAt.weaken h (fun s hl => (hle s).live hl)

theorem prog_run {P : Prim} (ok : P.Ok) {loc : Nat} : ∀ (p : Prog) (st stf : St) (m : Mach)
    (L : Slot → Val) (code : Code), WF st → Rep P st m L All → Ranged L →
    Covers st loc → (∀ op ∈ p.ops, loc ≤ op.sp) → (∀ op ∈ p.ops, op.litOk = true) →
    compileProg P st p = some (stf, code) → progSafe P st p = true → noMinDivP P L p →
    RunOk P stf loc L p (runProg P m p code) := by
  intro p
  induction p with
  | blk ops =>
    intro st stf m L code w rep hr hcov hsp hlit h hs hd
    simp only [compileProg, Option.map_eq_some_iff, Prod.mk.injEq] at h
    obtain ⟨⟨stf', c⟩, h, rfl, rfl⟩ := h
    exact blk_run ok ops st stf' m L c w rep hr hcov hsp hlit h hs hd
  | seq p q ihp ihq =>
    intro st stf m L code w rep hr hcov hsp hlit h hs hd
    obtain ⟨st1, cp, cq, hp, hq, rfl⟩ := seqC h
    obtain ⟨s1, s2⟩ := seq_safe hp hs
    have w1 := (compileProg_wf _ _ _ _ w s1 hp).1
    have hspp : ∀ op ∈ p.ops, loc ≤ op.sp := fun o ho => hsp o (List.mem_append_left _ ho)
    have hspq : ∀ op ∈ q.ops, loc ≤ op.sp := fun o ho => hsp o (List.mem_append_right _ ho)
    have h1 := ihp st st1 m L cp w rep hr hcov hspp (fun o ho => hlit o (List.mem_append_left _ ho)) hp s1 hd.1
    have c1 := (prog_agree p st st1 cp L L w hp s1 hcov hspp (fun _ _ => rfl)).2
    unfold runProg
    cases hrun : runProg P m p cp with
    | ok m' =>
      rw [hrun] at h1
      obtain ⟨L', i1, rep1, r1⟩ := h1
      have h2 := ihq st1 stf m' L' cq w1 rep1 r1 c1 hspq (fun o ho => hlit o (List.mem_append_right _ ho)) hq s2 (hd.2 L' i1)
      have hint : interpP P L (.seq p q) = interpP P L' q := by rw [interpP, i1]
      show RunOk P stf loc L (.seq p q) (runProg P m' q cq)
      unfold RunOk at h2 ⊢
      rw [hint]
      exact h2
    | exit stk rest =>
      rw [hrun] at h1
      change AgreeAt st1 loc (interpP P stk rest) (interpP P L p) at h1
      show AgreeAt stf loc (interpP P stk (.seq rest q)) (interpP P L (.seq p q))
      rw [interpP, interpP]
      cases ha : interpP P stk rest with
      | fin a =>
        cases hb : interpP P L p with
        | fin b =>
          rw [ha, hb] at h1
          exact (prog_agree q st1 stf cq a b w1 hq s2 c1 hspq h1).1
        | raised b => rw [ha, hb] at h1; exact h1.elim
      | raised a =>
        cases hb : interpP P L p with
        | fin b => rw [ha, hb] at h1; exact h1.elim
        | raised b => rw [ha, hb] at h1; exact h1
  | ite c p q ihp ihq =>
    intro st T m L code w rep hr hcov hsp hlit h hs hd
    obtain ⟨x⟩ := iteC h
    obtain ⟨s1, s2, b1, b2⟩ := x.safe hs
    obtain ⟨w1, w2, wT, n1, n2, gT, l1, l2, l3⟩ := x.joined w hs
    have hspp : ∀ op ∈ p.ops, loc ≤ op.sp := fun o ho => hsp o (List.mem_append_left _ ho)
    have hspq : ∀ op ∈ q.ops, loc ≤ op.sp := fun o ho => hsp o (List.mem_append_right _ ho)
    obtain ⟨m1, e1, w0, rep1⟩ := flush_ok w rep
    have hcond : m1.stack c = L c := by
      have := rep1.slot c trivial
      unfold RepSlot at this
      rw [x.cond] at this
      exact this.2 (fun r hh hg => by rw [flush_gp] at hg; cases hg)
    have hpre : runIns P m st.flushGp.2 (.ite c p q) = .ok m1 := by unfold runIns; rw [e1]
    rw [x.code_eq]
    unfold runProg
    rw [hpre]
    show RunOk P T loc L (.ite c p q) (if (m1.stack c).truthy then _ else _)
    rw [hcond]
    by_cases ht : (L c).truthy = true
    · rw [if_pos ht]
      have hd' : noMinDivP P L p := by unfold noMinDivP at hd; rwa [if_pos ht] at hd
      have h1 := ihp _ _ m1 L x.cp w0 rep1 hr hcov hspp (fun o ho => hlit o (List.mem_append_left _ ho)) x.hp s1 hd'
      have h2 := RunOk.branch w1 wT gT n1 l1 b1 x.bridgeP h1
      have hint : interpP P L (.ite c p q) = interpP P L p := by rw [interpP, if_pos ht]
      unfold RunOk at h2 ⊢
      rw [hint]
      exact h2
    · rw [if_neg ht]
      have hd' : noMinDivP P L q := by unfold noMinDivP at hd; rwa [if_neg ht] at hd
      have h1 := ihq _ _ m1 L x.cq w0 rep1 hr hcov hspq (fun o ho => hlit o (List.mem_append_right _ ho)) x.hq s2 hd'
      have h2 := RunOk.branch w2 wT gT n2 l2 b2 x.bridgeQ h1
      have hint : interpP P L (.ite c p q) = interpP P L q := by rw [interpP, if_neg ht]
      unfold RunOk at h2 ⊢
      rw [hint]
      exact h2

/-- The end of a compiled run, its registers written back, against the interpreter's. -/
theorem finish_agrees {P : Prim} {stf : St} {loc : Nat} {L : Slot → Val} {p : Prog} {r : Run} (w : WF stf)
    (hcov : Covers stf loc) (h : RunOk P stf loc L p r) : Outcome.agree loc (finish P stf r) (interpP P L p) := by
  cases r with
  | ok m =>
    obtain ⟨L', h1, rep, _⟩ := h
    rw [h1]
    intro s hs
    exact applyWB_snap w (Snap_of_rep rep trivial (hcov s hs) rfl (.inl rfl) (fun _ _ _ _ _ => rfl))
  | exit stk rest => exact AgreeAt.toAgree h hcov

end Verif.JitState
