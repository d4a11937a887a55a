import Verif.JitState.Live

/-! Straight-line blocks: running the compiled code and interpreting agree. -/

namespace Verif.JitState

/-- The block compiles without a static hazard. -/
def blockSafe (P : Prim) : St → List Op → Bool
  | _, [] => true
  | st, op :: ops =>
    match st.step P op with
    | none => false
    | some (st', ins) => op.safe st st' ins && blockSafe P st' ops

/-- literals of the block are fixnums in range -/
def Op.litOk : Op → Bool
  | .lit _ (.fix i) _ => inFix i
  | _ => true

/-- The interpreted run meets no `-2^62 / -1`. -/
def noMinDiv (P : Prim) : (Slot → Val) → List Op → Prop
  | _, [] => True
  | L, op :: ops => op.noMinDiv L ∧ ∀ L', interp1 P L op = some L' → noMinDiv P L' ops

/-- Two ends agree: the same way to end, and the same values in the first `loc` slots. -/
def Outcome.agree (loc : Nat) : Outcome → Outcome → Prop
  | .fin a, .fin b => ∀ s : Nat, s < loc → a s = b s
  | .raised a, .raised b => ∀ s : Nat, s < loc → a s = b s
  | _, _ => False

theorem result_congr {P : Prim} {A B : Slot → Val} {op : Op} (h : ∀ s ∈ op.reads, A s = B s) :
    op.result P A = op.result P B := by
  cases op with
  | lit d v sp => rfl
  | mov d s sp => simp only [Op.result]; rw [h s (by simp [Op.reads])]
  | bin k dst l r icL icR sp =>
    simp only [Op.result]
    rw [h l (by simp [Op.reads]), h r (by simp [Op.reads])]

theorem safe_self {st st' : St} {ins : List Ins} {op : Op} (h : op.safe st st' ins = true) :
    ∀ d s sp, op = .mov d s sp → d ≠ s := by
  rintro d s sp rfl
  simpa [Op.safe] using h

theorem setD_dst {L : Slot → Val} {dst : Option Slot} {v : Val} {s : Slot} (h : some s = dst) :
    setD L dst v s = v := by
  subst h; simp [setD]

theorem setD_ne {L : Slot → Val} {dst : Option Slot} {v : Val} {s : Slot} (h : some s ≠ dst) :
    setD L dst v s = L s := by
  cases dst with
  | none => rfl
  | some d => exact upd_ne _ _ (fun e => h (by rw [e]))

/-- The interpreter looks only at slots the compiler's state describes. -/
theorem interp_agree {P : Prim} {loc : Nat} : ∀ (ops : List Op) (st : St) (A B : Slot → Val),
    blockSafe P st ops = true → Big st → (∀ s : Nat, s < loc → (st.mode s).live = true) →
    (∀ op ∈ ops, loc ≤ op.sp) → (∀ s, (st.mode s).live = true → A s = B s) →
    Outcome.agree loc (interp P A ops) (interp P B ops) := by
  intro ops
  induction ops with
  | nil => intro st A B _ _ hloc _ hAB s hs; exact hAB s (hloc s hs)
  | cons op ops ih =>
    intro st A B hsafe hb hloc hsp hAB
    unfold blockSafe at hsafe
    cases hst : st.step P op with
    | none => simp [hst] at hsafe
    | some p =>
      obtain ⟨st', ins⟩ := p
      simp only [hst, Bool.and_eq_true] at hsafe
      obtain ⟨hr, hb', _, hlive⟩ := step_live hb (safe_self hsafe.1) hst
      have hres := result_congr (P := P) (fun s hs => hAB s (hr s hs))
      unfold interp
      rw [interp1_eq, interp1_eq, hres]
      cases hv : op.result P B with
      | none => intro s hs; exact hAB s (hloc s hs)
      | some v =>
        simp only [Option.map_some]
        refine ih st' _ _ hsafe.2 hb' ?_ (fun o ho => hsp o (List.mem_cons_of_mem _ ho)) ?_
        · intro s hs
          exact (hlive s).2 ⟨Nat.lt_of_lt_of_le hs (hsp op (by simp)), .inl (hloc s hs)⟩
        · intro s hs
          by_cases hd : some s = op.dst
          · rw [setD_dst hd, setD_dst hd]
          · rw [setD_ne hd, setD_ne hd]
            rcases ((hlive s).1 hs).2 with h | h
            · exact hAB s h
            · exact absurd h hd

theorem WF.toBig {st : St} (w : WF st) : Big st := fun _ h => wf_live_lt w h

theorem clearAbove_mode_lt {st : St} {sp t : Nat} (h : t < sp) : (st.clearAbove sp).mode t = st.mode t := by
  unfold St.clearAbove
  rw [clearFrom_mode, if_neg (by omega)]

theorem safe_clear {st st1 : St} {ins : List Ins} {op : Op}
    (h : op.safe st (st1.clearAbove op.sp) ins = true) : op.safe st st1 ins = true := by
  cases op with
  | bin k dst l r icL icR sp =>
    simp only [Op.safe, Bool.and_eq_true, List.all_eq_true] at h ⊢
    refine ⟨⟨⟨h.1.1.1, ?_⟩, h.1.2⟩, h.2⟩
    intro i hi
    have := h.1.1.2 i hi
    cases i with
    | fbin k d a b =>
      simp only [List.all_eq_true, List.mem_range] at this ⊢
      intro t ht
      have := this t ht
      rwa [clearAbove_mode_lt (by exact ht)] at this
    | _ => rfl
  | mov d s sp => exact h
  | lit d v sp => rfl

theorem ranged_set {P : Prim} (ok : P.Ok) {L : Slot → Val} {op : Op} {v : Val} (hr : Ranged L)
    (hlit : op.litOk = true) (hres : op.result P L = some v) : Ranged (setD L op.dst v) := by
  intro s i hi
  by_cases hd : some s = op.dst
  · rw [setD_dst hd] at hi
    subst hi
    cases op with
    | lit d v sp =>
      simp only [Op.result, Option.some.injEq] at hres
      subst hres
      exact hlit
    | mov d t sp =>
      simp only [Op.result, Option.some.injEq] at hres
      exact hr t i hres
    | bin k dst l r icL icR sp => exact ok.range k _ _ i hres
  · rw [setD_ne hd] at hi; exact hr s i hi

/-- Running compiled code and interpreting agree. -/
theorem jit_agrees {P : Prim} (ok : P.Ok) {loc : Nat} : ∀ (ops : List Op) (st stf : St) (m : Mach)
    (L : Slot → Val) (code : List (List Ins)), WF st → Rep P st m L All → Ranged L →
    (∀ s : Nat, s < loc → (st.mode s).live = true) → (∀ op ∈ ops, loc ≤ op.sp) → (∀ op ∈ ops, op.litOk = true) →
    compileBlock P st ops = some (stf, code) → blockSafe P st ops = true → noMinDiv P L ops →
    Outcome.agree loc (runJit P stf m ops code) (interp P L ops) := by
  intro ops
  induction ops with
  | nil =>
    intro st stf m L code w rep _ hloc _ _ hc _ _
    simp only [compileBlock, Option.some.injEq, Prod.mk.injEq] at hc
    obtain ⟨rfl, rfl⟩ := hc
    intro s hs
    exact applyWB_snap w (Snap_of_rep rep trivial (hloc s hs) rfl (.inl rfl) (fun _ _ _ _ _ => rfl))
  | cons op ops ih =>
    intro st stf m L code w rep hrange hloc hsp hlit hc hsafe hdiv
    have hsafe0 := hsafe
    unfold blockSafe at hsafe
    unfold compileBlock at hc
    cases hst : st.step P op with
    | none => simp [hst] at hc
    | some p =>
      obtain ⟨st', ins⟩ := p
      simp only [hst, Bool.and_eq_true] at hsafe
      simp only [hst, Option.map_eq_some_iff, Prod.mk.injEq] at hc
      obtain ⟨⟨stf', rest⟩, hcb, rfl, rfl⟩ := hc
      obtain ⟨hr, hb', _, hlive⟩ := step_live w.toBig (safe_self hsafe.1) hst
      have hloc' : ∀ s : Nat, s < loc → (st'.mode s).live = true := fun s hs =>
        (hlive s).2 ⟨Nat.lt_of_lt_of_le hs (hsp op (by simp)), .inl (hloc s hs)⟩
      have hsp' : ∀ o ∈ ops, loc ≤ o.sp := fun o ho => hsp o (List.mem_cons_of_mem _ ho)
      have hlit' : ∀ o ∈ ops, o.litOk = true := fun o ho => hlit o (List.mem_cons_of_mem _ ho)
      have hst0 := hst
      unfold St.step at hst
      simp only [Option.map_eq_some_iff, Prod.mk.injEq] at hst
      obtain ⟨⟨st1, i1⟩, hc1, rfl, rfl⟩ := hst
      have hpost := compile1_ok ok w rep hrange hdiv.1 (safe_clear hsafe.1) hc1
      rcases hpost with ⟨m', v, e, hres, w1, rep1⟩ | ⟨stk, e, hstk⟩
      · obtain ⟨w2, rep2⟩ := clearAbove_ok w1 rep1
        have hi : interp1 P L op = some (setD L op.dst v) := by rw [interp1_eq, hres]; rfl
        have := ih (st1.clearAbove op.sp) stf' m' (setD L op.dst v) rest w2 rep2
          (ranged_set ok hrange (hlit op (by simp)) hres) hloc' hsp' hlit' hcb hsafe.2 (hdiv.2 _ hi)
        unfold runJit interp
        rw [hi]
        simp only [e]
        exact this
      · unfold runJit
        simp only [e]
        rcases hstk with hstk | ⟨hne, hstk⟩
        · exact interp_agree (op :: ops) st stk L hsafe0 w.toBig hloc hsp hstk
        · have hres := result_congr (P := P) (A := stk) (B := L) (op := op)
            (fun s hs => hstk s (hr s hs) (.inr hs))
          unfold interp
          rw [interp1_eq, interp1_eq, hres]
          cases hv : op.result P L with
          | none => exact absurd hv hne
          | some v =>
            simp only [Option.map_some]
            refine interp_agree ops _ _ _ hsafe.2 hb' hloc' hsp' ?_
            intro s hs
            obtain ⟨h1, h2⟩ := (hlive s).1 hs
            by_cases hd : some s = op.dst
            · rw [setD_dst hd, setD_dst hd]
            · rw [setD_ne hd, setD_ne hd]
              rcases h2 with h2 | h2
              · exact hstk s h2 (.inl ⟨h1, hd⟩)
              · exact absurd h2 hd

end Verif.JitState
