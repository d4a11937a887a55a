import Verif.JitState.Bridge

/-! All slots of a bridge; programs with branches. -/

namespace Verif.JitState

/-- registers of the joined state that ended up elsewhere -/
def regMatch (a b : Mode) : Bool :=
  match b.reg with
  | some _ => decide (a.reg = b.reg)
  | none => true

/-- The bridge meets neither of two hazards: a literal loaded into a register of the
joined state while another variable is still there, and a slot whose register is swapped
away again by a later slot. -/
def bridgeSafeFrom (T : St) : St → Nat → Slot → Bool
  | st, 0, _ => (List.range st.n).all fun t => regMatch (st.mode t) (T.mode t)
  | st, k + 1, s =>
    litFree st (T.mode s) s &&
      match st.bridge1 (T.mode s) s with
      | none => false
      | some (st', _) => bridgeSafeFrom T st' k (s + 1)

def bridgeSafe (st T : St) : Bool := bridgeSafeFrom T (st.growTo T.vf.length) st.n 0

theorem growTo_slots (st : St) (k : Nat) (x : FReg) : (st.growTo k).slots x = st.slots x := by
  show (st.vf ++ List.replicate (k - st.vf.length) []).getD x [] = st.vf.getD x []
  rw [List.getD_eq_getElem?_getD, List.getD_eq_getElem?_getD]
  by_cases h : x < st.vf.length
  · rw [List.getElem?_append_left h]
  · have h : st.vf.length ≤ x := Nat.not_lt.1 h
    rw [List.getElem?_append_right h, List.getElem?_eq_none h, List.getElem?_replicate]
    split <;> rfl

theorem growTo_wf {st : St} (w : WF st) (k : Nat) : WF (st.growTo k) :=
  ⟨fun x s => by rw [growTo_slots]; exact w.vf x s, w.inj, w.lt, w.dirty, w.big⟩

theorem Settled.swap {a : Mode} {home v : Val} {T : Mode} {l r : FReg} (h : Settled a home v T) :
    Settled (a.swap l r) home v T := by
  cases T <;> try exact h
  exact (swap_isF l r _).trans h

theorem bridgeFrom_ok {P : Prim} {T : St} {L : Slot → Val} : ∀ (k : Nat) (s : Nat) (st st' : St) (m : Mach) (ins : List Ins),
    WF st → (∀ r, st.gp r = none) → s + k = st.n → Located P st m L →
    (∀ t : Nat, s ≤ t → Le (st.mode t) (T.mode t)) →
    (∀ t : Nat, t < s → Settled (st.mode t) (m.stack t) (L t) (T.mode t)) →
    bridgeSafeFrom T st k s = true → st.bridgeFrom T k s = some (st', ins) →
    ∃ m', exec P m ins = .ok m' ∧ WF st' ∧ (∀ r, st'.gp r = none) ∧ st'.n = st.n ∧ Located P st' m' L ∧
      (∀ t : Nat, t < st.n → Settled (st'.mode t) (m'.stack t) (L t) (T.mode t)) ∧
      (∀ t : Nat, t < st.n → regMatch (st'.mode t) (T.mode t) = true) := by
  intro k
  induction k with
  | zero =>
    intro s st st' m ins w hgp hn h hle hdone hsafe e
    simp only [St.bridgeFrom, Option.some.injEq, Prod.mk.injEq] at e
    obtain ⟨rfl, rfl⟩ := e
    refine ⟨m, rfl, w, hgp, rfl, h, fun t ht => hdone t (by omega), ?_⟩
    intro t ht
    simp only [bridgeSafeFrom, List.all_eq_true, List.mem_range] at hsafe
    exact hsafe t ht
  | succ k ih =>
    intro s st st' m ins w hgp hn h hle hdone hsafe e
    unfold St.bridgeFrom at e
    unfold bridgeSafeFrom at hsafe
    cases hb : st.bridge1 (T.mode s) s with
    | none => simp [hb] at e
    | some q =>
      obtain ⟨st1, i1⟩ := q
      simp only [hb, Option.map_eq_some_iff, Prod.mk.injEq] at e
      obtain ⟨⟨st2, i2⟩, hrest, rfl, rfl⟩ := e
      simp only [hb, Bool.and_eq_true] at hsafe
      have hs : s < st.n := by omega
      obtain ⟨m1, e1, ok1⟩ := bridge1_ok w hgp hs h (hle s (Nat.le_refl _)) hsafe.1 hb
      obtain ⟨l, r, hmode⟩ := ok1.mode
      obtain ⟨m2, e2, r1, r2, r3, r4, r5, r6⟩ := ih (s + 1) st1 st2 m1 i2 ok1.wf ok1.gp (by rw [ok1.n]; omega) ok1.loc
        (fun t ht => by
          rw [hmode t (by intro e; subst e; exact absurd ht (by omega))]
          exact swap_le (hle t (by omega)))
        (fun t ht => by
          by_cases hts : t = s
          · subst hts; exact ok1.fin
          · rw [hmode t hts, ok1.stack t hts]
            exact (hdone t (by omega)).swap)
        hsafe.2 hrest
      refine ⟨m2, by rw [exec_append_ok e1]; exact e2, r1, r2, by rw [r3, ok1.n], r4, ?_, ?_⟩
      · intro t ht; exact r5 t (by rw [ok1.n]; exact ht)
      · intro t ht; exact r6 t (by rw [ok1.n]; exact ht)

/-- the class a mode promises -/
def SatM (v : Val) : Mode → Prop
  | .S g => g.sat v = true
  | .Sf _ g => g.sat v
  | .C c => v = c
  | _ => True

theorem sat_of_le {P : Prim} {st : St} {m : Mach} {L : Slot → Val} {s : Slot} {T : Mode}
    (h : RepSlot P st m L s) (hle : Le (st.mode s) T) : SatM (L s) T := by
  unfold RepSlot at h
  cases T with
  | S g =>
    rcases hle.2 with rfl | hg
    · rfl
    · have hlive := hle.1
      show g.sat (L s) = true
      cases hm : st.mode s with
      | F x =>
        simp only [hm, Mode.guarded, Option.some.injEq] at hg h
        subst hg; rw [h]; rfl
      | Sf x k =>
        simp only [hm, Mode.guarded, Option.some.injEq] at hg h
        subst hg; exact SfG.sat_toG h.2.1
      | S k =>
        simp only [hm, Mode.guarded, Option.some.injEq] at hg h
        subst hg; exact h.1
      | C v =>
        simp only [hm, Mode.guarded, Option.some.injEq] at hg h
        subst hg; rw [h]
        cases v with
        | fix i => rfl
        | flo f => rfl
        | obj c i =>
          show (if c = intClass then Guarded.value else Guarded.cls c).sat (.obj c i) = true
          by_cases hc : c = intClass
          · rw [if_pos hc]; rfl
          · rw [if_neg hc]; simp [Guarded.sat]
      | V => simp [hm, Mode.live] at hlive
      | none => simp [hm, Mode.live] at hlive
      | maybeNone => simp [hm, Mode.live] at hlive
  | Sf x g =>
    rcases hle with ⟨y, hm, hg⟩ | ⟨y, k, hm, hg⟩ | ⟨v, k, hm, hv, hg⟩
    · simp only [hm] at h
      cases g with
      | fixnum => exact absurd rfl hg
      | float => exact ⟨_, h⟩
      | both => exact .inr ⟨_, h⟩
    · simp only [hm] at h
      rcases hg with rfl | rfl
      · exact h.2.1
      · cases k with
        | fixnum => exact .inl h.2.1
        | float => exact .inr h.2.1
        | both => exact h.2.1
    · simp only [hm] at h
      rw [h]
      cases v with
      | fix i =>
        cases hv
        rcases hg with rfl | rfl
        · exact ⟨i, rfl⟩
        · exact .inl ⟨i, rfl⟩
      | flo f =>
        cases hv
        rcases hg with rfl | rfl
        · exact ⟨f, rfl⟩
        · exact .inr ⟨f, rfl⟩
      | obj c i => cases hv
  | C v =>
    rw [show st.mode s = .C v from hle] at h
    exact h
  | _ => trivial

/-- After the bridge the machine carries the frame as the joined state describes. -/
theorem bridge_ok {P : Prim} {st T st' : St} {m : Mach} {L : Slot → Val} {ins : List Ins}
    (w : WF st) (hgp : ∀ r, st.gp r = none) (rep : Rep P st m L All) (wT : WF T) (hT : ∀ r, T.gp r = none)
    (hn : T.n = st.n) (hle : ∀ t, Le (st.mode t) (T.mode t)) (hsafe : bridgeSafe st T = true)
    (e : st.bridge T = some (st', ins)) : ∃ m', exec P m ins = .ok m' ∧ Rep P T m' L All := by
  have hloc := located_of_rep rep hgp
  obtain ⟨m', e', w', g', n', loc', fin', reg'⟩ := bridgeFrom_ok (P := P) (T := T) (L := L) st.n 0 (st.growTo T.vf.length) st' m ins
    (growTo_wf w _) hgp (Nat.zero_add _) hloc (fun t _ => hle t) (fun t ht => absurd ht (Nat.not_lt_zero t)) hsafe e
  refine ⟨m', e', ⟨fun t _ => ?_, fun r h hg => by rw [hT r] at hg; cases hg⟩⟩
  by_cases ht : t < st.n
  · have hsat := sat_of_le (rep.slot t trivial) (hle t)
    have hfin := fin' t ht
    have hreg := reg' t ht
    have hl := loc' t
    unfold RepSlot
    cases hm : T.mode t with
    | S g => rw [hm] at hsat hfin; exact ⟨hsat, fun _ => hfin⟩
    | C v => rw [hm] at hsat; exact hsat
    | F x =>
      rw [hm] at hfin hreg
      have hreg : (st'.mode t).reg = some x := of_decide_eq_true hreg
      cases hm' : st'.mode t with
      | F y =>
        rw [hm'] at hreg hl
        cases hreg
        exact hl
      | _ => rw [hm'] at hfin; simp [Settled, Mode.isF] at hfin
    | Sf x g =>
      rw [hm] at hsat hfin hreg
      have hreg : (st'.mode t).reg = some x := of_decide_eq_true hreg
      exact ⟨hfin, hsat, loc_reg hl hreg⟩
    | V => trivial
    | none => trivial
    | maybeNone => trivial
  · unfold RepSlot
    rw [wT.big t (by rw [hn]; exact Nat.not_lt.1 ht)]
    trivial

/-! ### Programs -/

/-- Compiles without a static hazard. -/
def progSafe (P : Prim) : St → Prog → Bool
  | st, .blk ops => blockSafe P st ops
  | st, .seq p q =>
    progSafe P st p && match compileProg P st p with
      | none => false
      | some (st1, _) => progSafe P st1 q
  | st, .ite _ p q =>
    let f := st.flushGp.1
    progSafe P f p && progSafe P f q && match compileProg P f p, compileProg P f q with
      | some (sp, _), some (sq, _) =>
        match join2 sp.flushGp.1 sq.flushGp.1 with
        | none => false
        | some T => bridgeSafe sp.flushGp.1 T && bridgeSafe sq.flushGp.1 T
      | _, _ => false

/-- the instructions of a program -/
def Prog.ops : Prog → List Op
  | .blk ops => ops
  | .seq p q => p.ops ++ q.ops
  | .ite _ p q => p.ops ++ q.ops

/-- The interpreted run meets no `-2^62 / -1`. -/
def noMinDivP (P : Prim) : (Slot → Val) → Prog → Prop
  | L, .blk ops => noMinDiv P L ops
  | L, .seq p q => noMinDivP P L p ∧ ∀ L', interpP P L p = .fin L' → noMinDivP P L' q
  | L, .ite c p q => if (L c).truthy then noMinDivP P L p else noMinDivP P L q

/-- Two ends agree on the slots a state describes; after an exception, on the locals. -/
def AgreeAt (st : St) (loc : Nat) : Outcome → Outcome → Prop
  | .fin a, .fin b => ∀ s, (st.mode s).live = true → a s = b s
  | .raised a, .raised b => ∀ s : Nat, s < loc → a s = b s
  | _, _ => False

/-- every local is described -/
def Covers (st : St) (loc : Nat) : Prop := ∀ s : Nat, s < loc → (st.mode s).live = true

theorem AgreeAt.weaken {st T : St} {loc : Nat} {a b : Outcome} (h : AgreeAt st loc a b)
    (hl : ∀ s, (T.mode s).live = true → (st.mode s).live = true) : AgreeAt T loc a b := by
  cases a <;> cases b <;> try exact h
  intro s hs; exact h s (hl s hs)

theorem AgreeAt.toAgree {st : St} {loc : Nat} {a b : Outcome} (h : AgreeAt st loc a b) (hc : Covers st loc) :
    Outcome.agree loc a b := by
  cases a <;> cases b <;> try exact h
  intro s hs; exact h s (hc s hs)

theorem AgreeAt.refl (st : St) (loc : Nat) (a : Outcome) : AgreeAt st loc a a := by
  cases a <;> intro _ _ <;> rfl

theorem blk_agree {P : Prim} {loc : Nat} : ∀ (ops : List Op) (st stf : St) (code : List (List Ins)) (A B : Slot → Val),
    compileBlock P st ops = some (stf, code) →
    blockSafe P st ops = true → Big st → Covers st loc → (∀ op ∈ ops, loc ≤ op.sp) →
    (∀ s, (st.mode s).live = true → A s = B s) →
    AgreeAt stf loc (interp P A ops) (interp P B ops) ∧ Covers stf loc := by
  intro ops
  induction ops with
  | nil =>
    intro st stf code A B hc _ _ hcov _ hAB
    simp only [compileBlock, Option.some.injEq, Prod.mk.injEq] at hc
    obtain ⟨rfl, rfl⟩ := hc
    exact ⟨fun s hs => hAB s hs, hcov⟩
  | cons op ops ih =>
    intro st stf code A B hc hsafe hb hcov hsp hAB
    unfold blockSafe at hsafe
    unfold compileBlock at hc
    cases hst : st.step P op with
    | none => simp [hst] at hsafe
    | some p =>
      obtain ⟨st', ins⟩ := p
      simp only [hst, Bool.and_eq_true] at hsafe
      simp only [hst, Option.map_eq_some_iff, Prod.mk.injEq] at hc
      obtain ⟨⟨stf', rest⟩, hcb, rfl, rfl⟩ := hc
      obtain ⟨hr, hb', _, hlive⟩ := step_live hb (safe_self hsafe.1) hst
      have hres := result_congr (P := P) (fun s hs => hAB s (hr s hs))
      have hcov' : Covers st' loc := fun s hs =>
        (hlive s).2 ⟨Nat.lt_of_lt_of_le hs (hsp op (by simp)), .inl (hcov s hs)⟩
      have hsp' : ∀ o ∈ ops, loc ≤ o.sp := fun o ho => hsp o (List.mem_cons_of_mem _ ho)
      unfold interp
      rw [interp1_eq, interp1_eq, hres]
      cases hv : op.result P B with
      | none => exact ⟨fun s hs => hAB s (hcov s hs), (ih st' stf' rest B B hcb hsafe.2 hb' hcov' hsp' (fun _ _ => rfl)).2⟩
      | some v =>
        simp only [Option.map_some]
        refine ih st' stf' rest _ _ hcb hsafe.2 hb' hcov' hsp' ?_
        intro s hs
        by_cases hd : some s = op.dst
        · rw [setD_dst hd, setD_dst hd]
        · rw [setD_ne hd, setD_ne hd]
          rcases ((hlive s).1 hs).2 with h | h
          · exact hAB s h
          · exact absurd h hd

/-- What a compiled run may end with, against the interpreter's end. -/
def RunOk (P : Prim) (stf : St) (loc : Nat) (L : Slot → Val) (p : Prog) : Run → Prop
  | .ok m => ∃ L', interpP P L p = .fin L' ∧ Rep P stf m L' All ∧ Ranged L'
  | .exit stk rest => AgreeAt stf loc (interpP P stk rest) (interpP P L p)

end Verif.JitState
