import Verif.JitState.MergeProof

/-! A bridge moves the frame to where the joined state says it is. -/

namespace Verif.JitState

/-- Where a mode says the value `v` of a slot with stack home `home` is. -/
def LocM (P : Prim) (m : Mach) (home v : Val) : Mode → Prop
  | .S _ => home = v
  | .F x => v = .flo (m.fpr x)
  | .Sf x _ => home = v ∧ m.fpr x = toF P v
  | .C c => v = c
  | _ => True

/-- everything is where the state says -/
def Located (P : Prim) (st : St) (m : Mach) (L : Slot → Val) : Prop :=
  ∀ t, LocM P m (m.stack t) (L t) (st.mode t)

theorem located_of_rep {P : Prim} {st : St} {m : Mach} {L : Slot → Val} (rep : Rep P st m L All)
    (hgp : ∀ r, st.gp r = none) : Located P st m L := by
  intro t
  have h := rep.slot t trivial
  unfold RepSlot at h
  unfold LocM
  cases hm : st.mode t <;> rw [hm] at h <;> try trivial
  case S => exact h.2 (fun r hh hg => by rw [hgp r] at hg; cases hg)
  case Sf => exact ⟨h.1, h.2.2⟩

theorem loc_reg {P : Prim} {m : Mach} {home v : Val} {md : Mode} {x : FReg} (h : LocM P m home v md)
    (hr : md.reg = some x) : m.fpr x = toF P v := by
  cases md <;> simp [Mode.reg] at hr
  · subst hr
    rw [show v = .flo _ from h]; rfl
  · subst hr; exact h.2

/-- the FP registers of a mode moved -/
theorem loc_move {P : Prim} {m m' : Mach} {home v : Val} {md : Mode}
    (hf : ∀ x, md.reg = some x → m'.fpr x = m.fpr x) (h : LocM P m home v md) : LocM P m' home v md := by
  cases md <;> try exact h
  · show v = .flo (m'.fpr _)
    rw [hf _ rfl]; exact h
  · exact ⟨h.1, by rw [hf _ rfl]; exact h.2⟩

theorem relink_located {P : Prim} {st : St} {m m' : Mach} {L : Slot → Val} {s : Slot} {M : Mode}
    (h : Located P st m L) (hst : ∀ t, t ≠ s → m'.stack t = m.stack t)
    (hf : ∀ t x, t ≠ s → (st.mode t).reg = some x → m'.fpr x = m.fpr x)
    (hM : LocM P m' (m'.stack s) (L s) M) : Located P (st.relink s M) m' L := by
  intro t
  rw [(relink_fields st s M).2.2.2.1]
  by_cases ht : t = s
  · subst ht; rw [upd_same]; exact hM
  · rw [upd_ne _ _ ht, hst t ht]; exact loc_move (fun x hx => hf t x ht hx) (h t)

theorem vacant_ne {st : St} (w : WF st) {x : FReg} (h : st.vacant x = true) (t : Slot) (y : FReg)
    (hy : (st.mode t).reg = some y) : y ≠ x := by
  rintro rfl
  have := (w.vf y t).2 hy
  unfold St.vacant at h
  rw [List.isEmpty_iff] at h
  rw [h] at this
  simp at this

/-! ### Swaps -/

theorem swapReg_inv (l r x : FReg) : swapReg l r (swapReg l r x) = x := by
  unfold swapReg
  by_cases h1 : x = l
  · subst h1
    by_cases h2 : r = x
    · simp [h2]
    · simp [h2]
  · by_cases h2 : x = r
    · subst h2; simp
    · simp [h1, h2]

theorem swapReg_self (l x : FReg) : swapReg l l x = x := by
  unfold swapReg; split <;> simp_all

theorem Mode.swap_self (l : FReg) (md : Mode) : md.swap l l = md := by
  cases md <;> simp [Mode.swap, swapReg_self]

theorem swap_reg (l r : FReg) (md : Mode) : (md.swap l r).reg = md.reg.map (swapReg l r) := by
  cases md <;> rfl

theorem swap_isF (l r : FReg) (md : Mode) : (md.swap l r).isF = md.isF := by cases md <;> rfl
theorem swap_live (l r : FReg) (md : Mode) : (md.swap l r).live = md.live := by cases md <;> rfl

theorem swap_le {l r : FReg} {a b : Mode} (h : Le a b) : Le (a.swap l r) b := by
  have : Le (a.swap l r) a := by
    cases a with
    | S g => exact Le.refl _
    | F x => exact .inl rfl
    | Sf x g => exact .inr (.inl ⟨_, g, rfl, .inl rfl⟩)
    | C v => exact rfl
    | _ => trivial
  exact this.trans h

theorem swap_slots (st : St) {l r : FReg} (hl : l < st.vf.length) (hr : r < st.vf.length) (x : FReg) :
    (st.fprSwap l r).slots x = st.slots (swapReg l r x) := by
  show ((st.vf.set l (st.slots r)).set r (st.slots l)).getD x [] = _
  rw [List.getD_eq_getElem?_getD, List.getElem?_set, List.getElem?_set]
  unfold swapReg
  by_cases h1 : r = x
  · subst h1
    simp only [List.length_set, hr, if_true]
    by_cases h2 : r = l
    · subst h2; simp
    · rw [if_neg h2]; simp
  · rw [if_neg h1]
    by_cases h2 : l = x
    · subst h2; simp [hl]
    · rw [if_neg h2, if_neg (fun e => h2 e.symm), if_neg (fun e => h1 e.symm)]
      unfold St.slots; rw [List.getD_eq_getElem?_getD]

theorem swap_wf {st : St} (w : WF st) {l r : FReg} (hl : l < st.vf.length) (hr : r < st.vf.length)
    (hgp : ∀ q, st.gp q = none) : WF (st.fprSwap l r) where
  vf x s := by
    rw [swap_slots st hl hr]
    show _ ↔ ((st.mode s).swap l r).reg = some x
    rw [w.vf, swap_reg]
    cases (st.mode s).reg with
    | none => simp
    | some y =>
      simp only [Option.some.injEq, Option.map_some]
      constructor
      · rintro rfl; rw [swapReg_inv]
      · rintro rfl; rw [swapReg_inv]
  inj q q' h h' e := by rw [show (st.fprSwap l r).gp q = none from hgp q] at e; cases e
  lt q h e := by rw [show (st.fprSwap l r).gp q = none from hgp q] at e; cases e
  dirty q h e := by rw [show (st.fprSwap l r).gp q = none from hgp q] at e; cases e
  big s hs := by
    show (st.mode s).swap l r = .V
    rw [w.big s hs]; rfl

theorem swap_fpr (m : Mach) (l r x : FReg) :
    upd (upd m.fpr l (m.fpr r)) r (m.fpr l) (swapReg l r x) = m.fpr x := by
  unfold swapReg
  by_cases h1 : x = l
  · subst h1; simp
  · rw [if_neg h1]
    by_cases h2 : x = r
    · subst h2
      rw [if_pos rfl]
      by_cases h3 : l = x
      · exact absurd h3.symm h1
      · rw [upd_ne _ _ h3, upd_same]
    · rw [if_neg h2, upd_ne _ _ h2, upd_ne _ _ h1]

theorem swap_located {P : Prim} {st : St} {m : Mach} {L : Slot → Val} {l r : FReg} (h : Located P st m L) :
    Located P (st.fprSwap l r) { m with fpr := upd (upd m.fpr l (m.fpr r)) r (m.fpr l) } L := by
  intro t
  have ht := h t
  show LocM P _ (m.stack t) (L t) ((st.mode t).swap l r)
  cases hm : st.mode t <;> rw [hm] at ht <;> try exact ht
  · unfold LocM at ht ⊢
    simp only [Mode.swap]
    rw [swap_fpr]; exact ht
  · refine ⟨ht.1, ?_⟩
    show upd (upd m.fpr l (m.fpr r)) r (m.fpr l) (swapReg l r _) = _
    rw [swap_fpr]; exact ht.2

/-! ### One slot -/

/-- A literal bound for a register of the joined state finds it free. -/
def litFree (st : St) (T : Mode) (s : Slot) : Bool :=
  match st.mode s, T with
  | .C _, .F r => st.vacant r
  | .C _, .Sf r _ => st.vacant r
  | _, _ => true

/-- what a bridge achieves for its slot -/
def Settled (md : Mode) (home v : Val) : Mode → Prop
  | .S _ => home = v
  | .Sf _ _ => home = v
  | .F _ => md.isF = true
  | _ => True

structure StepOk (P : Prim) (st st' : St) (m m' : Mach) (L : Slot → Val) (T : Mode) (s : Slot) : Prop where
  wf : WF st'
  gp : ∀ r, st'.gp r = none
  n : st'.n = st.n
  len : st'.vf.length = st.vf.length
  loc : Located P st' m' L
  stack : ∀ t, t ≠ s → m'.stack t = m.stack t
  mode : ∃ l r, ∀ t, t ≠ s → st'.mode t = (st.mode t).swap l r
  fin : Settled (st'.mode s) (m'.stack s) (L s) T

theorem stepOk_relink {P : Prim} {st : St} {m m' : Mach} {L : Slot → Val} {T M : Mode} {s : Slot}
    (w : WF st) (hgp : ∀ r, st.gp r = none) (hs : s < st.n) (hM : ∀ y, M.reg = some y → y < st.vf.length)
    (h : Located P st m L) (hst : ∀ t, t ≠ s → m'.stack t = m.stack t)
    (hf : ∀ t x, t ≠ s → (st.mode t).reg = some x → m'.fpr x = m.fpr x)
    (hL : LocM P m' (m'.stack s) (L s) M) (hfin : Settled M (m'.stack s) (L s) T) :
    StepOk P st (st.relink s M) m m' L T s := by
  obtain ⟨f1, f2, f3, f4, f5⟩ := relink_fields st s M
  refine ⟨relink_wf w (.inl hs) hM, ?_, f1, f5, relink_located h hst hf hL, hst, ⟨0, 0, ?_⟩, ?_⟩
  · intro r; rw [f3]; simp [St.invalidate, hgp]
  · intro t ht; rw [f4, upd_ne _ _ ht, Mode.swap_self]
  · rw [f4, upd_same]; exact hfin

theorem stepOk_same {P : Prim} {st : St} {m : Mach} {L : Slot → Val} {T : Mode} {s : Slot}
    (w : WF st) (hgp : ∀ r, st.gp r = none) (h : Located P st m L)
    (hfin : Settled (st.mode s) (m.stack s) (L s) T) : StepOk P st st m m L T s :=
  ⟨w, hgp, rfl, rfl, h, fun _ _ => rfl, ⟨0, 0, fun t _ => (Mode.swap_self 0 _).symm⟩, hfin⟩

theorem stepOk_swap {P : Prim} {st : St} {m : Mach} {L : Slot → Val} {T : Mode} {s : Slot} {l r : FReg}
    (w : WF st) (hgp : ∀ r, st.gp r = none) (hl : l < st.vf.length) (hr : r < st.vf.length) (h : Located P st m L)
    (hfin : Settled (st.mode s) (m.stack s) (L s) T) :
    StepOk P st (st.fprSwap l r) m { m with fpr := upd (upd m.fpr l (m.fpr r)) r (m.fpr l) } L T s := by
  refine ⟨swap_wf w hl hr hgp, hgp, rfl, by simp [St.fprSwap], swap_located h, fun _ _ => rfl, ⟨l, r, fun _ _ => rfl⟩, ?_⟩
  show Settled ((st.mode s).swap l r) (m.stack s) (L s) T
  cases T <;> try exact hfin
  exact (swap_isF l r _).trans hfin

/-- first store the slot, then whatever -/
theorem stepOk_store {P : Prim} {st st' : St} {m m' : Mach} {L : Slot → Val} {T : Mode} {s : Slot}
    (h : StepOk P st st' { m with stack := upd m.stack s (L s) } m' L T s) : StepOk P st st' m m' L T s :=
  ⟨h.wf, h.gp, h.n, h.len, h.loc, fun t ht => by rw [h.stack t ht]; exact upd_ne _ _ ht, h.mode, h.fin⟩

theorem located_store {P : Prim} {st : St} {m : Mach} {L : Slot → Val} {s : Slot} (h : Located P st m L) :
    Located P st { m with stack := upd m.stack s (L s) } L := by
  intro t
  by_cases ht : t = s
  · subst ht
    have := h t
    show LocM P _ (upd m.stack t (L t) t) (L t) (st.mode t)
    rw [upd_same]
    cases hm : st.mode t <;> rw [hm] at this <;> try exact this
    case S => exact (rfl : L t = L t)
    case Sf => exact ⟨rfl, this.2⟩
  · show LocM P _ (upd m.stack s (L s) t) (L t) (st.mode t)
    rw [upd_ne _ _ ht]; exact loc_move (fun _ _ => rfl) (h t)

theorem toSf_ok {P : Prim} {st st' : St} {m : Mach} {L : Slot → Val} {s : Slot} {l r : FReg} {g g' : SfG} {ins : List Ins}
    (w : WF st) (hgp : ∀ r, st.gp r = none) (hs : s < st.n) (h : Located P st m L) (hl : (st.mode s).reg = some l)
    (hr : r < st.vf.length) (hhome : m.stack s = L s) (e : st.toSf s l r g = (st', ins)) :
    ∃ m', exec P m ins = .ok m' ∧ StepOk P st st' m m' L (.Sf r g') s := by
  unfold St.toSf at e
  by_cases hv : st.vacant r = true
  · rw [if_pos hv] at e
    obtain ⟨rfl, rfl⟩ := Prod.mk.inj e
    refine ⟨{ m with fpr := upd m.fpr r (m.fpr l) }, rfl,
      stepOk_relink (M := .Sf r g) w hgp hs (fun y hy => by cases hy; exact hr) h (fun _ _ => rfl) ?_ ⟨hhome, ?_⟩ hhome⟩
    · intro t x _ hx
      exact upd_ne _ _ (vacant_ne w hv t x hx)
    · show upd m.fpr r (m.fpr l) r = _
      rw [upd_same]; exact loc_reg (h s) hl
  · rw [if_neg hv] at e
    obtain ⟨rfl, rfl⟩ := Prod.mk.inj e
    exact ⟨_, rfl, stepOk_swap w hgp (St.slots_lt ((w.vf l s).2 hl)) hr h hhome⟩

theorem bridge1_ok {P : Prim} {st st' : St} {m : Mach} {L : Slot → Val} {T : Mode} {s : Slot} {ins : List Ins}
    (w : WF st) (hgp : ∀ r, st.gp r = none) (hs : s < st.n) (h : Located P st m L) (hle : Le (st.mode s) T)
    (hlit : litFree st T s = true) (e : st.bridge1 T s = some (st', ins)) :
    ∃ m', exec P m ins = .ok m' ∧ StepOk P st st' m m' L T s := by
  unfold St.bridge1 at e
  by_cases hlen : T.beyond st.vf.length = true
  · rw [if_pos hlen] at e; cases e
  rw [if_neg hlen] at e
  have hloc := h s
  have regLt : ∀ x, (st.mode s).reg = some x → x < st.vf.length := fun x hx => St.slots_lt ((w.vf x s).2 hx)
  cases T with
  | V =>
    cases hm : st.mode s with
    | V =>
      simp only [hm, Option.some.injEq, Prod.mk.injEq] at e
      obtain ⟨rfl, rfl⟩ := e
      exact ⟨m, rfl, stepOk_same w hgp h trivial⟩
    | _ =>
      simp only [hm, Option.map_eq_some_iff, Prod.mk.injEq] at e
      obtain ⟨st1, hd, rfl, rfl⟩ := e
      obtain ⟨_, _, rfl⟩ := discard_some hd
      rw [clear_eq]
      exact ⟨m, rfl, stepOk_relink (M := .V) w hgp hs (by simp [Mode.reg]) h (fun _ _ => rfl) (fun _ _ _ _ => rfl) trivial trivial⟩
  | F r =>
    have hr : r < st.vf.length := by simpa [Mode.beyond] using hlen
    cases hm : st.mode s with
    | F l =>
      rw [hm] at hloc
      have hv : L s = .flo (m.fpr l) := hloc
      simp only [hm] at e
      split at e
      · cases e
        exact ⟨m, rfl, stepOk_same w hgp h (by rw [hm]; rfl)⟩
      · split at e
        · rename_i hvac
          cases e
          refine ⟨{ m with fpr := upd m.fpr r (m.fpr l) }, rfl,
            stepOk_relink (M := .F r) w hgp hs (fun y hy => by cases hy; exact hr) h (fun _ _ => rfl) ?_ ?_ rfl⟩
          · intro t x _ hx
            exact upd_ne _ _ (vacant_ne w hvac t x hx)
          · show L s = .flo (upd m.fpr r (m.fpr l) r)
            rw [upd_same]; exact hv
        · cases e
          exact ⟨_, rfl, stepOk_swap w hgp (regLt l (by rw [hm]; rfl)) hr h (by rw [hm]; rfl)⟩
    | C v =>
      rw [hm] at hloc
      simp only [litFree, hm] at hlit
      cases v with
      | flo f =>
        simp only [hm, Option.some.injEq, Prod.mk.injEq] at e
        obtain ⟨rfl, rfl⟩ := e
        refine ⟨{ m with fpr := upd m.fpr r f }, rfl,
          stepOk_relink (M := .F r) w hgp hs (fun y hy => by cases hy; exact hr) h (fun _ _ => rfl) ?_ ?_ rfl⟩
        · intro t x _ hx
          exact upd_ne _ _ (vacant_ne w hlit t x hx)
        · show L s = .flo (upd m.fpr r f r)
          rw [upd_same]; exact hloc
      | fix i => simp [hm] at e
      | obj c i => simp [hm] at e
    | Sf l g => rw [hm] at hle; rcases hle with h | ⟨f, h⟩ <;> simp [Mode.isF] at h
    | S g => rw [hm] at hle; rcases hle with h | ⟨f, h⟩ <;> simp [Mode.isF] at h
    | V => rw [hm] at hle; rcases hle with h | ⟨f, h⟩ <;> simp [Mode.isF] at h
    | none => rw [hm] at hle; rcases hle with h | ⟨f, h⟩ <;> simp [Mode.isF] at h
    | maybeNone => rw [hm] at hle; rcases hle with h | ⟨f, h⟩ <;> simp [Mode.isF] at h
  | Sf r g =>
    have hr : r < st.vf.length := by simpa [Mode.beyond] using hlen
    cases hm : st.mode s with
    | F l =>
      rw [hm] at hloc
      have hv : L s = .flo (m.fpr l) := hloc
      have hg : g ≠ .fixnum := by
        rw [hm] at hle
        rcases hle with ⟨x, _, h⟩ | ⟨x, h, e, _⟩ | ⟨v, h, e, _⟩
        · exact h
        · cases e
        · cases e
      have hx2s : exec1 P m (.x2s l s) = .ok { m with stack := upd m.stack s (L s) } := by
        rw [hv]; rfl
      have e' : (if l = r then some (st.setSf s l g, [Ins.x2s l s])
          else some ((st.toSf s l r g).1, Ins.x2s l s :: (st.toSf s l r g).2)) = some (st', ins) := by
        cases g with
        | fixnum => exact absurd rfl hg
        | float => simpa only [hm] using e
        | both => simpa only [hm] using e
      split at e'
      · rename_i hlr
        subst hlr
        cases e'
        refine ⟨{ m with stack := upd m.stack s (L s) }, by simp only [exec, hx2s], stepOk_store ?_⟩
        refine stepOk_relink (M := .Sf l g) w hgp hs (fun y hy => by cases hy; exact hr) (located_store h)
          (fun _ _ => rfl) (fun _ _ _ _ => rfl) ⟨upd_same _ _ _, ?_⟩ (upd_same _ _ _)
        rw [hv]; rfl
      · simp only [Option.some.injEq, Prod.mk.injEq] at e'
        obtain ⟨rfl, rfl⟩ := e'
        obtain ⟨m', e1, e2⟩ := toSf_ok (g' := g) w hgp hs (located_store (s := s) h) (by rw [hm]; rfl) hr (upd_same _ _ _)
          (show st.toSf s l r g = _ from rfl)
        exact ⟨m', by simp only [exec, hx2s]; exact e1, stepOk_store e2⟩
    | Sf l g' =>
      rw [hm] at hloc
      simp only [hm] at e
      split at e
      · cases e
        exact ⟨m, rfl, stepOk_same w hgp h hloc.1⟩
      · simp only [Option.some.injEq] at e
        exact toSf_ok w hgp hs h (by rw [hm]; rfl) hr hloc.1 e
    | C v =>
      rw [hm] at hloc
      simp only [litFree, hm] at hlit
      cases v with
      | flo f =>
        simp only [hm, Option.some.injEq, Prod.mk.injEq] at e
        obtain ⟨rfl, rfl⟩ := e
        have hv : L s = .flo f := hloc
        refine ⟨{ m with fpr := upd m.fpr r f, stack := upd m.stack s (.flo f) }, rfl,
          stepOk_relink (M := .Sf r .float) w hgp hs (fun y hy => by cases hy; exact hr) h (fun t ht => upd_ne _ _ ht) ?_ ?_ ?_⟩
        · intro t x _ hx
          exact upd_ne _ _ (vacant_ne w hlit t x hx)
        · rw [hv]; exact ⟨upd_same _ _ _, upd_same _ _ _⟩
        · rw [hv]; exact upd_same _ _ _
      | fix i =>
        simp only [hm, Option.some.injEq, Prod.mk.injEq] at e
        obtain ⟨rfl, rfl⟩ := e
        have hv : L s = .fix i := hloc
        refine ⟨{ m with stack := upd m.stack s (.fix i), fpr := upd m.fpr r (P.i2f i) }, rfl,
          stepOk_relink (M := .Sf r .float) w hgp hs (fun y hy => by cases hy; exact hr) h (fun t ht => upd_ne _ _ ht) ?_ ?_ ?_⟩
        · intro t x _ hx
          exact upd_ne _ _ (vacant_ne w hlit t x hx)
        · rw [hv]; exact ⟨upd_same _ _ _, upd_same _ _ _⟩
        · rw [hv]; exact upd_same _ _ _
      | obj c i => simp [hm] at e
    | S g' => rw [hm] at hle; rcases hle with ⟨_, h, _⟩ | ⟨_, _, h, _⟩ | ⟨_, _, h, _⟩ <;> cases h
    | V => rw [hm] at hle; rcases hle with ⟨_, h, _⟩ | ⟨_, _, h, _⟩ | ⟨_, _, h, _⟩ <;> cases h
    | none => rw [hm] at hle; rcases hle with ⟨_, h, _⟩ | ⟨_, _, h, _⟩ | ⟨_, _, h, _⟩ <;> cases h
    | maybeNone => rw [hm] at hle; rcases hle with ⟨_, h, _⟩ | ⟨_, _, h, _⟩ | ⟨_, _, h, _⟩ <;> cases h
  | S g =>
    cases hm : st.mode s with
    | F l =>
      rw [hm] at hloc
      have hv : L s = .flo (m.fpr l) := hloc
      have hx2s : exec1 P m (.x2s l s) = .ok { m with stack := upd m.stack s (L s) } := by
        rw [hv]; rfl
      have hst : st.storeIns s = [] := by
        have : st.dirtyRegOf s = none := by
          cases hd : st.dirtyRegOf s with
          | none => rfl
          | some r => obtain ⟨_, hh, hg, _⟩ := St.dirtyRegOf_some hd; rw [hgp r] at hg; cases hg
        simp [St.storeIns, this]
      have hinv : st.invalidate s = st := by
        have : (st.invalidate s).gp = st.gp := by funext r; simp [St.invalidate, hgp]
        unfold St.invalidate at this ⊢
        simp only at this
        rw [this]
      simp only [hm, St.writeBackSlot, hst, hinv, List.nil_append, Option.some.injEq, Prod.mk.injEq] at e
      obtain ⟨rfl, rfl⟩ := e
      refine ⟨{ m with stack := upd m.stack s (L s) }, by simp only [exec, hx2s], stepOk_store ?_⟩
      refine stepOk_relink (M := .Sf l .float) w hgp hs (fun y hy => by cases hy; exact regLt l (by rw [hm]; rfl))
        (located_store h) (fun _ _ => rfl) (fun _ _ _ _ => rfl) ⟨upd_same _ _ _, ?_⟩ (upd_same _ _ _)
      rw [hv]; rfl
    | Sf l g' =>
      rw [hm] at hloc
      simp only [hm, Option.some.injEq, Prod.mk.injEq] at e
      obtain ⟨rfl, rfl⟩ := e
      exact ⟨m, rfl, stepOk_relink (M := .S g'.toG) w hgp hs (by simp [Mode.reg]) h (fun _ _ => rfl) (fun _ _ _ _ => rfl)
        hloc.1 hloc.1⟩
    | S g' =>
      rw [hm] at hloc
      have hng : needGuard g' g = false := by
        rw [hm] at hle
        rcases hle.2 with rfl | h
        · rfl
        · simp only [Mode.guarded, Option.some.injEq] at h
          subst h; simp [needGuard]
      simp only [hm, hng, Bool.false_eq_true, if_false, Option.some.injEq, Prod.mk.injEq] at e
      obtain ⟨rfl, rfl⟩ := e
      exact ⟨m, rfl, stepOk_same w hgp h hloc⟩
    | C v =>
      rw [hm] at hloc
      have hv : L s = v := hloc
      have e' : (st.setMode s (.S (Guarded.ofVal v)), [Ins.l2s v s]) = (st', ins) := by
        cases v <;> simpa [hm] using e
      obtain ⟨rfl, rfl⟩ := Prod.mk.inj e'
      refine ⟨{ m with stack := upd m.stack s v }, rfl, ?_⟩
      have hmode : (st.setMode s (.S (Guarded.ofVal v))).mode = upd st.mode s (.S (Guarded.ofVal v)) := by
        funext t; simp [St.setMode, upd]
      refine ⟨⟨?_, ?_, ?_, ?_, ?_⟩, hgp, rfl, rfl, ?_, fun t ht => upd_ne _ _ ht, ⟨0, 0, ?_⟩, ?_⟩
      · intro x t
        rw [hmode]
        show t ∈ st.slots x ↔ _
        rw [w.vf]
        by_cases ht : t = s
        · subst ht; rw [upd_same, hm]; simp [Mode.reg]
        · rw [upd_ne _ _ ht]
      · intro r r' h h' e; rw [show (st.setMode s _).gp r = none from hgp r] at e; cases e
      · intro r h e; rw [show (st.setMode s _).gp r = none from hgp r] at e; cases e
      · intro r h e; rw [show (st.setMode s _).gp r = none from hgp r] at e; cases e
      · intro t ht
        rw [hmode, upd_ne _ _ (by rintro rfl; exact absurd hs (Nat.not_lt.2 ht))]
        exact w.big t ht
      · intro t
        rw [hmode]
        by_cases ht : t = s
        · subst ht; rw [upd_same, hv]; exact upd_same _ _ _
        · rw [upd_ne _ _ ht]
          show LocM P _ (upd m.stack s v t) _ _
          rw [upd_ne _ _ ht]
          exact loc_move (fun _ _ => rfl) (h t)
      · intro t ht; rw [hmode, upd_ne _ _ ht, Mode.swap_self]
      · rw [hv]; exact upd_same _ _ _
    | V => rw [hm] at hle; simp [Le, Mode.live] at hle
    | none => rw [hm] at hle; simp [Le, Mode.live] at hle
    | maybeNone => rw [hm] at hle; simp [Le, Mode.live] at hle
  | C v =>
    have hm : st.mode s = .C v := hle
    have e' : (if v = v then some (st, ([] : List Ins)) else none) = some (st', ins) := by
      cases v <;> simpa [hm] using e
    simp only [if_true, Option.some.injEq, Prod.mk.injEq] at e'
    obtain ⟨rfl, rfl⟩ := e'
    exact ⟨m, rfl, stepOk_same w hgp h trivial⟩
  | none =>
    have e' : st = st' ∧ ins = [] := by
      revert e
      cases st.mode s <;> simp
      all_goals first | (rename_i v; cases v <;> simp) | (intro h1 h2; exact ⟨h1, h2⟩)
    obtain ⟨rfl, rfl⟩ := e'
    exact ⟨m, rfl, stepOk_same w hgp h trivial⟩
  | maybeNone =>
    have e' : st = st' ∧ ins = [] := by
      revert e
      cases st.mode s <;> simp
      all_goals first | (rename_i v; cases v <;> simp) | (intro h1 h2; exact ⟨h1, h2⟩)
    obtain ⟨rfl, rfl⟩ := e'
    exact ⟨m, rfl, stepOk_same w hgp h trivial⟩

end Verif.JitState
