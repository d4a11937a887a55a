import Verif.JitState.Model
import Mathlib.Tactic.ByContra

/-! Invariants of the slot state, what it says about a machine, and the snapshot
lemma behind every side exit. -/

namespace Verif.JitState

/-- Does the mode say the slot holds a value? -/
def Mode.live : Mode → Bool
  | .none | .maybeNone | .V => false
  | _ => true

/-- An FP register the mode refers to. -/
def Mode.reg : Mode → Option FReg
  | .F x => some x
  | .Sf x _ => some x
  | _ => Option.none

/-- `SfGuarded` as a predicate on values. -/
def SfG.sat : SfG → Val → Prop
  | .fixnum, v => ∃ i, v = .fix i
  | .float, v => ∃ f, v = .flo f
  | .both, v => (∃ i, v = .fix i) ∨ ∃ f, v = .flo f

/-- Well-formed slot state. -/
structure WF (st : St) : Prop where
  vf : ∀ x s, s ∈ st.slots x ↔ (st.mode s).reg = some x
  inj : ∀ r r' h h', st.gp r = some h → st.gp r' = some h' → h.slot = h'.slot → r = r'
  lt : ∀ r h, st.gp r = some h → r < nGp ∧ h.slot < st.n
  dirty : ∀ r h, st.gp r = some h → h.dirty = true → ∃ g, st.mode h.slot = .S g
  big : ∀ s, st.n ≤ s → st.mode s = .V

/-- No register holds a newer value of `s` than its stack home. -/
def noDirty (st : St) (s : Slot) : Prop :=
  ∀ r h, st.gp r = some h → h.slot = s → h.dirty = false

/-- What a mode claims about the machine, for a slot whose value is `v` and whose
stack home is `home`, when no dirty register holds it. -/
def RepM (P : Prim) (m : Mach) (home : Val) (v : Val) : Mode → Prop
  | .S g => g.sat v = true ∧ home = v
  | .F x => v = .flo (m.fpr x)
  | .Sf x g => home = v ∧ g.sat v ∧ m.fpr x = toF P v
  | .C c => v = c
  | _ => True

/-- What the state claims about slot `s`. -/
def RepSlot (P : Prim) (st : St) (m : Mach) (L : Slot → Val) (s : Slot) : Prop :=
  match st.mode s with
  | .S g => g.sat (L s) = true ∧ (noDirty st s → m.stack s = L s)
  | .F x => L s = .flo (m.fpr x)
  | .Sf x g => m.stack s = L s ∧ g.sat (L s) ∧ m.fpr x = toF P (L s)
  | .C v => L s = v
  | _ => True

/-- The machine carries the frame `L` as the state describes, on the slots of `D`;
every bound GP register holds its slot's value. -/
structure Rep (P : Prim) (st : St) (m : Mach) (L : Slot → Val) (D : Slot → Prop) : Prop where
  slot : ∀ s, D s → RepSlot P st m L s
  hold : ∀ r h, st.gp r = some h → m.gp r = L h.slot

/-- all slots -/
abbrev All : Slot → Prop := fun _ => True

@[simp] theorem upd_same {β : Type} (f : Nat → β) (a : Nat) (b : β) : upd f a b a = b := by
  simp [upd]

theorem upd_ne {β : Type} (f : Nat → β) {a t : Nat} (b : β) (h : t ≠ a) : upd f a b t = f t := by
  simp [upd, h]

/-! ### Running code -/

theorem exec_append (P : Prim) : ∀ (is js : List Ins) (m : Mach),
    exec P m (is ++ js) = (match exec P m is with | .ok m' => exec P m' js | .error s => .error s) := by
  intro is
  induction is with
  | nil => intro js m; simp [exec]
  | cons i is ih =>
    intro js m
    simp only [List.cons_append, exec]
    cases exec1 P m i with
    | ok m' => simp only [ih]
    | error s => rfl

theorem exec_append_ok {P : Prim} {is js : List Ins} {m m' : Mach} (h : exec P m is = .ok m') :
    exec P m (is ++ js) = exec P m' js := by rw [exec_append, h]

theorem exec_append_error {P : Prim} {is js : List Ins} {m : Mach} {s : Slot → Val}
    (h : exec P m is = .error s) : exec P m (is ++ js) = .error s := by rw [exec_append, h]

/-! ### Write-backs -/

theorem applyWB_eq (l : WB) (m : Mach) (s : Slot) (v : Val)
    (h1 : ∀ src, (src, s) ∈ l → src.eval m = v)
    (h2 : (∀ src, (src, s) ∉ l) → m.stack s = v) : applyWB l m s = v := by
  have key : ∀ (l : WB) (stk : Slot → Val), (∀ src, (src, s) ∈ l → src.eval m = v) →
      ((∀ src, (src, s) ∉ l) → stk s = v) →
      (l.foldl (fun stk p => upd stk p.2 (p.1.eval m)) stk) s = v := by
    intro l
    induction l with
    | nil => intro stk _ h2; exact h2 (by simp)
    | cons p l ih =>
      intro stk h1 h2
      simp only [List.foldl_cons]
      apply ih
      · intro src hs; exact h1 src (List.mem_cons_of_mem _ hs)
      · intro hn
        by_cases hp : p.2 = s
        · have : (p.1, s) ∈ p :: l := by rw [← hp]; exact List.mem_cons_self
          rw [hp, upd_same]; exact h1 _ this
        · rw [upd_ne _ _ (fun h => hp h.symm)]
          apply h2
          intro src hm
          rcases List.mem_cons.1 hm with h | h
          · exact hp (by rw [← h])
          · exact hn src h
  exact key l m.stack h1 h2

theorem mem_wb {st : St} {src : Src} {s : Slot} : (src, s) ∈ st.wb ↔
    (∃ x, src = .fpr x ∧ s ∈ st.slots x ∧ (st.mode s).isF = true ∧ x < st.vf.length) ∨
    (∃ v, src = .lit v ∧ st.mode s = .C v ∧ s < st.n) ∨
    (∃ r h, src = .gp r ∧ r < nGp ∧ st.gp r = some h ∧ h.dirty = true ∧ h.slot = s) := by
  unfold St.wb
  simp only [List.mem_append, List.mem_flatMap, List.mem_range, List.mem_map, List.mem_filter,
    List.mem_filterMap, Prod.mk.injEq]
  constructor
  · rintro ((⟨x, hx, s', ⟨h1, h2⟩, rfl, rfl⟩ | ⟨s', hs, h⟩) | ⟨r, hr, h⟩)
    · exact .inl ⟨x, rfl, h1, h2, hx⟩
    · right; left
      cases hm : st.mode s' <;> simp only [hm, reduceCtorEq] at h
      simp only [Option.some.injEq, Prod.mk.injEq] at h
      obtain ⟨rfl, rfl⟩ := h
      exact ⟨_, rfl, hm, hs⟩
    · right; right
      cases hg : st.gp r with
      | none => simp [hg] at h
      | some hh =>
        simp only [hg] at h
        by_cases hd : hh.dirty = true
        · simp only [hd, if_true, Option.some.injEq, Prod.mk.injEq] at h
          exact ⟨r, hh, h.1.symm, hr, hg, hd, h.2⟩
        · simp [hd] at h
  · rintro (⟨x, rfl, h1, h2, hx⟩ | ⟨v, rfl, h1, h2⟩ | ⟨r, h, rfl, hr, hg, hd, rfl⟩)
    · exact .inl (.inl ⟨x, hx, s, ⟨h1, h2⟩, rfl, rfl⟩)
    · exact .inl (.inr ⟨s, h2, by simp [h1]⟩)
    · exact .inr ⟨r, hr, by simp [hg, hd]⟩

theorem St.slots_lt {st : St} {x : FReg} {s : Slot} (h : s ∈ st.slots x) : x < st.vf.length := by
  by_contra hx
  unfold St.slots at h
  rw [List.getD_eq_getElem?_getD, List.getElem?_eq_none (Nat.le_of_not_lt hx)] at h
  simp at h

/-- What a snapshot needs of the machine it is applied to. -/
def Snap (st : St) (m : Mach) (L : Slot → Val) (s : Slot) : Prop :=
  match st.mode s with
  | .S _ => (noDirty st s → m.stack s = L s) ∧
      ∀ r h, st.gp r = some h → h.dirty = true → h.slot = s → m.gp r = L s
  | .F x => L s = .flo (m.fpr x)
  | .Sf _ _ => m.stack s = L s
  | .C v => L s = v
  | _ => False

theorem applyWB_snap {st : St} (w : WF st) {m : Mach} {L : Slot → Val} {s : Slot}
    (h : Snap st m L s) : applyWB st.wb m s = L s := by
  unfold Snap at h
  have dirtyS : ∀ r hh, st.gp r = some hh → hh.dirty = true → hh.slot = s → ∃ g, st.mode s = .S g := by
    intro r hh hg hd hs
    have := w.dirty r hh hg hd
    rwa [hs] at this
  apply applyWB_eq
  · intro src hsrc
    rcases mem_wb.1 hsrc with ⟨x, rfl, h1, h2, _⟩ | ⟨v, rfl, h1, _⟩ | ⟨r, hh, rfl, hr, hg, hd, hs⟩
    · cases hm : st.mode s with
      | F y =>
        have := (w.vf x s).1 h1
        rw [hm] at this h
        simp only [Mode.reg, Option.some.injEq] at this
        subst this
        exact h.symm
      | _ => rw [hm] at h2; simp [Mode.isF] at h2
    · rw [h1] at h
      exact h.symm
    · obtain ⟨g, hg'⟩ := dirtyS r hh hg hd hs
      rw [hg'] at h
      exact h.2 r hh hg hd hs
  · intro hn
    cases hm : st.mode s with
    | S g =>
      rw [hm] at h
      apply h.1
      intro r hh hg hs
      by_contra hd
      have hd : hh.dirty = true := by simpa using hd
      exact hn (.gp r) (mem_wb.2 (.inr (.inr ⟨r, hh, rfl, (w.lt r hh hg).1, hg, hd, hs⟩)))
    | F x =>
      exfalso
      have hx : s ∈ st.slots x := (w.vf x s).2 (by simp [hm, Mode.reg])
      exact hn (.fpr x) (mem_wb.2 (.inl ⟨x, rfl, hx, by simp [hm, Mode.isF], St.slots_lt hx⟩))
    | Sf x g => rw [hm] at h; exact h
    | C v =>
      exfalso
      have hs : s < st.n := by
        by_contra hs
        have := w.big s (Nat.le_of_not_lt hs)
        rw [hm] at this
        simp at this
      exact hn (.lit v) (mem_wb.2 (.inr (.inl ⟨v, rfl, hm, hs⟩)))
    | _ => rw [hm] at h; exact h.elim

/-- Machine change a snapshot tolerates: FP registers untouched, stack homes only
brought up to date, registers of dirty residents of `s` untouched. -/
theorem Snap_of_rep {P : Prim} {st : St} {m m' : Mach} {L : Slot → Val} {D : Slot → Prop}
    (rep : Rep P st m L D) {s : Slot} (hD : D s) (hl : (st.mode s).live = true)
    (hf : m'.fpr = m.fpr) (hst : m'.stack s = m.stack s ∨ m'.stack s = L s)
    (hg : ∀ r h, st.gp r = some h → h.dirty = true → h.slot = s → m'.gp r = m.gp r) :
    Snap st m' L s := by
  have hs := rep.slot s hD
  unfold RepSlot at hs
  unfold Snap
  cases hm : st.mode s with
  | S g =>
    rw [hm] at hs
    refine ⟨fun hn => ?_, fun r h h1 h2 h3 => ?_⟩
    · rcases hst with h | h
      · rw [h]; exact hs.2 hn
      · exact h
    · rw [hg r h h1 h2 h3, rep.hold r h h1, h3]
  | F x => rw [hm] at hs; simpa [hf] using hs
  | Sf x g =>
    rw [hm] at hs
    rcases hst with h | h
    · simp only [h]; exact hs.1
    · exact h
  | C v => rw [hm] at hs; exact hs
  | V => rw [hm] at hl; simp [Mode.live] at hl
  | none => rw [hm] at hl; simp [Mode.live] at hl
  | maybeNone => rw [hm] at hl; simp [Mode.live] at hl

/-! ### The GP register file -/

theorem St.regOf_some {st : St} {s : Slot} {r : GReg} (h : st.regOf s = some r) :
    r < nGp ∧ ∃ hh, st.gp r = some hh ∧ hh.slot = s := by
  unfold St.regOf at h
  have h1 := List.find?_some h
  have h2 := List.mem_of_find?_eq_some h
  refine ⟨by simpa using h2, ?_⟩
  cases hg : st.gp r with
  | none => simp [hg] at h1
  | some hh => exact ⟨hh, rfl, by simpa [hg] using h1⟩

theorem St.regOf_none {st : St} (w : WF st) {s : Slot} (h : st.regOf s = none) :
    ∀ r hh, st.gp r = some hh → hh.slot ≠ s := by
  intro r hh hg hs
  unfold St.regOf at h
  have := List.find?_eq_none.1 h r (by simpa using (w.lt r hh hg).1)
  simp [hg, hs] at this

theorem St.dirtyRegOf_some {st : St} {s : Slot} {r : GReg} (h : st.dirtyRegOf s = some r) :
    r < nGp ∧ ∃ hh, st.gp r = some hh ∧ hh.slot = s ∧ hh.dirty = true := by
  unfold St.dirtyRegOf at h
  have h1 := List.find?_some h
  have h2 := List.mem_of_find?_eq_some h
  refine ⟨by simpa using h2, ?_⟩
  cases hg : st.gp r with
  | none => simp [hg] at h1
  | some hh =>
    simp only [hg, Bool.and_eq_true, beq_iff_eq] at h1
    exact ⟨hh, rfl, h1.2, h1.1⟩

theorem St.dirtyRegOf_none {st : St} (w : WF st) {s : Slot} (h : st.dirtyRegOf s = none) :
    noDirty st s := by
  intro r hh hg hs
  unfold St.dirtyRegOf at h
  have := List.find?_eq_none.1 h r (by simpa using (w.lt r hh hg).1)
  simp only [hg, hs, beq_self_eq_true, Bool.and_true] at this
  simpa using this

theorem leastAge_mem (st : St) : ∀ (l : List GReg) (r : GReg), leastAge st l = some r → r ∈ l := by
  intro l
  induction l with
  | nil => intro r h; simp [leastAge] at h
  | cons q l ih =>
    intro r h
    unfold leastAge at h
    cases hl : leastAge st l with
    | none => simp only [hl, Option.some.injEq] at h; subst h; simp
    | some r' =>
      simp only [hl] at h
      split at h
      · simp only [Option.some.injEq] at h; subst h; exact List.mem_cons_of_mem _ (ih _ hl)
      · simp only [Option.some.injEq] at h; subst h; simp

/-- drop register `r` -/
def St.freeReg (st : St) (r : GReg) : St := { st with gp := fun q => if q = r then none else st.gp q }

/-- what evicting `r` has to store -/
def St.spillOf (st : St) (r : GReg) : Option (GReg × Slot) :=
  match st.gp r with
  | some h => if h.dirty then some (r, h.slot) else none
  | none => none

theorem St.allocReg_spec {st st' : St} {pins : List GReg} {r : GReg} {sp : Option (GReg × Slot)}
    (h : st.allocReg pins = some (st', r, sp)) :
    r < nGp ∧ r ∉ pins ∧ st' = st.freeReg r ∧ sp = st.spillOf r := by
  unfold St.allocReg at h
  cases hf : st.findFree pins with
  | some q =>
    simp only [hf, Option.some.injEq, Prod.mk.injEq] at h
    obtain ⟨rfl, rfl, rfl⟩ := h
    unfold St.findFree at hf
    have h1 := List.find?_some hf
    have h2 := List.mem_of_find?_eq_some hf
    simp only [Bool.and_eq_true, Option.isNone_iff_eq_none, Bool.not_eq_true',
      List.contains_eq_mem, decide_eq_false_iff_not] at h1
    refine ⟨by simpa using h2, h1.2, ?_, by simp [St.spillOf, h1.1]⟩
    have : (fun p => if p = q then none else st.gp p) = st.gp := by
      funext p; split
      · next hp => rw [hp, h1.1]
      · rfl
    unfold St.freeReg
    rw [this]
  | none =>
    simp only [hf] at h
    cases hl : leastAge st ((List.range nGp).filter fun r => !pins.contains r) with
    | none => rw [hl] at h; simp at h
    | some q =>
      rw [hl] at h
      simp only [Option.some.injEq, Prod.mk.injEq] at h
      obtain ⟨rfl, rfl, rfl⟩ := h
      have := leastAge_mem st _ _ hl
      simp only [List.mem_filter, List.mem_range, Bool.not_eq_true', List.contains_eq_mem,
        decide_eq_false_iff_not] at this
      exact ⟨this.1, this.2, rfl, rfl⟩

/-- Same state up to dropped GP bindings. -/
structure GpLe (st st' : St) : Prop where
  n : st'.n = st.n
  mode : st'.mode = st.mode
  vf : st'.vf = st.vf
  pinned : st'.pinned = st.pinned
  gp : ∀ r h, st'.gp r = some h → st.gp r = some h

theorem GpLe.refl (st : St) : GpLe st st := ⟨rfl, rfl, rfl, rfl, fun _ _ h => h⟩

theorem GpLe.trans {a b c : St} (h1 : GpLe a b) (h2 : GpLe b c) : GpLe a c :=
  ⟨h2.n.trans h1.n, h2.mode.trans h1.mode, h2.vf.trans h1.vf, h2.pinned.trans h1.pinned,
   fun r h hh => h1.gp r h (h2.gp r h hh)⟩

theorem GpLe.wf {st st' : St} (h : GpLe st st') (w : WF st) : WF st' := by
  refine ⟨?_, ?_, ?_, ?_, ?_⟩
  · intro x s
    have : st'.slots x = st.slots x := by unfold St.slots; rw [h.vf]
    rw [this, h.mode]; exact w.vf x s
  · intro r r' a b ha hb hs; exact w.inj r r' a b (h.gp _ _ ha) (h.gp _ _ hb) hs
  · intro r a ha; rw [h.n]; exact w.lt r a (h.gp _ _ ha)
  · intro r a ha hd; rw [h.mode]; exact w.dirty r a (h.gp _ _ ha) hd
  · intro s hs; rw [h.mode]; exact w.big s (by rw [h.n] at hs; exact hs)

theorem GpLe.rep {P : Prim} {st st' : St} {m m' : Mach} {L : Slot → Val} {D D' : Slot → Prop}
    (h : GpLe st st') (rep : Rep P st m L D) (hf : m'.fpr = m.fpr)
    (hg : ∀ r hh, st'.gp r = some hh → m'.gp r = m.gp r)
    (hD : ∀ s, D' s → D s)
    (hs : ∀ s, D' s → m'.stack s = L s ∨ (m'.stack s = m.stack s ∧ (noDirty st' s → noDirty st s))) :
    Rep P st' m' L D' := by
  refine ⟨?_, fun r hh h1 => by rw [hg r hh h1]; exact rep.hold r hh (h.gp r hh h1)⟩
  intro s hDs
  have := rep.slot s (hD s hDs)
  unfold RepSlot at this ⊢
  rw [h.mode]
  rcases hs s hDs with h1 | ⟨h1, h2⟩
  · cases hm : st.mode s <;> rw [hm] at this <;> simp only [hf] <;> simp_all
  · cases hm : st.mode s <;> rw [hm] at this <;> simp only [hf, h1] <;> try exact this
    exact ⟨this.1, fun hn => this.2 (h2 hn)⟩

theorem GpLe.freeReg (st : St) (r : GReg) : GpLe st (st.freeReg r) := by
  refine ⟨rfl, rfl, rfl, rfl, ?_⟩
  intro q h hh
  unfold St.freeReg at hh
  simp only at hh
  split at hh
  · simp at hh
  · exact hh

theorem GpLe.invalidate (st : St) (s : Slot) : GpLe st (st.invalidate s) := by
  refine ⟨rfl, rfl, rfl, rfl, ?_⟩
  intro q h hh
  unfold St.invalidate at hh
  simp only at hh
  split at hh
  · simp at hh
  · exact hh

theorem GpLe.freeAbove (st : St) (s : Slot) : GpLe st (st.freeAbove s) := by
  refine ⟨rfl, rfl, rfl, rfl, ?_⟩
  intro q h hh
  unfold St.freeAbove at hh
  simp only at hh
  cases hg : st.gp q with
  | none => simp [hg] at hh
  | some a =>
    simp only [hg] at hh
    split at hh
    · simp at hh
    · exact hh

theorem St.invalidate_none {st : St} {s : Slot} {r : GReg} {h : Holder}
    (hh : (st.invalidate s).gp r = some h) : h.slot ≠ s := by
  unfold St.invalidate at hh
  simp only at hh
  split at hh
  · simp at hh
  · next hn => intro hs; apply hn; rw [hh]; simp [hs]

theorem St.invalidate_keep {st : St} {s : Slot} {r : GReg} {h : Holder}
    (hg : st.gp r = some h) (hs : h.slot ≠ s) : (st.invalidate s).gp r = some h := by
  unfold St.invalidate
  simp [hg, hs]

theorem noDirty_invalidate {st : St} {s t : Slot} (hts : t ≠ s) (h : noDirty (st.invalidate s) t) :
    noDirty st t := by
  intro r hh hg ht
  exact h r hh (St.invalidate_keep hg (by rw [ht]; exact hts)) ht

theorem noDirty_freeAbove {st : St} {sp t : Slot} (hts : t < sp) (h : noDirty (st.freeAbove sp) t) :
    noDirty st t := by
  intro r hh hg ht
  apply h r hh _ ht
  unfold St.freeAbove
  simp only [hg]
  rw [if_neg (show ¬ sp ≤ hh.slot by rw [ht]; exact Nat.not_le.2 hts)]

/-- Evicting a register, after its store: nothing is lost. -/
theorem freeReg_rep {P : Prim} {st : St} {m : Mach} {L : Slot → Val} {D : Slot → Prop} (r : GReg)
    (rep : Rep P st m L D) :
    ∃ m', exec P m (spillIns (st.spillOf r)) = .ok m' ∧ m'.gp = m.gp ∧ m'.fpr = m.fpr ∧
      (∀ s, m'.stack s = m.stack s ∨ m'.stack s = L s) ∧ Rep P (st.freeReg r) m' L D := by
  have hk : ∀ q h, q ≠ r → st.gp q = some h → (st.freeReg r).gp q = some h := by
    intro q h hq hg
    simp [St.freeReg, hq, hg]
  cases hg : st.gp r with
  | none =>
    refine ⟨m, by simp [St.spillOf, hg, spillIns, exec], rfl, rfl, fun s => .inl rfl, ?_⟩
    apply (GpLe.freeReg st r).rep rep rfl (fun _ _ _ => rfl) (fun _ h => h)
    intro s _
    right
    refine ⟨rfl, fun h q hh hq hs => h q hh (hk q hh ?_ hq) hs⟩
    rintro rfl
    rw [hg] at hq; simp at hq
  | some h0 =>
    by_cases hd : h0.dirty = true
    · refine ⟨{ m with stack := upd m.stack h0.slot (m.gp r) }, by
        simp [St.spillOf, hg, hd, spillIns, exec, exec1], rfl, rfl, ?_, ?_⟩
      · intro s
        by_cases hs : s = h0.slot
        · right; subst hs; simp only [upd_same]; exact rep.hold r h0 hg
        · left; exact upd_ne _ _ hs
      · apply (GpLe.freeReg st r).rep (m' := { m with stack := upd m.stack h0.slot (m.gp r) })
          rep rfl (fun _ _ _ => rfl) (fun _ h => h)
        intro s _
        by_cases hs : s = h0.slot
        · left; subst hs; simp only [upd_same]; exact rep.hold r h0 hg
        · right
          refine ⟨upd_ne _ _ hs, fun h q hh hq ht => h q hh (hk q hh ?_ hq) ht⟩
          rintro rfl
          rw [hg] at hq
          simp only [Option.some.injEq] at hq
          subst hq
          exact hs ht.symm
    · refine ⟨m, by simp [St.spillOf, hg, hd, spillIns, exec], rfl, rfl, fun s => .inl rfl, ?_⟩
      apply (GpLe.freeReg st r).rep rep rfl (fun _ _ _ => rfl) (fun _ h => h)
      intro s _
      right
      refine ⟨rfl, fun h q hh hq hs => ?_⟩
      by_cases hqr : q = r
      · subst hqr
        rw [hg] at hq
        simp only [Option.some.injEq] at hq
        subst hq
        simpa using hd
      · exact h q hh (hk q hh hqr hq) hs

/-! ### Binding -/

theorem bind_gp {st : St} {r : GReg} {s : Slot} {d : Bool} {q : GReg} {h : Holder}
    (hh : (st.bind r s d).gp q = some h) :
    (q = r ∧ h.slot = s ∧ h.dirty = d) ∨ (q ≠ r ∧ st.gp q = some h ∧ h.slot ≠ s) := by
  unfold St.bind at hh
  simp only at hh
  split at hh
  · next hq =>
    simp only [Option.some.injEq] at hh
    subst hh
    exact .inl ⟨hq, rfl, rfl⟩
  · next hq =>
    exact .inr ⟨hq, (GpLe.invalidate st s).gp q h hh, St.invalidate_none hh⟩

theorem bind_gp_self (st : St) (r : GReg) (s : Slot) (d : Bool) :
    ∃ h, (st.bind r s d).gp r = some h ∧ h.slot = s ∧ h.dirty = d := by
  unfold St.bind
  simp

theorem bind_gp_keep {st : St} {r : GReg} {s : Slot} {d : Bool} {q : GReg} {h : Holder}
    (hq : q ≠ r) (hg : st.gp q = some h) (hs : h.slot ≠ s) : (st.bind r s d).gp q = some h := by
  unfold St.bind
  simp only [if_neg hq]
  exact St.invalidate_keep hg hs

theorem bind_mode (st : St) (r : GReg) (s : Slot) (d : Bool) :
    (st.bind r s d).mode = st.mode ∧ (st.bind r s d).vf = st.vf ∧
    (st.bind r s d).n = st.n ∧ (st.bind r s d).pinned = st.pinned := ⟨rfl, rfl, rfl, rfl⟩

theorem bind_wf {st : St} (w : WF st) {r : GReg} {s : Slot} {d : Bool} (hr : r < nGp)
    (hs : s < st.n) (hd : d = true → ∃ g, st.mode s = .S g) : WF (st.bind r s d) := by
  refine ⟨?_, ?_, ?_, ?_, ?_⟩
  · exact w.vf
  · intro q q' a b ha hb hab
    rcases bind_gp ha with ⟨h1, h2, _⟩ | ⟨h1, h2, h3⟩ <;>
      rcases bind_gp hb with ⟨h4, h5, _⟩ | ⟨h4, h5, h6⟩
    · rw [h1, h4]
    · exact absurd (hab.symm.trans h2) h6
    · exact absurd (hab.trans h5) h3
    · exact w.inj q q' a b h2 h5 hab
  · intro q a ha
    rcases bind_gp ha with ⟨rfl, h2, _⟩ | ⟨h1, h2, h3⟩
    · exact ⟨hr, by rw [h2]; exact hs⟩
    · exact w.lt q a h2
  · intro q a ha hda
    rcases bind_gp ha with ⟨rfl, h2, h3⟩ | ⟨h1, h2, h3⟩
    · rw [h2]; exact hd (by rw [← h3]; exact hda)
    · exact w.dirty q a h2 hda
  · exact w.big

/-- Binding a free register to a slot: clean keeps everything; dirty makes the
register the slot's home. -/
theorem bind_rep {P : Prim} {st : St} {m : Mach} {L : Slot → Val} {D D' : Slot → Prop}
    {r : GReg} {s : Slot} {d : Bool} (rep : Rep P st m L D) (hfree : st.gp r = none)
    (hv : m.gp r = L s) (hnh : ∀ q h, st.gp q = some h → h.slot ≠ s)
    (hD : ∀ t, D' t → t ≠ s → D t)
    (hs : D' s → (d = false ∧ D s) ∨ (d = true ∧ ∃ g, st.mode s = .S g ∧ g.sat (L s) = true)) :
    Rep P (st.bind r s d) m L D' := by
  refine ⟨?_, ?_⟩
  · intro t ht
    by_cases hts : t = s
    · subst hts
      rcases hs ht with ⟨rfl, hDs⟩ | ⟨rfl, g, hg, hsat⟩
      · have := rep.slot t hDs
        unfold RepSlot at this ⊢
        rw [(bind_mode st r t false).1]
        cases hm : st.mode t <;> rw [hm] at this <;> try exact this
        refine ⟨this.1, fun _ => this.2 ?_⟩
        intro q h hq hqs
        exact absurd hqs (hnh q h hq)
      · unfold RepSlot
        rw [(bind_mode st r t true).1, hg]
        refine ⟨hsat, fun hn => ?_⟩
        obtain ⟨h, h1, h2, h3⟩ := bind_gp_self st r t true
        have := hn r h h1 h2
        rw [h3] at this; simp at this
    · have := rep.slot t (hD t ht hts)
      unfold RepSlot at this ⊢
      rw [(bind_mode st r s d).1]
      cases hm : st.mode t <;> rw [hm] at this <;> try exact this
      refine ⟨this.1, fun hn => this.2 ?_⟩
      intro q h hq hqt
      refine hn q h (bind_gp_keep ?_ hq (by rw [hqt]; exact hts)) hqt
      rintro rfl
      rw [hfree] at hq; simp at hq
  · intro q h hq
    rcases bind_gp hq with ⟨rfl, h2, _⟩ | ⟨_, h2, _⟩
    · rw [h2]; exact hv
    · exact rep.hold q h h2

end Verif.JitState
