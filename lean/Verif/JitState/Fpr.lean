import Verif.JitState.Base

/-! Slot transitions and the FP allocator keep the invariants. -/

namespace Verif.JitState

/-- Give slot `d` a new mode: every `set_*`/`def_*` of the code is an instance. -/
def St.relink (st : St) (d : Slot) (M : Mode) : St :=
  let st1 := (st.clear d).setMode d M
  match M.reg with
  | some x => { st1 with vf := st1.vf.modify x (· ++ [d]) }
  | none => st1

theorem setF_eq (st : St) (d : Slot) (x : FReg) : st.setF d x = st.relink d (.F x) := rfl
theorem setSf_eq (st : St) (d : Slot) (x : FReg) (g : SfG) :
    st.setSf d x g = st.relink d (.Sf x g) := rfl
theorem setS_eq (st : St) (d : Slot) (g : Guarded) : st.setS d g = st.relink d (.S g) := rfl

theorem discard_some {st st' : St} {d : Slot} (h : st.discard d = some st') :
    d ≠ 0 ∧ d < st.n ∧ st' = st.clear d := by
  unfold St.discard at h
  split at h
  · simp at h
  · next hn =>
    simp only [Option.some.injEq] at h
    have : ¬ d = 0 ∧ ¬ st.n ≤ d := by rw [← not_or]; exact hn
    exact ⟨this.1, Nat.lt_of_not_le this.2, h.symm⟩

theorem defS_some {st st' : St} {d : Slot} {g : Guarded} (h : st.defS d g = some st') :
    d ≠ 0 ∧ d < st.n ∧ st' = st.relink d (.S g) := by
  unfold St.defS at h
  cases hd : st.discard d with
  | none => simp [hd] at h
  | some s1 =>
    obtain ⟨h1, h2, rfl⟩ := discard_some hd
    simp only [hd, Option.map_some, Option.some.injEq] at h
    exact ⟨h1, h2, h.symm⟩

theorem defC_some {st st' : St} {d : Slot} {v : Val} (h : st.defC d v = some st') :
    d ≠ 0 ∧ d < st.n ∧ st' = st.relink d (.C v) := by
  unfold St.defC at h
  cases hd : st.discard d with
  | none => simp [hd] at h
  | some s1 =>
    obtain ⟨h1, h2, rfl⟩ := discard_some hd
    simp only [hd, Option.map_some, Option.some.injEq] at h
    exact ⟨h1, h2, h.symm⟩

theorem clear_fields (st : St) (d : Slot) :
    (st.clear d).n = st.n ∧ (st.clear d).pinned = st.pinned ∧ (st.clear d).clock = st.clock ∧
    (st.clear d).gp = (st.invalidate d).gp ∧ (st.clear d).mode = upd st.mode d .V ∧
    (st.clear d).vf.length = st.vf.length := by
  unfold St.clear
  simp only
  cases hm : (st.invalidate d).mode d <;>
    exact ⟨rfl, rfl, rfl, rfl, rfl, by simp [St.unlink, St.setMode, St.invalidate]⟩

theorem clear_eq (st : St) (d : Slot) : st.clear d = st.relink d .V := by
  have h := (clear_fields st d).2.2.2.2.1
  unfold St.relink
  simp only [Mode.reg, St.setMode]
  have : (fun t => if t = d then Mode.V else (st.clear d).mode t) = (st.clear d).mode := by
    funext t
    rw [h]
    unfold upd
    split <;> rfl
  rw [this]

theorem relink_fields (st : St) (d : Slot) (M : Mode) :
    (st.relink d M).n = st.n ∧ (st.relink d M).pinned = st.pinned ∧
    (st.relink d M).gp = (st.invalidate d).gp ∧ (st.relink d M).mode = upd st.mode d M ∧
    (st.relink d M).vf.length = st.vf.length := by
  obtain ⟨h1, h2, h3, h4, h5, h6⟩ := clear_fields st d
  unfold St.relink
  have hm : (fun t => if t = d then M else (st.clear d).mode t) = upd st.mode d M := by
    funext t
    rw [h5]
    unfold upd
    split <;> rfl
  cases hr : M.reg with
  | none => simp only [St.setMode]; exact ⟨h1, h2, h4, hm, h6⟩
  | some x =>
    simp only [St.setMode]
    exact ⟨h1, h2, h4, hm, by simp [h6]⟩

theorem slots_modify {vf : List (List Slot)} {x y : FReg} {f : List Slot → List Slot}
    (hx : x < vf.length) :
    (vf.modify x f).getD y [] = if y = x then f (vf.getD x []) else vf.getD y [] := by
  rw [List.getD_eq_getElem?_getD, List.getElem?_modify]
  by_cases h : x = y
  · subst h
    simp [List.getD_eq_getElem?_getD, hx]
  · have : ¬ y = x := fun hh => h hh.symm
    simp [h, this]

theorem clear_slots {st : St} (w : WF st) (d : Slot) (x : FReg) (s : Slot) :
    s ∈ (st.clear d).slots x ↔ s ≠ d ∧ s ∈ st.slots x := by
  have hfil : ∀ y, (st.mode d).reg = some y →
      (s ∈ (st.vf.modify y (·.filter (· ≠ d))).getD x [] ↔ s ≠ d ∧ s ∈ st.slots x) := by
    intro y hy
    have hmem : d ∈ st.slots y := (w.vf y d).2 hy
    rw [slots_modify (St.slots_lt hmem)]
    split
    · next hxy =>
      subst hxy
      simp only [List.mem_filter, decide_eq_true_eq, ne_eq]
      exact ⟨fun h => ⟨h.2, h.1⟩, fun h => ⟨h.2, h.1⟩⟩
    · next hxy =>
      constructor
      · intro hs
        refine ⟨?_, hs⟩
        rintro rfl
        have := (w.vf x s).1 hs
        rw [hy] at this
        simp only [Option.some.injEq] at this
        exact hxy this.symm
      · intro hs; exact hs.2
  have hother : (st.mode d).reg = none → (s ∈ st.slots x ↔ s ≠ d ∧ s ∈ st.slots x) := by
    intro hn
    constructor
    · intro hs
      refine ⟨?_, hs⟩
      rintro rfl
      have := (w.vf x s).1 hs
      rw [hn] at this; simp at this
    · exact fun h => h.2
  unfold St.clear
  simp only
  have hmi : (st.invalidate d).mode d = st.mode d := rfl
  rw [hmi]
  cases hm : st.mode d with
  | F y => exact hfil y (by simp [hm, Mode.reg])
  | Sf y g => exact hfil y (by simp [hm, Mode.reg])
  | V => exact hother (by simp [hm, Mode.reg])
  | C v => exact hother (by simp [hm, Mode.reg])
  | S g => exact hother (by simp [hm, Mode.reg])
  | none => exact hother (by simp [hm, Mode.reg])
  | maybeNone => exact hother (by simp [hm, Mode.reg])

theorem relink_slots {st : St} (w : WF st) (d : Slot) {M : Mode}
    (hM : ∀ y, M.reg = some y → y < st.vf.length) (x : FReg) (s : Slot) :
    s ∈ (st.relink d M).slots x ↔ (s = d ∧ M.reg = some x) ∨ (s ≠ d ∧ s ∈ st.slots x) := by
  unfold St.relink
  cases hr : M.reg with
  | none =>
    simp only
    have : ((st.clear d).setMode d M).slots x = (st.clear d).slots x := rfl
    rw [this, clear_slots w]
    simp
  | some y =>
    simp only
    have hlen : y < (st.clear d).vf.length := by
      rw [(clear_fields st d).2.2.2.2.2]; exact hM y hr
    have : ({ (st.clear d).setMode d M with
        vf := ((st.clear d).setMode d M).vf.modify y (· ++ [d]) } : St).slots x
        = ((st.clear d).vf.modify y (· ++ [d])).getD x [] := rfl
    rw [this, slots_modify hlen]
    have hc := clear_slots w d x s
    unfold St.slots at hc
    split
    · next hxy =>
      subst hxy
      rw [List.mem_append, List.mem_singleton, hc]
      simp only [and_true]
      unfold St.slots
      exact or_comm
    · next hxy =>
      rw [hc]
      unfold St.slots
      constructor
      · exact fun h => .inr h
      · rintro (⟨_, h⟩ | h)
        · simp only [Option.some.injEq] at h; exact absurd h.symm hxy
        · exact h

theorem relink_wf {st : St} (w : WF st) {d : Slot} {M : Mode} (hd : d < st.n ∨ M = .V)
    (hM : ∀ y, M.reg = some y → y < st.vf.length) : WF (st.relink d M) := by
  obtain ⟨h1, h2, h3, h4, h5⟩ := relink_fields st d M
  refine ⟨?_, ?_, ?_, ?_, ?_⟩
  · intro x s
    rw [relink_slots w d hM, h4]
    by_cases hs : s = d
    · subst hs; simp
    · simp only [hs, false_and, false_or, ne_eq, not_false_eq_true, true_and, upd_ne _ _ hs]
      exact w.vf x s
  · intro r r' a b ha hb
    rw [h3] at ha hb
    exact ((GpLe.invalidate st d).wf w).inj r r' a b ha hb
  · intro r a ha
    rw [h3] at ha
    rw [h1]
    exact ((GpLe.invalidate st d).wf w).lt r a ha
  · intro r a ha hda
    rw [h3] at ha
    rw [h4, upd_ne _ _ (St.invalidate_none ha)]
    exact w.dirty r a ((GpLe.invalidate st d).gp r a ha) hda
  · intro s hs
    rw [h1] at hs
    rw [h4]
    rcases hd with hd | rfl
    · rw [upd_ne _ _ (by rintro rfl; exact absurd hd (Nat.not_lt.2 hs))]
      exact w.big s hs
    · unfold upd; split
      · rfl
      · exact w.big s hs

theorem relink_noDirty (st : St) (d : Slot) (M : Mode) : noDirty (st.relink d M) d := by
  intro r h hg hs
  rw [(relink_fields st d M).2.2.1] at hg
  exact absurd hs (St.invalidate_none hg)

theorem relink_rep {P : Prim} {st : St} {m : Mach} {L L' : Slot → Val} {D D' : Slot → Prop}
    {d : Slot} {M : Mode} (rep : Rep P st m L D) (hL : ∀ s, s ≠ d → L' s = L s)
    (hD : ∀ s, s ≠ d → D' s → D s) (hd : D' d → RepM P m (m.stack d) (L' d) M) :
    Rep P (st.relink d M) m L' D' := by
  obtain ⟨h1, h2, h3, h4, h5⟩ := relink_fields st d M
  refine ⟨?_, ?_⟩
  · intro s hs
    unfold RepSlot
    rw [h4]
    by_cases hsd : s = d
    · subst hsd
      have := hd hs
      unfold RepM at this
      rw [upd_same]
      cases M <;> try exact this
      exact ⟨this.1, fun _ => this.2⟩
    · have := rep.slot s (hD s hsd hs)
      unfold RepSlot at this
      rw [upd_ne _ _ hsd, hL s hsd]
      cases hm : st.mode s <;> rw [hm] at this <;> try exact this
      refine ⟨this.1, fun hn => this.2 ?_⟩
      intro r h hg ht
      refine hn r h ?_ ht
      rw [h3]
      exact St.invalidate_keep hg (by rw [ht]; exact hsd)
  · intro r h hg
    rw [h3] at hg
    rw [hL _ (St.invalidate_none hg)]
    exact rep.hold r h ((GpLe.invalidate st d).gp r h hg)

/-! ### Allocation -/

/-- What an allocation may do to the state. -/
structure AllocSpec (st st' : St) (x : FReg) : Prop where
  n : st'.n = st.n
  gp : st'.gp = st.gp
  pinned : st'.pinned = st.pinned
  lt : x < st'.vf.length
  len : st.vf.length ≤ st'.vf.length
  unpinned : x ∉ st.pinned ∨ st.vf.length ≤ x
  vacant : ∀ s, (st'.mode s).reg ≠ some x
  mode : ∀ s, st'.mode s = st.mode s ∨
    ∃ g, st.mode s = .Sf x g ∧ st'.mode s = .S g.toG
  keepF : ∀ s y, st.mode s = .F y → y ≠ x

theorem SfG.sat_toG {g : SfG} {v : Val} (h : g.sat v) : g.toG.sat v = true := by
  cases g with
  | fixnum => obtain ⟨i, rfl⟩ := h; rfl
  | float => obtain ⟨i, rfl⟩ := h; rfl
  | both => rfl

theorem AllocSpec.rep {P : Prim} {st st' : St} {x : FReg} (h : AllocSpec st st' x)
    {m m' : Mach} {L : Slot → Val} {D : Slot → Prop} (rep : Rep P st m L D)
    (hg : ∀ r hh, st.gp r = some hh → m'.gp r = m.gp r) (hs : m'.stack = m.stack)
    (hf : ∀ y, y ≠ x → m'.fpr y = m.fpr y) : Rep P st' m' L D := by
  refine ⟨?_, fun r hh h1 => by rw [h.gp] at h1; rw [hg r hh h1]; exact rep.hold r hh h1⟩
  intro s hD
  have hr := rep.slot s hD
  have hv := h.vacant s
  unfold RepSlot at hr ⊢
  have hnd : noDirty st' s → noDirty st s := by
    intro hn r hh hg; exact hn r hh (by rw [h.gp]; exact hg)
  rcases h.mode s with hm | ⟨g, hm, hm'⟩
  · rw [hm] at hv ⊢
    cases hmm : st.mode s with
    | S g => rw [hmm] at hr; exact ⟨hr.1, fun hn => by rw [hs]; exact hr.2 (hnd hn)⟩
    | F y =>
      rw [hmm] at hr hv
      simp only [Mode.reg, ne_eq, Option.some.injEq] at hv
      simp only
      rw [hf y hv]; exact hr
    | Sf y g =>
      rw [hmm] at hr hv
      simp only [Mode.reg, ne_eq, Option.some.injEq] at hv
      exact ⟨by rw [hs]; exact hr.1, hr.2.1, by rw [hf y hv]; exact hr.2.2⟩
    | C v => rw [hmm] at hr; exact hr
    | V => trivial
    | none => trivial
    | maybeNone => trivial
  · rw [hm] at hr
    rw [hm']
    exact ⟨SfG.sat_toG hr.2.1, fun _ => by rw [hs]; exact hr.1⟩

theorem alloc_spec {st : St} (w : WF st) : WF st.alloc.1 ∧ AllocSpec st st.alloc.1 st.alloc.2 := by
  unfold St.alloc St.tryAlloc
  cases hp : st.pickVacant with
  | some x =>
    simp only
    unfold St.pickVacant at hp
    have h1 := List.find?_some hp
    have h2 := List.mem_of_find?_eq_some hp
    simp only [Bool.and_eq_true, Bool.not_eq_true', List.contains_eq_mem,
      decide_eq_false_iff_not, List.isEmpty_iff] at h1
    refine ⟨w, rfl, rfl, rfl, by simpa using h2, Nat.le_refl _, .inl h1.1, ?_, fun s => .inl rfl, ?_⟩
    · intro s hs
      have := (w.vf x s).2 hs
      rw [h1.2] at this; simp at this
    · intro s y hy hyx
      have := (w.vf x s).2 (by rw [hy, hyx]; rfl)
      rw [h1.2] at this; simp at this
  | none =>
    simp only
    cases hv : st.pickVictim with
    | some x =>
      simp only
      unfold St.pickVictim at hv
      have h1 := List.find?_some hv
      have h2 := List.mem_of_find?_eq_some hv
      simp only [Bool.and_eq_true, Bool.not_eq_true', List.contains_eq_mem,
        decide_eq_false_iff_not, List.all_eq_true] at h1
      have hxl : x < st.vf.length := by simpa using h2
      have hmode : ∀ s, s ∈ st.slots x → ∃ g, st.mode s = .Sf x g ∧ (st.demote x).mode s = .S g.toG := by
        intro s hs
        have ha := h1.2 s hs
        have hb := (w.vf x s).1 hs
        cases hm : st.mode s with
        | Sf y g =>
          rw [hm] at hb
          simp only [Mode.reg, Option.some.injEq] at hb
          subst hb
          exact ⟨g, rfl, by simp [St.demote, hs, hm]⟩
        | _ => rw [hm] at ha; simp [Mode.isSf] at ha
      have hmode' : ∀ s, s ∉ st.slots x → (st.demote x).mode s = st.mode s := by
        intro s hs; simp [St.demote, hs]
      have hslots : ∀ y, (st.demote x).slots y = if y = x then [] else st.slots y := by
        intro y
        unfold St.slots St.demote
        simp only [List.getD_eq_getElem?_getD, List.getElem?_set]
        by_cases hyx : x = y
        · subst hyx; simp [hxl]
        · have : ¬ y = x := fun h => hyx h.symm
          simp [hyx, this]
      refine ⟨⟨?_, w.inj, w.lt, ?_, ?_⟩, rfl, rfl, rfl, ?_, ?_, .inl h1.1.1, ?_, ?_, ?_⟩
      · intro y s
        rw [hslots]
        by_cases hs : s ∈ st.slots x
        · obtain ⟨g, hg, hg'⟩ := hmode s hs
          rw [hg']
          simp only [Mode.reg, reduceCtorEq, iff_false]
          split
          · simp
          · next hyx =>
            intro hsy
            have := (w.vf y s).1 hsy
            rw [hg] at this
            simp only [Mode.reg, Option.some.injEq] at this
            exact hyx this.symm
        · rw [hmode' s hs]
          split
          · next hyx =>
            subst hyx
            simp only [List.not_mem_nil, false_iff]
            intro hr; exact hs ((w.vf y s).2 hr)
          · exact w.vf y s
      · intro r h hg hd
        obtain ⟨g, hg'⟩ := w.dirty r h hg hd
        refine ⟨g, ?_⟩
        rw [hmode' _ ?_]
        · exact hg'
        · intro hs
          have := (w.vf x _).1 hs
          rw [hg'] at this
          simp [Mode.reg] at this
      · intro s hs
        have hb := w.big s hs
        rw [hmode' s ?_]
        · exact hb
        · intro hh
          have := (w.vf x s).1 hh
          rw [hb] at this
          simp [Mode.reg] at this
      · simpa [St.demote] using hxl
      · simp [St.demote]
      · intro s hs
        by_cases hh : s ∈ st.slots x
        · obtain ⟨g, _, hg'⟩ := hmode s hh
          rw [hg'] at hs; simp [Mode.reg] at hs
        · rw [hmode' s hh] at hs
          exact hh ((w.vf x s).2 hs)
      · intro s
        by_cases hh : s ∈ st.slots x
        · right; exact hmode s hh
        · left; exact hmode' s hh
      · intro s y hy hyx
        have hh : s ∈ st.slots x := (w.vf x s).2 (by rw [hy, hyx]; rfl)
        have := h1.2 s hh
        rw [hy] at this; simp [Mode.isSf] at this
    | none =>
      simp only
      have hslots : ∀ y, ({ st with vf := st.vf ++ [[]] } : St).slots y = st.slots y := by
        intro y
        unfold St.slots
        simp only [List.getD_eq_getElem?_getD, List.getElem?_append]
        split
        · rfl
        · next hy =>
          rw [List.getElem?_eq_none (l := st.vf) (Nat.le_of_not_lt hy)]
          cases hk : y - st.vf.length with
          | zero => simp
          | succ k => simp
      refine ⟨⟨?_, w.inj, w.lt, w.dirty, w.big⟩, rfl, rfl, rfl, by simp, by simp, .inr (Nat.le_refl _),
        ?_, fun s => .inl rfl, ?_⟩
      · intro y s; rw [hslots]; exact w.vf y s
      · intro s hs
        exact absurd (St.slots_lt ((w.vf _ s).2 hs)) (Nat.lt_irrefl _)
      · intro s y hy hyx
        have := St.slots_lt ((w.vf y s).2 (by rw [hy]; rfl))
        rw [hyx] at this
        exact absurd this (Nat.lt_irrefl _)

end Verif.JitState
