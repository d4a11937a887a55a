import Verif.Ivar.Spec

/-! # Lemmas about the slot vector and one object's slots -/

namespace Verif.Ivar

variable {V : Type}

theorem le_doubleUntil (n : Nat) : ∀ fuel p, 1 ≤ p → n ≤ p + fuel →
    n ≤ doubleUntil n fuel p ∧ p ≤ doubleUntil n fuel p := by
  intro fuel
  induction fuel with
  | zero => intro p _ h; simp [doubleUntil]; omega
  | succ f ih =>
    intro p hp h
    unfold doubleUntil
    by_cases hc : n ≤ p
    · rw [if_pos hc]; omega
    · rw [if_neg hc]
      have := ih (2 * p) (by omega) (by omega)
      omega

theorem le_nextPow2 (n : Nat) : n ≤ nextPow2 n :=
  (le_doubleUntil n n 1 (Nat.le_refl _) (by omega)).1

theorem nextPow2_pos (n : Nat) : 0 < nextPow2 n :=
  (le_doubleUntil n n 1 (Nat.le_refl _) (by omega)).2

namespace MonoVec

/-- The used words are inside the allocation and were written. -/
structure WF0 (v : MonoVec V) : Prop where
  le : v.len ≤ v.mem.length
  init : ∀ i, i < v.len → ∃ o, v.mem[i]? = some (.word o)

/-- … and there is an allocation. -/
structure WF (v : MonoVec V) : Prop extends WF0 v where
  pos : 0 < v.mem.length

/-- The content: unused positions hold nothing. -/
def content (v : MonoVec V) (i : Nat) : Option V :=
  if i < v.len then (v.rawRead i).getD none else none

theorem rawRead_of_init {v : MonoVec V} (h : v.WF0) {i : Nat} (hi : i < v.len) :
    v.rawRead i = some (v.content i) := by
  obtain ⟨o, ho⟩ := h.init i hi
  simp [content, hi, rawRead, ho]

theorem rawRead_eq {v v' : MonoVec V} {i j : Nat} (h : v'.mem[j]? = v.mem[i]?) :
    v'.rawRead j = v.rawRead i := by
  simp [rawRead, h]

theorem withCapacity_wf (cap : Nat) :
    ∃ v : MonoVec V, withCapacity cap = some v ∧ v.WF0 ∧ v.len = 0 ∧ cap ≤ v.mem.length := by
  unfold withCapacity
  by_cases h : cap = 0
  · subst h
    exact ⟨⟨[], 0⟩, by simp, ⟨by simp, by simp⟩, rfl, by simp⟩
  · have hp := nextPow2_pos cap
    have hl := le_nextPow2 cap
    refine ⟨⟨List.replicate (nextPow2 cap) .uninit, 0⟩, ?_, ⟨by simp, by simp⟩, rfl, by simpa using hl⟩
    rw [if_neg h, alloc, if_neg (by omega)]

theorem reserve_wf {v : MonoVec V} (h : v.WF0) (n : Nat) :
    ∃ m, v.reserve n = some { v with mem := m } ∧ v.len + n ≤ m.length ∧
      v.mem.length ≤ m.length ∧ ∀ i, i < v.len → m[i]? = v.mem[i]? := by
  unfold reserve
  dsimp only
  by_cases hc : v.len + n > v.mem.length
  · rw [if_pos hc]
    have hp := nextPow2_pos (v.len + n)
    have hl := le_nextPow2 (v.len + n)
    unfold grow
    by_cases h0 : v.mem.length = 0
    · rw [if_pos h0, alloc, if_neg (by omega)]
      refine ⟨_, rfl, by simpa using hl, by simp; omega, ?_⟩
      intro i hi
      have := h.le
      omega
    · rw [if_neg h0, realloc, if_neg (by omega)]
      refine ⟨_, rfl, ?_, ?_, ?_⟩
      · simp; omega
      · simp; omega
      · intro i hi
        have := h.le
        rw [List.getElem?_append_left (by simp; omega), List.getElem?_take, if_pos (by omega)]
  · rw [if_neg hc]
    exact ⟨v.mem, rfl, by omega, Nat.le_refl _, fun _ _ => rfl⟩

theorem extend_wf {v : MonoVec V} (h : v.WF0) (n : Nat) :
    ∃ v', v.extend n = some v' ∧ v'.WF0 ∧ v'.len = v.len + n ∧ v.mem.length ≤ v'.mem.length ∧
      ∀ i, v'.content i = v.content i := by
  obtain ⟨m, hm, hlen, hmono, hkeep⟩ := reserve_wf h n
  unfold extend
  rw [hm]
  dsimp only
  rw [zeroFill, if_pos hlen]
  dsimp only
  have hml : (m.take v.len ++ List.replicate n (Cell.word (none : Option V)) ++
      m.drop (v.len + n)).length = m.length := by
    simp; omega
  have hlow : ∀ i, i < v.len →
      (m.take v.len ++ List.replicate n (Cell.word (none : Option V)) ++
        m.drop (v.len + n))[i]? = v.mem[i]? := by
    intro i hi
    rw [List.getElem?_append_left (by simp; omega), List.getElem?_append_left (by simp; omega),
      List.getElem?_take, if_pos hi, hkeep i hi]
  have hmid : ∀ i, v.len ≤ i → i < v.len + n →
      (m.take v.len ++ List.replicate n (Cell.word (none : Option V)) ++
        m.drop (v.len + n))[i]? = some (.word none) := by
    intro i h1 h2
    have hmin : min v.len m.length = v.len := by omega
    rw [List.getElem?_append_left (by simp; omega), List.getElem?_append_right (by simp; omega),
      List.getElem?_replicate]
    simp only [List.length_take, hmin]
    rw [if_pos (by omega)]
  refine ⟨_, rfl, ⟨?_, ?_⟩, rfl, ?_, ?_⟩
  · dsimp only; rw [hml]; exact hlen
  · intro i hi
    dsimp only at hi ⊢
    by_cases h1 : i < v.len
    · rw [hlow i h1]; exact h.init i h1
    · exact ⟨none, hmid i (by omega) hi⟩
  · dsimp only; rw [hml]; exact hmono
  · intro i
    unfold content
    dsimp only
    by_cases h1 : i < v.len
    · rw [if_pos h1, if_pos (by omega)]
      rw [rawRead_eq (v := v) (i := i) (hlow i h1)]
    · rw [if_neg h1]
      by_cases h2 : i < v.len + n
      · rw [if_pos h2]
        simp only [rawRead, hmid i (by omega) h2, Option.getD_some]
      · rw [if_neg h2]

theorem resize_wf {v : MonoVec V} (h : v.WF0) (n : Nat) :
    ∃ v', v.resize n = some v' ∧ v'.WF0 ∧ v'.len = max v.len n ∧ v.mem.length ≤ v'.mem.length ∧
      ∀ i, v'.content i = v.content i := by
  unfold resize
  by_cases hc : n > v.len
  · rw [if_pos hc]
    obtain ⟨v', h1, h2, h3, h4, h5⟩ := extend_wf h (n - v.len)
    exact ⟨v', h1, h2, by omega, h4, h5⟩
  · rw [if_neg hc]
    exact ⟨v, rfl, h, by omega, Nat.le_refl _, fun _ => rfl⟩

theorem rawWrite_wf {v : MonoVec V} (h : v.WF0) {i : Nat} (hi : i < v.len) (x : Option V) :
    ∃ v', v.rawWrite i x = some v' ∧ v'.WF0 ∧ v'.len = v.len ∧ v'.mem.length = v.mem.length ∧
      ∀ j, v'.content j = if j = i then x else v.content j := by
  have hle := h.le
  unfold rawWrite
  rw [if_pos (by omega)]
  refine ⟨_, rfl, ⟨by simpa using hle, ?_⟩, rfl, by simp, ?_⟩
  · intro j hj
    dsimp only at hj ⊢
    by_cases hji : j = i
    · subst hji
      exact ⟨x, by rw [List.getElem?_set_self (by omega)]⟩
    · rw [List.getElem?_set_ne (by omega)]
      exact h.init j hj
  · intro j
    unfold content rawRead
    dsimp only
    by_cases hji : j = i
    · subst hji
      rw [if_pos hi, if_pos rfl, List.getElem?_set_self (by omega)]
      rfl
    · rw [if_neg hji, List.getElem?_set_ne (by omega)]

theorem indexSet_wf {v : MonoVec V} (h : v.WF0) {i : Nat} (hi : i < v.len) (x : Option V) :
    ∃ v', v.indexSet i x = some v' ∧ v'.WF0 ∧ v'.len = v.len ∧ v'.mem.length = v.mem.length ∧
      ∀ j, v'.content j = if j = i then x else v.content j := by
  unfold indexSet
  rw [if_pos hi]
  exact rawWrite_wf h hi x

end MonoVec

namespace Obj

/-- The inline slots exist for plain objects, and the slot vector is well formed. -/
structure WF (o : Obj V) : Prop where
  inl : o.isObj = true → o.inl.length = inlineSlots
  var : ∀ v, o.var = some v → v.WF

/-- What the slot vector holds at `i`. -/
def heapVal (o : Obj V) (i : Nat) : Option V :=
  match o.var with
  | some v => v.content i
  | none => none

/-- What slot `i` holds. -/
def slot (o : Obj V) (i : Nat) : Option V :=
  if isInline o.isObj i then (o.inl[i]?).getD none else o.heapVal (heapIdx o.isObj i)

theorem heapVal_some {o : Obj V} {v : MonoVec V} (hv : o.var = some v) (i : Nat) :
    o.heapVal i = v.content i := by
  unfold heapVal; rw [hv]

theorem heapVal_none {o : Obj V} (hv : o.var = none) (i : Nat) : o.heapVal i = none := by
  unfold heapVal; rw [hv]

theorem getVar_eq {o : Obj V} (h : o.WF) (i : Nat) : o.getVar i = some (o.heapVal i) := by
  unfold getVar
  split
  · rename_i v hv
    have hw := h.var v hv
    rw [heapVal_some hv]
    by_cases hi : v.len > i
    · rw [if_pos hi, MonoVec.index, if_pos hi, MonoVec.rawRead_of_init hw.toWF0 hi]
    · rw [if_neg hi, MonoVec.content, if_neg (by omega)]
  · rename_i hv
    rw [heapVal_none hv]

theorem getById_eq {o : Obj V} (h : o.WF) (i : Nat) : o.getById i = some (o.slot i) := by
  unfold getById slot isInline heapIdx
  cases hb : o.isObj
  · simp [getVar_eq h]
  · have hl := h.inl hb
    by_cases hi : i < inlineSlots
    · have : i < o.inl.length := by omega
      simp [hi, List.getElem?_eq_getElem this]
    · simp [hi, getVar_eq h]

/-- Replacing the slot vector by one with the content changed at `i`. -/
theorem slot_setVar {o : Obj V} {v' : MonoVec V} {id : Nat} {x : Option V}
    (hin : isInline o.isObj id = false)
    (hc : ∀ j, v'.content j = if j = heapIdx o.isObj id then x else o.heapVal j) (j : Nat) :
    ({ o with var := some v' } : Obj V).slot j = if j = id then x else o.slot j := by
  unfold slot
  dsimp only [heapVal]
  by_cases hj : isInline o.isObj j = true
  · have hne : j ≠ id := by
      rintro rfl
      rw [hin] at hj
      cases hj
    simp [hj, hne]
  · have hj' : isInline o.isObj j = false := by simpa using hj
    rw [hj']
    simp only [Bool.false_eq_true, if_false]
    rw [hc]
    have : heapIdx o.isObj j = heapIdx o.isObj id ↔ j = id := by
      unfold heapIdx isInline at *
      cases hb : o.isObj
      · simp
      · simp [hb] at hin hj'
        simp only [if_true]
        omega
    by_cases hjid : j = id
    · rw [if_pos (this.mpr hjid), if_pos hjid]
    · rw [if_neg (fun h => hjid (this.mp h)), if_neg hjid]
      rfl

theorem slot_setInl {o : Obj V} (h : o.WF) {id : Nat} {x : Option V}
    (hin : isInline o.isObj id = true) (j : Nat) :
    ({ o with inl := o.inl.set id x } : Obj V).slot j = if j = id then x else o.slot j := by
  unfold slot
  dsimp only [heapVal]
  have hb : o.isObj = true := by
    unfold isInline at hin; simp at hin; exact hin.1
  have hid : id < inlineSlots := by
    unfold isInline at hin; simp at hin; exact hin.2
  have hl := h.inl hb
  by_cases hjid : j = id
  · subst hjid
    rw [if_pos hin, if_pos rfl, List.getElem?_set_self (by omega)]
    rfl
  · rw [if_neg hjid, List.getElem?_set_ne (by omega)]

theorem wf_setInl {o : Obj V} (h : o.WF) (id : Nat) (x : Option V) :
    ({ o with inl := o.inl.set id x } : Obj V).WF :=
  ⟨fun hb => by simpa using h.inl hb, h.var⟩

theorem wf_setVar {o : Obj V} (h : o.WF) {v : MonoVec V} (hv : v.WF) :
    ({ o with var := some v } : Obj V).WF :=
  ⟨h.inl, fun v' hv' => by cases hv'; exact hv⟩

/-- The result of an operation on one object: the object's header is unchanged. -/
structure Same (o o' : Obj V) : Prop where
  cls : o'.cls = o.cls
  isObj : o'.isObj = o.isObj
  frozen : o'.frozen = o.frozen

theorem setVar_wf {o : Obj V} (h : o.WF) (i : Nat) (x : V) :
    ∃ v', o.setVar i x = some { o with var := some v' } ∧ v'.WF ∧
      ∀ j, v'.content j = if j = i then some x else o.heapVal j := by
  unfold setVar
  split
  · rename_i v hv
    have hw := h.var v hv
    have key : ∃ w, (if v.len ≤ i then v.resize (i + 1) else some v) = some w ∧ w.WF0 ∧ i < w.len ∧
        v.mem.length ≤ w.mem.length ∧ ∀ j, w.content j = v.content j := by
      by_cases hc : v.len ≤ i
      · rw [if_pos hc]
        obtain ⟨w, h1, h2, h3, h4, h5⟩ := MonoVec.resize_wf hw.toWF0 (i + 1)
        exact ⟨w, h1, h2, by omega, h4, h5⟩
      · rw [if_neg hc]
        exact ⟨v, rfl, hw.toWF0, by omega, Nat.le_refl _, fun _ => rfl⟩
    obtain ⟨w, h1, h2, h3, h4, h5⟩ := key
    obtain ⟨u, k1, k2, k3, k4, k5⟩ := MonoVec.indexSet_wf h2 h3 (some x)
    rw [h1]
    dsimp only
    rw [k1]
    have := hw.pos
    exact ⟨u, rfl, ⟨k2, by omega⟩, fun j => by rw [k5, h5, heapVal_some hv]⟩
  · rename_i hv
    obtain ⟨v, g1, g2, g3, g4⟩ := MonoVec.withCapacity_wf (V := V) (i + 1)
    obtain ⟨w, h1, h2, h3, h4, h5⟩ := MonoVec.resize_wf g2 (i + 1)
    obtain ⟨u, k1, k2, k3, k4, k5⟩ := MonoVec.indexSet_wf h2 (i := i) (by omega) (some x)
    rw [g1]
    dsimp only
    rw [h1]
    dsimp only
    rw [k1]
    refine ⟨u, rfl, ⟨k2, by omega⟩, fun j => ?_⟩
    rw [k5, h5]
    have : v.content j = none := by
      unfold MonoVec.content; rw [if_neg (by omega)]
    rw [this, heapVal_none hv]

theorem setById_wf {o : Obj V} (h : o.WF) (i : Nat) (x : V) :
    ∃ o', o.setById i x = some o' ∧ o'.WF ∧ Same o o' ∧
      ∀ j, o'.slot j = if j = i then some x else o.slot j := by
  unfold setById
  by_cases hb : o.isObj = true
  rotate_left
  · obtain ⟨v', h1, h2, h3⟩ := setVar_wf h i x
    rw [if_neg hb]
    refine ⟨_, h1, wf_setVar h h2, ⟨rfl, rfl, rfl⟩, ?_⟩
    apply slot_setVar (by simp [isInline, hb])
    simpa [heapIdx, hb] using h3
  · rw [if_pos hb]
    by_cases hi : i < inlineSlots
    · have hl := h.inl hb
      rw [if_pos hi, if_pos (by omega)]
      exact ⟨_, rfl, wf_setInl h _ _, ⟨rfl, rfl, rfl⟩,
        slot_setInl h (by simp [isInline, hb, hi])⟩
    · rw [if_neg hi]
      obtain ⟨v', h1, h2, h3⟩ := setVar_wf h (i - inlineSlots) x
      refine ⟨_, h1, wf_setVar h h2, ⟨rfl, rfl, rfl⟩, ?_⟩
      apply slot_setVar (by simp [isInline, hi])
      simpa [heapIdx, hb] using h3

theorem removeVar_wf {o : Obj V} (h : o.WF) (i : Nat) :
    ∃ o', o.removeVar i = some (o', o.heapVal i) ∧ o'.WF ∧ Same o o' ∧ o'.inl = o.inl ∧
      ∀ j, o'.heapVal j = if j = i then none else o.heapVal j := by
  unfold removeVar
  split
  · rename_i v hv
    have hw := h.var v hv
    have hval : ∀ j, o.heapVal j = v.content j := fun j => by unfold heapVal; rw [hv]
    by_cases hc : v.len > i
    · rw [if_pos hc]
      obtain ⟨u, k1, k2, k3, k4, k5⟩ := MonoVec.indexSet_wf hw.toWF0 hc none
      have hp := hw.pos
      rw [MonoVec.index, if_pos hc, MonoVec.rawRead_of_init hw.toWF0 hc, k1]
      dsimp only
      refine ⟨_, by rw [hval], wf_setVar h ⟨k2, by omega⟩, ⟨rfl, rfl, rfl⟩, rfl, ?_⟩
      intro j
      show u.content j = _
      rw [k5, hval]
    · rw [if_neg hc]
      have : v.content i = none := by unfold MonoVec.content; rw [if_neg (by omega)]
      refine ⟨o, by rw [hval, this], h, ⟨rfl, rfl, rfl⟩, rfl, ?_⟩
      intro j
      by_cases hj : j = i
      · subst hj; rw [if_pos rfl, hval, this]
      · rw [if_neg hj]
  · rename_i hv
    have hval : ∀ j, o.heapVal j = none := fun j => by unfold heapVal; rw [hv]
    exact ⟨o, by rw [hval], h, ⟨rfl, rfl, rfl⟩, rfl, fun j => by simp [hval]⟩

theorem removeById_wf {o : Obj V} (h : o.WF) (i : Nat) :
    ∃ o', o.removeById i = some (o', o.slot i) ∧ o'.WF ∧ Same o o' ∧
      ∀ j, o'.slot j = if j = i then none else o.slot j := by
  unfold removeById
  by_cases hb : o.isObj = true
  rotate_left
  · obtain ⟨o', h1, h2, h3, h4, h5⟩ := removeVar_wf h i
    rw [if_neg hb]
    have hs : ∀ j, o.slot j = o.heapVal j := fun j => by
      simp [slot, isInline, heapIdx, hb]
    have hs' : ∀ j, o'.slot j = o'.heapVal j := fun j => by
      simp [slot, isInline, heapIdx, h3.isObj, hb]
    exact ⟨o', by rw [h1, hs], h2, h3, fun j => by rw [hs', h5, hs]⟩
  · rw [if_pos hb]
    by_cases hi : i < inlineSlots
    · have hl := h.inl hb
      rw [if_pos hi]
      have hin : isInline o.isObj i = true := by simp [isInline, hb, hi]
      have hget : o.inl[i]? = some (o.slot i) := by
        unfold slot
        rw [if_pos hin, List.getElem?_eq_getElem (by omega)]
        rfl
      rw [hget]
      exact ⟨_, rfl, wf_setInl h _ _, ⟨rfl, rfl, rfl⟩, slot_setInl h hin⟩
    · rw [if_neg hi]
      obtain ⟨o', h1, h2, h3, h4, h5⟩ := removeVar_wf h (i - inlineSlots)
      have hs : o.slot i = o.heapVal (i - inlineSlots) := by simp [slot, isInline, heapIdx, hb, hi]
      refine ⟨o', by rw [h1, hs], h2, h3, ?_⟩
      intro j
      unfold slot
      rw [h3.isObj, h4]
      by_cases hj : j < inlineSlots
      · have : j ≠ i := by omega
        simp [isInline, hb, hj, this]
      · simp only [isInline, hb, hj, heapIdx, h5, decide_false, Bool.and_false,
          Bool.false_eq_true, if_false, if_true]
        by_cases hji : j = i
        · rw [if_pos hji, if_pos (by omega)]
        · rw [if_neg hji, if_neg (by omega)]

theorem extendIvar_wf {o : Obj V} (h : o.WF) {n : Nat} (hn : 1 ≤ n) :
    ∃ v', o.extendIvar n = some { o with var := some v' } ∧ v'.WF ∧ n ≤ v'.len ∧
      ∀ j, v'.content j = o.heapVal j := by
  unfold extendIvar
  split
  · rename_i v hv
    have hw := h.var v hv
    obtain ⟨w, h1, h2, h3, h4, h5⟩ := MonoVec.resize_wf hw.toWF0 n
    have := hw.pos
    rw [h1]
    exact ⟨w, rfl, ⟨h2, by omega⟩, by omega, fun j => by rw [h5, heapVal_some hv]⟩
  · rename_i hv
    obtain ⟨v, g1, g2, g3, g4⟩ := MonoVec.withCapacity_wf (V := V) n
    obtain ⟨w, h1, h2, h3, h4, h5⟩ := MonoVec.resize_wf g2 n
    rw [g1]
    dsimp only
    rw [h1]
    refine ⟨w, rfl, ⟨h2, by omega⟩, by omega, fun j => ?_⟩
    rw [h5, heapVal_none hv]
    unfold MonoVec.content
    rw [if_neg (by omega)]

/-- Enough slots for every heap access of a compiled body. -/
def Ready (o : Obj V) (heapLen : Option Nat) : Prop :=
  ∀ n, heapLen = some n → ∃ v, o.var = some v ∧ n ≤ v.len

theorem slot_sameVar {o : Obj V} {v' : MonoVec V} (hc : ∀ j, v'.content j = o.heapVal j) (j : Nat) :
    ({ o with var := some v' } : Obj V).slot j = o.slot j := by
  unfold slot
  dsimp only [heapVal]
  by_cases hj : isInline o.isObj j = true
  · rw [if_pos hj, if_pos hj]
  · rw [if_neg hj, if_neg hj, hc]
    rfl

theorem prologue_wf {o : Obj V} (h : o.WF) {heapLen : Option Nat} (hn : ∀ n, heapLen = some n → 1 ≤ n) :
    ∃ o', o.prologue heapLen = some o' ∧ o'.WF ∧ Same o o' ∧ o'.Ready heapLen ∧
      ∀ j, o'.slot j = o.slot j := by
  unfold prologue
  cases heapLen with
  | none => exact ⟨o, rfl, h, ⟨rfl, rfl, rfl⟩, (by intro n hn; cases hn), fun _ => rfl⟩
  | some n =>
    have h1 : 1 ≤ n := hn n rfl
    obtain ⟨v', k1, k2, k3, k4⟩ := extendIvar_wf h h1
    have ext : ∃ o', o.extendIvar n = some o' ∧ o'.WF ∧ Same o o' ∧ o'.Ready (some n) ∧
        ∀ j, o'.slot j = o.slot j :=
      ⟨_, k1, wf_setVar h k2, ⟨rfl, rfl, rfl⟩,
        (by intro m hm; cases hm; exact ⟨v', rfl, k3⟩), slot_sameVar k4⟩
    dsimp only
    split
    · exact ext
    · rename_i v hv
      by_cases hc : v.mem.length = 0 ∨ v.len < n
      · rw [if_pos hc]; exact ext
      · rw [if_neg hc]
        exact ⟨o, rfl, h, ⟨rfl, rfl, rfl⟩, (by intro m hm; cases hm; exact ⟨v, hv, by omega⟩),
          fun _ => rfl⟩

theorem jitLoadSelf_eq {o : Obj V} (h : o.WF) {heapLen : Option Nat} (hr : o.Ready heapLen) {id : Nat}
    (hid : isInline o.isObj id = false → ∃ n, heapLen = some n ∧ heapIdx o.isObj id < n) :
    o.jitLoadSelf id = some (o.slot id) := by
  unfold jitLoadSelf slot
  by_cases hin : isInline o.isObj id = true
  · rw [if_pos hin, if_pos hin]
    have hb : o.isObj = true := by
      unfold isInline at hin; simp at hin; exact hin.1
    have hlt : id < inlineSlots := by
      unfold isInline at hin; simp at hin; exact hin.2
    have hl := h.inl hb
    rw [List.getElem?_eq_getElem (by omega)]
    rfl
  · rw [if_neg hin, if_neg hin]
    obtain ⟨n, h1, h2⟩ := hid (by simpa using hin)
    obtain ⟨v, h3, h4⟩ := hr n h1
    unfold heapVal
    rw [h3]
    dsimp only
    exact MonoVec.rawRead_of_init (h.var v h3).toWF0 (by omega)

theorem jitStoreSelf_wf {o : Obj V} (h : o.WF) {heapLen : Option Nat} (hr : o.Ready heapLen)
    {id : Nat} (x : V)
    (hid : isInline o.isObj id = false → ∃ n, heapLen = some n ∧ heapIdx o.isObj id < n) :
    ∃ o', o.jitStoreSelf id x = some o' ∧ o'.WF ∧ Same o o' ∧ o'.Ready heapLen ∧
      ∀ j, o'.slot j = if j = id then some x else o.slot j := by
  unfold jitStoreSelf
  by_cases hin : isInline o.isObj id = true
  · rw [if_pos hin]
    have hb : o.isObj = true := by
      unfold isInline at hin; simp at hin; exact hin.1
    have hlt : id < inlineSlots := by
      unfold isInline at hin; simp at hin; exact hin.2
    have hl := h.inl hb
    rw [if_pos (by omega)]
    exact ⟨_, rfl, wf_setInl h _ _, ⟨rfl, rfl, rfl⟩, hr, slot_setInl h hin⟩
  · have hin' : isInline o.isObj id = false := by simpa using hin
    rw [if_neg hin]
    obtain ⟨n, h1, h2⟩ := hid hin'
    obtain ⟨v, h3, h4⟩ := hr n h1
    have hw := h.var v h3
    obtain ⟨u, k1, k2, k3, k4, k5⟩ :=
      MonoVec.rawWrite_wf hw.toWF0 (i := heapIdx o.isObj id) (by omega) (some x)
    have hp := hw.pos
    rw [h3]
    dsimp only
    rw [k1]
    refine ⟨_, rfl, wf_setVar h ⟨k2, by omega⟩, ⟨rfl, rfl, rfl⟩, ?_, ?_⟩
    · intro m hm
      have hmn : m = n := by rw [hm] at h1; exact Option.some.inj h1
      subst hmn
      exact ⟨u, rfl, by omega⟩
    · apply slot_setVar hin'
      intro j
      rw [k5]
      unfold heapVal
      rw [h3]

theorem checkLen_true {o : Obj V} {idx : Nat} (h : o.checkLen idx = true) :
    ∃ v, o.var = some v ∧ idx < v.len := by
  unfold checkLen at h
  split at h
  · cases h
  · rename_i v hv
    simp at h
    exact ⟨v, hv, h.2⟩

theorem checkLen_false {o : Obj V} (hw : o.WF) {idx : Nat} (h : o.checkLen idx = false) :
    o.heapVal idx = none := by
  unfold checkLen at h
  unfold heapVal
  split at h
  · rename_i hv; rw [hv]
  · rename_i v hv
    rw [hv]
    have := (hw.var v hv).pos
    dsimp only
    unfold MonoVec.content
    rw [if_neg]
    intro hlt
    simp [hlt] at h
    rw [h] at this
    simp at this

theorem jitLoadOther_eq {o : Obj V} (h : o.WF) (id : Nat) :
    o.jitLoadOther id = some (o.slot id) := by
  by_cases hin : isInline o.isObj id = true
  · have hr : o.Ready none := by intro n hn; cases hn
    have := jitLoadSelf_eq h hr (id := id) (by intro hf; rw [hin] at hf; cases hf)
    unfold jitLoadOther
    unfold jitLoadSelf at this
    rw [if_pos hin] at this ⊢
    exact this
  · unfold jitLoadOther
    rw [if_neg hin]
    by_cases hc : o.checkLen (heapIdx o.isObj id) = true
    · rw [if_pos hc]
      obtain ⟨v, hv, hlt⟩ := checkLen_true hc
      have hr : o.Ready (some v.len) := by
        intro n hn; cases hn; exact ⟨v, hv, Nat.le_refl _⟩
      have := jitLoadSelf_eq h hr (id := id) (fun _ => ⟨v.len, rfl, hlt⟩)
      unfold jitLoadSelf at this
      rw [if_neg hin] at this
      exact this
    · rw [if_neg hc]
      unfold slot
      rw [if_neg hin, checkLen_false h (by simpa using hc)]

theorem jitStoreOther_wf {o : Obj V} (h : o.WF) (id : Nat) (x : V) :
    ∃ o', o.jitStoreOther id x = some o' ∧ o'.WF ∧ Same o o' ∧
      ∀ j, o'.slot j = if j = id then some x else o.slot j := by
  by_cases hin : isInline o.isObj id = true
  · have hr : o.Ready none := by intro n hn; cases hn
    obtain ⟨o', k1, k2, k3, _, k5⟩ :=
      jitStoreSelf_wf h hr x (id := id) (by intro hf; rw [hin] at hf; cases hf)
    unfold jitStoreOther
    unfold jitStoreSelf at k1
    rw [if_pos hin] at k1 ⊢
    exact ⟨o', k1, k2, k3, k5⟩
  · unfold jitStoreOther
    rw [if_neg hin]
    by_cases hc : o.checkLen (heapIdx o.isObj id) = true
    · rw [if_pos hc]
      obtain ⟨v, hv, hlt⟩ := checkLen_true hc
      have hr : o.Ready (some v.len) := by
        intro n hn; cases hn; exact ⟨v, hv, Nat.le_refl _⟩
      obtain ⟨o', k1, k2, k3, _, k5⟩ := jitStoreSelf_wf h hr x (id := id) (fun _ => ⟨v.len, rfl, hlt⟩)
      exact ⟨o', k1, k2, k3, k5⟩
    · rw [if_neg hc]
      exact setById_wf h id x

theorem copy_wf {o : Obj V} (h : o.WF) :
    ∃ o', o.copy = some o' ∧ o'.WF ∧ o'.cls = o.cls ∧ o'.isObj = o.isObj ∧ o'.frozen = false ∧
      ∀ j, o'.slot j = o.slot j := by
  unfold copy cloneVar
  cases hv : o.var with
  | none =>
    refine ⟨_, rfl, ⟨h.inl, (by intro v hv'; cases hv')⟩, rfl, rfl, rfl, fun j => ?_⟩
    simp [slot, heapVal, hv]
  | some v =>
    have hw := h.var v hv
    have hp := hw.pos
    dsimp only
    rw [MonoVec.clone, if_neg (by omega)]
    refine ⟨_, rfl, ⟨h.inl, (by intro v' hv'; cases hv'; exact hw)⟩, rfl, rfl, rfl, fun j => ?_⟩
    simp [slot, heapVal, hv]

end Obj
end Verif.Ivar
