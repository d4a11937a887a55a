import Verif.Ivar.Lemmas
import Mathlib.Data.Fintype.Card

/-! # The invariant of the store and its preservation -/

namespace Verif.Ivar

variable {V : Type}

/-! ## Name tables -/

namespace Table

/-- Ids are positions, names occur once. -/
structure WF (t : Table) : Prop where
  ids : ∀ (k : Nat) (p : Name × Nat), t[k]? = some p → p.2 = k
  nodup : (t.map (·.1)).Nodup

theorem lookup_some {t : Table} (h : t.WF) {n : Name} {id : Nat} (hl : t.lookup n = some id) :
    t[id]? = some (n, id) := by
  unfold lookup at hl
  cases hf : t.find? (fun p => p.1 = n) with
  | none => rw [hf] at hl; cases hl
  | some p =>
    rw [hf] at hl
    have hid : p.2 = id := by simpa using hl
    have hn : p.1 = n := by simpa using List.find?_some hf
    have hm := List.mem_of_find?_eq_some hf
    obtain ⟨k, hk⟩ := List.mem_iff_getElem?.mp hm
    have := h.ids k p hk
    have hkid : k = id := by omega
    subst hkid
    rw [hk]
    congr 1
    exact Prod.ext hn hid

theorem lookup_lt {t : Table} (h : t.WF) {n : Name} {id : Nat} (hl : t.lookup n = some id) :
    id < t.length := by
  have := lookup_some h hl
  exact (List.getElem?_eq_some_iff.mp this).1

theorem lookup_inj {t : Table} (h : t.WF) {n m : Name} {id : Nat} (h1 : t.lookup n = some id)
    (h2 : t.lookup m = some id) : n = m := by
  have a := lookup_some h h1
  have b := lookup_some h h2
  rw [a] at b
  simpa using b

theorem lookup_of_pos {t : Table} (h : t.WF) {k : Nat} {p : Name × Nat} (hk : t[k]? = some p) :
    t.lookup p.1 = some k := by
  have hm : p ∈ t := List.mem_iff_getElem?.mpr ⟨k, hk⟩
  cases hl : t.lookup p.1 with
  | none =>
    unfold lookup at hl
    simp at hl
    have := hl p.1 p.2 hm
    simp at this
  | some id =>
    have hpos := lookup_some h hl
    congr 1
    obtain ⟨hk1, hk2⟩ := List.getElem?_eq_some_iff.mp hk
    obtain ⟨hp1, hp2⟩ := List.getElem?_eq_some_iff.mp hpos
    have hnd := List.nodup_iff_injective_getElem.mp h.nodup
    have := @hnd ⟨id, by simpa using hp1⟩ ⟨k, by simpa using hk1⟩ (by simp [hp2, hk2])
    simpa using this

theorem lookup_none {t : Table} {n : Name} (hl : t.lookup n = none) : n ∉ t.map (·.1) := by
  unfold lookup at hl
  simp at hl
  intro hm
  simp at hm
  obtain ⟨b, hb⟩ := hm
  have := hl n b hb
  simp at this

theorem length_lt {t : Table} (h : t.WF) {n : Name} (hl : t.lookup n = none) : t.length < 2 ^ 32 := by
  have hnd : (n :: t.map (·.1)).Nodup := List.nodup_cons.mpr ⟨lookup_none hl, h.nodup⟩
  have := hnd.length_le_card
  rw [Fintype.card_fin, List.length_cons, List.length_map] at this
  omega

theorem lookup_prefix {t u : Table} {n : Name} {id : Nat} (hp : t <+: u) (hl : t.lookup n = some id) :
    u.lookup n = some id := by
  obtain ⟨w, rfl⟩ := hp
  unfold lookup at hl ⊢
  rw [List.find?_append]
  cases hf : t.find? (fun p => p.1 = n) with
  | none => rw [hf] at hl; cases hl
  | some p => rw [hf] at hl; simpa using hl

theorem lookup_new {t u : Table} (hu : u.WF) {n : Name} {id : Nat} (hp : t <+: u)
    (hl : t.lookup n = none) (hl' : u.lookup n = some id) : t.length ≤ id := by
  by_contra hc
  have h1 := lookup_some hu hl'
  obtain ⟨w, rfl⟩ := hp
  rw [List.getElem?_append_left (by omega)] at h1
  have hm : n ∈ t.map (·.1) := List.mem_map.mpr ⟨(n, id), List.mem_iff_getElem?.mpr ⟨id, h1⟩, rfl⟩
  exact lookup_none hl hm

theorem intern_wf {t : Table} (h : t.WF) (n : Name) :
    (t.intern n).1.WF ∧ t <+: (t.intern n).1 ∧ (t.intern n).1.lookup n = some (t.intern n).2 := by
  unfold intern
  cases hl : t.lookup n with
  | some id => exact ⟨h, List.prefix_refl t, hl⟩
  | none =>
    have hlt := length_lt h hl
    have hmod : t.length % 2 ^ 32 = t.length := Nat.mod_eq_of_lt hlt
    dsimp only
    rw [hmod]
    have hwf : WF (t ++ [(n, t.length)]) := by
      constructor
      · intro k p hk
        by_cases hkl : k < t.length
        · rw [List.getElem?_append_left hkl] at hk
          exact h.ids k p hk
        · rw [List.getElem?_append_right (by omega)] at hk
          have : k = t.length := by
            have := (List.getElem?_eq_some_iff.mp hk).1
            simp at this; omega
          subst this
          simp at hk
          rw [← hk]
      · rw [List.map_append, List.nodup_append]
        refine ⟨h.nodup, by simp, ?_⟩
        intro a ha b hb
        simp at hb
        subst hb
        rintro rfl
        exact lookup_none hl ha
    refine ⟨hwf, List.prefix_append _ _, ?_⟩
    have := lookup_of_pos hwf (k := t.length) (p := (n, t.length)) (by simp)
    exact this

end Table

/-! ## The invariant -/

/-- Object `o` fits its class: its slots beyond the class's table are empty. -/
structure Fits (classes : List Cls) (o : Obj V) : Prop where
  wf : o.WF
  cls : ∃ k, classes[o.cls]? = some k ∧ o.isObj = k.isObj ∧ ∀ j, k.table.length ≤ j → o.slot j = none

/-- A compiled body's ids are those of its class, and the prologue makes room for the heap slots. -/
structure CodeOk (classes : List Cls) (code : Code) : Prop where
  cls : ∃ k, classes[code.cls]? = some k ∧ ∀ n i, code.ids.lookup n = some i →
    k.table.lookup n = some i ∧
      (Obj.isInline k.isObj i = false → ∃ m, code.heapLen = some m ∧ Obj.heapIdx k.isObj i < m)
  pos : ∀ m, code.heapLen = some m → 1 ≤ m

/-- A class's table is well formed; a singleton class has a real class of the same kind. -/
structure ClsOk (classes : List Cls) (k : Cls) : Prop where
  table : k.table.WF
  real : ∀ r, k.real = some r → ∃ kr, classes[r]? = some kr ∧ kr.real = none ∧ kr.isObj = k.isObj

/-- The invariant. -/
structure Inv (st : St V) : Prop where
  classes : ∀ (c : Nat) k, st.classes[c]? = some k → ClsOk st.classes k
  objs : ∀ (i : Nat) o, st.heap[i]? = some o → Fits st.classes o
  sites : ∀ (s : Nat) site, st.sites[s]? = some site → ∀ c i, site.cache = some (c, i) →
    (st.table c).lookup site.name = some i
  codes : ∀ (j : Nat) code, st.codes[j]? = some code → CodeOk st.classes code

/-- The variables of an object by name. -/
def absVars (st : St V) (o : Obj V) (n : Name) : Option V :=
  match (st.table o.cls).lookup n with
  | some id => o.slot id
  | none => none

/-- The object as the programmer sees it. -/
def absObj (st : St V) (o : Obj V) : AObj V := ⟨o.frozen, absVars st o⟩

/-- The state as the programmer sees it. -/
def abs (st : St V) : ASt V := ⟨st.heap.map (absObj st), st.sites.map (·.name)⟩

theorem table_eq {st : St V} {c : Nat} {k : Cls} (h : st.classes[c]? = some k) :
    st.table c = k.table := by
  simp [St.table, h]

theorem table_wf {st : St V} (h : Inv st) (c : Nat) : (st.table c).WF := by
  cases hc : st.classes[c]? with
  | none =>
    have : st.table c = [] := by simp [St.table, hc]
    rw [this]
    exact ⟨by simp, by simp⟩
  | some k => rw [table_eq hc]; exact (h.classes c k hc).table

theorem Fits.empty {st : St V} {o : Obj V} (h : Fits st.classes o) {j : Nat}
    (hj : (st.table o.cls).length ≤ j) : o.slot j = none := by
  obtain ⟨k, h1, _, h3⟩ := h.cls
  rw [table_eq h1] at hj
  exact h3 j hj

/-- The class list grew: old classes keep their kind, their tables are extended. -/
structure Grows (cs cs' : List Cls) : Prop where
  get : ∀ (c : Nat) k, cs[c]? = some k → ∃ k', cs'[c]? = some k' ∧ k'.isObj = k.isObj ∧ k'.real = k.real ∧
    k'.table.WF ∧ k.table <+: k'.table

theorem Grows.fits {cs cs' : List Cls} (h : Grows cs cs') {o : Obj V} (hf : Fits cs o) :
    Fits cs' o := by
  obtain ⟨k, h1, h2, h3⟩ := hf.cls
  obtain ⟨k', g1, g2, _, _, g5⟩ := h.get _ _ h1
  exact ⟨hf.wf, k', g1, by rw [g2, h2], fun j hj => h3 j (le_trans g5.length_le hj)⟩

theorem Grows.absVars {st : St V} {cs' : List Cls} (h : Grows st.classes cs') {o : Obj V}
    (hf : Fits st.classes o) : absVars { st with classes := cs' } o = absVars st o := by
  funext n
  obtain ⟨k, h1, h2, h3⟩ := hf.cls
  obtain ⟨k', g1, g2, _, g4, g5⟩ := h.get _ _ h1
  unfold Ivar.absVars
  rw [table_eq h1, table_eq (st := { st with classes := cs' }) g1]
  cases hl : k.table.lookup n with
  | some id => rw [Table.lookup_prefix g5 hl]
  | none =>
    cases hl' : k'.table.lookup n with
    | none => rfl
    | some id => exact h3 id (Table.lookup_new g4 g5 hl hl')

/-- Growing the class list keeps the invariant and changes nothing visible. -/
theorem inv_grow {st : St V} (h : Inv st) {cs' : List Cls} (hg : Grows st.classes cs')
    (hok : ∀ (c : Nat) k, cs'[c]? = some k → ClsOk cs' k) :
    Inv { st with classes := cs' } ∧ abs { st with classes := cs' } = abs st := by
  constructor
  · constructor
    · exact hok
    · intro i o ho
      exact hg.fits (h.objs i o ho)
    · intro s site hs c i hc
      have := h.sites s site hs c i hc
      cases hk : st.classes[c]? with
      | none => simp [St.table, hk, Table.lookup] at this
      | some k =>
        obtain ⟨k', g1, _, _, _, g5⟩ := hg.get _ _ hk
        rw [table_eq hk] at this
        rw [table_eq (st := { st with classes := cs' }) g1]
        exact Table.lookup_prefix g5 this
    · intro j code hj
      obtain ⟨⟨k, c1, c2⟩, c3⟩ := h.codes j code hj
      obtain ⟨k', g1, g2, _, _, g5⟩ := hg.get _ _ c1
      refine ⟨⟨k', g1, ?_⟩, c3⟩
      intro n i hn
      obtain ⟨d1, d2⟩ := c2 n i hn
      rw [g2]
      exact ⟨Table.lookup_prefix g5 d1, d2⟩
  · unfold abs
    congr 1
    apply List.map_congr_left
    intro o ho
    obtain ⟨i, hi⟩ := List.mem_iff_getElem?.mp ho
    unfold absObj
    rw [hg.absVars (h.objs i o hi)]

theorem inv_setTable {st : St V} (h : Inv st) (c : Nat) {t : Table} (ht : t.WF)
    (hp : st.table c <+: t) :
    Inv (st.setTable c t) ∧ abs (st.setTable c t) = abs st ∧
      (c < st.classes.length → (st.setTable c t).table c = t) ∧
      Grows st.classes (st.setTable c t).classes := by
  have hget : ∀ (d : Nat), (st.setTable c t).classes[d]? =
      if d = c then (st.classes[d]?).map (fun k => { k with table := t }) else st.classes[d]? := by
    intro d
    unfold St.setTable
    dsimp only
    rw [List.getElem?_modify]
    by_cases hd : c = d
    · simp [hd]
    · have : d ≠ c := fun h => hd h.symm
      simp [hd, this]
  have hg : Grows st.classes (st.setTable c t).classes := by
    constructor
    intro d k hk
    rw [hget]
    by_cases hd : d = c
    · subst hd
      rw [if_pos rfl, hk]
      rw [table_eq hk] at hp
      exact ⟨_, rfl, rfl, rfl, ht, hp⟩
    · rw [if_neg hd, hk]
      exact ⟨k, rfl, rfl, rfl, (h.classes d k hk).table, List.prefix_refl _⟩
  have hok : ∀ (d : Nat) k, (st.setTable c t).classes[d]? = some k →
      ClsOk (st.setTable c t).classes k := by
    intro d k hk
    rw [hget] at hk
    have hreal : ∀ k0, st.classes[d]? = some k0 → ∀ r, k0.real = some r →
        ∃ kr, (st.setTable c t).classes[r]? = some kr ∧ kr.real = none ∧ kr.isObj = k0.isObj := by
      intro k0 hk0 r hr
      obtain ⟨kr, h1, h2, h3⟩ := (h.classes d k0 hk0).real r hr
      obtain ⟨k', g1, g2, g3, _, _⟩ := hg.get _ _ h1
      exact ⟨k', g1, by rw [g3, h2], by rw [g2, h3]⟩
    by_cases hd : d = c
    · subst hd
      rw [if_pos rfl] at hk
      cases hk0 : st.classes[d]? with
      | none => rw [hk0] at hk; cases hk
      | some k0 =>
        rw [hk0] at hk
        simp at hk
        subst hk
        exact ⟨ht, hreal k0 hk0⟩
    · rw [if_neg hd] at hk
      exact ⟨(h.classes d k hk).table, hreal k hk⟩
  obtain ⟨h1, h2⟩ := inv_grow h hg hok
  refine ⟨h1, h2, ?_, hg⟩
  intro hc
  unfold St.table
  rw [hget, if_pos rfl, List.getElem?_eq_getElem hc]
  rfl

theorem setTable_heap (st : St V) (c : Nat) (t : Table) : (st.setTable c t).heap = st.heap := rfl
theorem setTable_sites (st : St V) (c : Nat) (t : Table) : (st.setTable c t).sites = st.sites := rfl

theorem absObj_heap (st : St V) (hp : List (Obj V)) (o : Obj V) :
    absObj { st with heap := hp } o = absObj st o := rfl

theorem inv_setObj {st : St V} (h : Inv st) (i : Nat) {o : Obj V} (hf : Fits st.classes o) :
    Inv { st with heap := st.heap.set i o } ∧
      abs { st with heap := st.heap.set i o } =
        { abs st with objs := (abs st).objs.set i (absObj st o) } := by
  constructor
  · refine ⟨h.classes, ?_, h.sites, h.codes⟩
    intro j o' ho'
    dsimp only at ho'
    rw [List.getElem?_set] at ho'
    by_cases hij : i = j
    · subst hij
      rw [if_pos rfl] at ho'
      split at ho'
      · simp at ho'; subst ho'; exact hf
      · cases ho'
    · rw [if_neg hij] at ho'
      exact h.objs j o' ho'
  · unfold abs
    dsimp only
    rw [List.map_set]
    rfl

theorem inv_pushObj {st : St V} (h : Inv st) {o : Obj V} (hf : Fits st.classes o) :
    Inv { st with heap := st.heap ++ [o] } ∧
      abs { st with heap := st.heap ++ [o] } =
        { abs st with objs := (abs st).objs ++ [absObj st o] } := by
  constructor
  · refine ⟨h.classes, ?_, h.sites, h.codes⟩
    intro j o' ho'
    dsimp only at ho'
    by_cases hj : j < st.heap.length
    · rw [List.getElem?_append_left hj] at ho'
      exact h.objs j o' ho'
    · rw [List.getElem?_append_right (by omega)] at ho'
      have hj0 : j - st.heap.length = 0 := by
        have := (List.getElem?_eq_some_iff.mp ho').1
        simp at this; omega
      rw [hj0] at ho'
      simp at ho'
      subst ho'
      exact hf
  · unfold abs
    dsimp only
    rw [List.map_append]
    rfl

theorem inv_setSite {st : St V} (h : Inv st) (s : Nat) {site : Site} (hs : st.sites[s]? = some site)
    {c i : Nat} (hl : (st.table c).lookup site.name = some i) :
    Inv { st with sites := st.sites.set s { site with cache := some (c, i) } } ∧
      abs { st with sites := st.sites.set s { site with cache := some (c, i) } } = abs st := by
  have hlt := (List.getElem?_eq_some_iff.mp hs).1
  constructor
  · refine ⟨h.classes, h.objs, ?_, h.codes⟩
    intro j site' hj c' i' hc
    dsimp only at hj
    by_cases hsj : s = j
    · subst hsj
      rw [List.getElem?_set_self hlt] at hj
      simp at hj
      subst hj
      simp at hc
      obtain ⟨rfl, rfl⟩ := hc
      exact hl
    · rw [List.getElem?_set_ne hsj] at hj
      exact h.sites j site' hj c' i' hc
  · unfold abs
    dsimp only
    congr 1
    rw [List.map_set]
    apply List.ext_getElem?
    intro j
    rw [List.getElem?_set]
    by_cases hsj : s = j
    · subst hsj
      rw [if_pos rfl, if_pos (by simpa using hlt), List.getElem?_map, hs]
      rfl
    · rw [if_neg hsj]

/-- Changing one slot changes one variable. -/
theorem absVars_upd {st : St V} (h : Inv st) {o o' : Obj V} (hc : o'.cls = o.cls) {n : Name}
    {id : Nat} {x : Option V} (hl : (st.table o.cls).lookup n = some id)
    (hs : ∀ j, o'.slot j = if j = id then x else o.slot j) :
    absVars st o' = fun m => if m = n then x else absVars st o m := by
  funext m
  have hw := table_wf h o.cls
  unfold absVars
  rw [hc]
  by_cases hm : m = n
  · subst hm
    rw [hl, if_pos rfl]
    dsimp only
    rw [hs, if_pos rfl]
  · rw [if_neg hm]
    cases hk : (st.table o.cls).lookup m with
    | none => rfl
    | some j =>
      dsimp only
      rw [hs, if_neg]
      rintro rfl
      exact hm (Table.lookup_inj hw hk hl)

theorem fits_upd {st : St V} (h : Inv st) {o o' : Obj V} (hf : Fits st.classes o) (hw : o'.WF)
    (hsame : Obj.Same o o') {n : Name} {id : Nat} {x : Option V}
    (hl : (st.table o.cls).lookup n = some id)
    (hs : ∀ j, o'.slot j = if j = id then x else o.slot j) : Fits st.classes o' := by
  obtain ⟨k, h1, h2, h3⟩ := hf.cls
  refine ⟨hw, k, by rw [hsame.cls]; exact h1, by rw [hsame.isObj, h2], ?_⟩
  intro j hj
  have hlt := Table.lookup_lt (table_wf h o.cls) hl
  rw [table_eq h1] at hlt
  rw [hs, if_neg (by omega)]
  exact h3 j hj

theorem fits_same {st : St V} {o o' : Obj V} (hf : Fits st.classes o) (hw : o'.WF)
    (hsame : Obj.Same o o') (hs : ∀ j, o'.slot j = o.slot j) : Fits st.classes o' := by
  obtain ⟨k, h1, h2, h3⟩ := hf.cls
  exact ⟨hw, k, by rw [hsame.cls]; exact h1, by rw [hsame.isObj, h2], fun j hj => by rw [hs, h3 j hj]⟩

theorem absVars_same {st : St V} {o o' : Obj V} (hc : o'.cls = o.cls)
    (hs : ∀ j, o'.slot j = o.slot j) : absVars st o' = absVars st o := by
  funext n
  unfold absVars
  rw [hc]
  split
  · rw [hs]
  · rfl

end Verif.Ivar
