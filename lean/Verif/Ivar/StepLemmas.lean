import Verif.Ivar.StoreLemmas

/-! # Every operation acts on the objects as on maps from names to values -/

namespace Verif.Ivar

variable {V : Type}

theorem abs_get {st : St V} {i : Nat} {o : Obj V} (h : st.heap[i]? = some o) :
    (abs st).objs[i]? = some (absObj st o) := by
  simp [abs, h]

theorem abs_name {st : St V} {s : Nat} {site : Site} (h : st.sites[s]? = some site) :
    (abs st).names[s]? = some site.name := by
  simp [abs, h]

theorem getIvar_eq {st : St V} {o : Obj V} (hf : Fits st.classes o) (n : Name) :
    st.getIvar o n = some (absVars st o n) := by
  unfold St.getIvar absVars
  split
  · rename_i hl; rw [hl]
  · rename_i id hl; rw [hl]; exact Obj.getById_eq hf.wf id

theorem cls_lt {st : St V} {o : Obj V} (hf : Fits st.classes o) : o.cls < st.classes.length := by
  obtain ⟨k, h1, _⟩ := hf.cls
  exact (List.getElem?_eq_some_iff.mp h1).1

/-- What a step has to satisfy. -/
def Refines (nil : V) (st : St V) (op : Op V) : Prop :=
  ∃ st' r, step nil st op = some (st', r) ∧ Inv st' ∧ specStep nil (abs st) op = (abs st', r)

/-- Interning a name changes nothing visible; afterwards the name has the id. -/
theorem intern_step {st : St V} (h : Inv st) {o : Obj V} (hf : Fits st.classes o) (n : Name) :
    Inv (st.setTable o.cls ((st.table o.cls).intern n).1) ∧
    abs (st.setTable o.cls ((st.table o.cls).intern n).1) = abs st ∧
    ((st.setTable o.cls ((st.table o.cls).intern n).1).table o.cls).lookup n =
      some ((st.table o.cls).intern n).2 ∧
    Fits (st.setTable o.cls ((st.table o.cls).intern n).1).classes o ∧
    absVars (st.setTable o.cls ((st.table o.cls).intern n).1) o = absVars st o := by
  obtain ⟨t1, t2, t3⟩ := Table.intern_wf (table_wf h o.cls) n
  obtain ⟨h1, h2, h3, h4⟩ := inv_setTable h o.cls t1 t2
  exact ⟨h1, h2, by rw [h3 (cls_lt hf)]; exact t3, h4.fits hf, h4.absVars hf⟩

theorem storeId_step {st : St V} (h : Inv st) {i : Nat} {o : Obj V} (hi : st.heap[i]? = some o)
    {n : Name} {id : Nat} (hl : (st.table o.cls).lookup n = some id) (x : V)
    (hfz : o.frozen = false) :
    ∃ o', o.setById id x = some o' ∧ Inv { st with heap := st.heap.set i o' } ∧
      specSet (abs st) i (absObj st o) n x = (abs { st with heap := st.heap.set i o' }, .unit) := by
  have hf := h.objs i o hi
  obtain ⟨o', h1, h2, h3, h4⟩ := Obj.setById_wf hf.wf id x
  obtain ⟨k1, k2⟩ := inv_setObj h i (fits_upd h hf h2 h3 hl h4)
  refine ⟨o', h1, k1, ?_⟩
  unfold specSet
  rw [k2, if_neg (by simp [absObj, hfz])]
  congr 2
  unfold absObj AObj.upd
  rw [h3.frozen, absVars_upd h h3.cls hl h4]

theorem set_step {nil : V} {st : St V} (h : Inv st) {i : Nat} {n : Name} {x : V}
    (hok : okOp st (.set i n x)) : Refines nil st (.set i n x) := by
  have hlt : i < st.heap.length := hok
  have hi : st.heap[i]? = some st.heap[i] := List.getElem?_eq_getElem hlt
  generalize st.heap[i] = o at hi
  have hf := h.objs i o hi
  unfold Refines step specStep
  dsimp only
  rw [hi, abs_get hi]
  dsimp only
  unfold St.setIvar
  cases hfz : o.frozen
  · rw [if_neg (by simp)]
    obtain ⟨a1, a2, a3, a4, a5⟩ := intern_step h hf n
    obtain ⟨o', b1, b2, b3⟩ := storeId_step a1 (i := i) (o := o) hi a3 x hfz
    dsimp only
    rw [b1]
    refine ⟨_, _, rfl, b2, ?_⟩
    rw [← b3, a2]
    unfold absObj
    rw [a5]
  · rw [if_pos rfl]
    refine ⟨_, _, rfl, h, ?_⟩
    unfold specSet
    rw [if_pos (by simp [absObj, hfz])]

theorem get_step {nil : V} {st : St V} (h : Inv st) {i : Nat} {n : Name}
    (hok : okOp st (.get i n)) : Refines nil st (.get i n) := by
  have hlt : i < st.heap.length := hok
  have hi : st.heap[i]? = some st.heap[i] := List.getElem?_eq_getElem hlt
  generalize st.heap[i] = o at hi
  have hf := h.objs i o hi
  unfold Refines step specStep
  dsimp only
  rw [hi, abs_get hi]
  dsimp only
  rw [getIvar_eq hf]
  exact ⟨_, _, rfl, h, rfl⟩

theorem remove_step {nil : V} {st : St V} (h : Inv st) {i : Nat} {n : Name}
    (hok : okOp st (.remove i n)) : Refines nil st (.remove i n) := by
  have hlt : i < st.heap.length := hok
  have hi : st.heap[i]? = some st.heap[i] := List.getElem?_eq_getElem hlt
  generalize st.heap[i] = o at hi
  have hf := h.objs i o hi
  unfold Refines step specStep
  dsimp only
  rw [hi, abs_get hi]
  dsimp only
  unfold St.removeIvar
  have hvars : (absObj st o).vars n = absVars st o n := rfl
  have hfr : (absObj st o).frozen = o.frozen := rfl
  rw [hvars, hfr]
  cases hfz : o.frozen
  · rw [if_neg (by simp), if_neg (by simp)]
    cases hl : (st.table o.cls).lookup n with
    | none =>
      have : absVars st o n = none := by unfold absVars; rw [hl]
      rw [this]
      exact ⟨_, _, rfl, h, rfl⟩
    | some id =>
      have hv : absVars st o n = o.slot id := by unfold absVars; rw [hl]
      rw [hv]
      obtain ⟨o', h1, h2, h3, h4⟩ := Obj.removeById_wf hf.wf id
      obtain ⟨k1, k2⟩ := inv_setObj h i (fits_upd h hf h2 h3 hl h4)
      have hupd := absVars_upd h h3.cls hl h4
      dsimp only
      rw [h1]
      cases hs : o.slot id with
      | some x =>
        dsimp only
        refine ⟨_, _, rfl, k1, ?_⟩
        rw [k2]
        congr 2
        unfold absObj AObj.upd
        rw [h3.frozen, hupd, hfz]
      | none =>
        dsimp only
        refine ⟨_, _, rfl, k1, ?_⟩
        rw [k2]
        have hsame : absObj st o' = absObj st o := by
          unfold absObj
          rw [h3.frozen]
          congr 1
          rw [hupd]
          funext m
          by_cases hm : m = n
          · subst hm; rw [if_pos rfl, hv, hs]
          · rw [if_neg hm]
        rw [hsame]
        have hset : (abs st).objs.set i (absObj st o) = (abs st).objs := by
          apply List.ext_getElem?
          intro j
          by_cases hij : i = j
          · subst hij
            rw [List.getElem?_set_self (by simpa [abs] using hlt), abs_get hi]
          · rw [List.getElem?_set_ne hij]
        rw [hset]
  · rw [if_pos rfl, if_pos rfl]
    exact ⟨_, _, rfl, h, rfl⟩

theorem cache_split {c : Option (Nat × Nat)} {k : Nat} (h : c.map (·.1) = some k) :
    c = some (k, (c.map (·.2)).getD 0) := by
  cases c with
  | none => cases h
  | some p =>
    simp at h
    subst h
    rfl

theorem load_step {nil : V} {st : St V} (h : Inv st) {s i : Nat}
    (hok : okOp st (.load s i)) : Refines nil st (.load s i) := by
  obtain ⟨hslt, hlt⟩ : s < st.sites.length ∧ i < st.heap.length := hok
  have hi : st.heap[i]? = some st.heap[i] := List.getElem?_eq_getElem hlt
  generalize st.heap[i] = o at hi
  have hs : st.sites[s]? = some st.sites[s] := List.getElem?_eq_getElem hslt
  generalize st.sites[s] = site at hs
  have hf := h.objs i o hi
  unfold Refines step specStep
  dsimp only
  rw [hs, hi, abs_get hi, abs_name hs]
  dsimp only
  unfold St.loadCached
  have hvars : (absObj st o).vars site.name = absVars st o site.name := rfl
  rw [hvars]
  by_cases hc : site.cache.map (·.1) = some o.cls
  · rw [if_pos hc]
    have hl := h.sites s site hs _ _ (cache_split hc)
    rw [Obj.getById_eq hf.wf]
    refine ⟨_, _, rfl, h, ?_⟩
    have : absVars st o site.name = o.slot ((site.cache.map (·.2)).getD 0) := by
      unfold absVars; rw [hl]
    rw [this]
  · rw [if_neg hc]
    obtain ⟨a1, a2, a3, a4, a5⟩ := intern_step h hf site.name
    obtain ⟨b1, b2⟩ := inv_setSite a1 s (site := site) hs a3
    dsimp only
    rw [Obj.getById_eq hf.wf]
    refine ⟨_, _, rfl, b1, ?_⟩
    rw [b2, a2, ← a5]
    unfold absVars
    rw [a3]

theorem store_step {nil : V} {st : St V} (h : Inv st) {s i : Nat} {x : V}
    (hok : okOp st (.store s i x)) : Refines nil st (.store s i x) := by
  obtain ⟨hslt, hlt⟩ : s < st.sites.length ∧ i < st.heap.length := hok
  have hi : st.heap[i]? = some st.heap[i] := List.getElem?_eq_getElem hlt
  generalize st.heap[i] = o at hi
  have hs : st.sites[s]? = some st.sites[s] := List.getElem?_eq_getElem hslt
  generalize st.sites[s] = site at hs
  have hf := h.objs i o hi
  unfold Refines step specStep
  dsimp only
  rw [hs, hi, abs_get hi, abs_name hs]
  dsimp only
  unfold St.storeCached
  cases hfz : o.frozen
  · rw [if_neg (by simp)]
    by_cases hc : site.cache.map (·.1) = some o.cls
    · rw [if_pos hc]
      have hl := h.sites s site hs _ _ (cache_split hc)
      obtain ⟨o', b1, b2, b3⟩ := storeId_step h (i := i) (o := o) hi hl x hfz
      rw [b1]
      exact ⟨_, _, rfl, b2, b3⟩
    · rw [if_neg hc]
      obtain ⟨a1, a2, a3, a4, a5⟩ := intern_step h hf site.name
      obtain ⟨c1, c2⟩ := inv_setSite a1 s (site := site) hs a3
      obtain ⟨o', b1, b2, b3⟩ := storeId_step c1 (i := i) (o := o) hi a3 x hfz
      dsimp only
      rw [b1]
      refine ⟨_, _, rfl, b2, ?_⟩
      rw [← b3, c2, a2]
      have : absObj st o = absObj (st.setTable o.cls ((st.table o.cls).intern site.name).1) o := by
        unfold absObj; rw [a5]
      rw [this]
      rfl
  · rw [if_pos rfl]
    refine ⟨_, _, rfl, h, ?_⟩
    unfold specSet
    rw [if_pos (by simp [absObj, hfz])]

theorem newClass_step {nil : V} {st : St V} (h : Inv st) (b : Bool) :
    Refines nil st (.newClass b) := by
  have hg : Grows st.classes (st.classes ++ [⟨[], b, none⟩]) := by
    constructor
    intro c k hk
    have hlt := (List.getElem?_eq_some_iff.mp hk).1
    exact ⟨k, by rw [List.getElem?_append_left hlt, hk], rfl, rfl, (h.classes c k hk).table,
      List.prefix_refl _⟩
  have hok : ∀ (c : Nat) k, (st.classes ++ [⟨[], b, none⟩])[c]? = some k →
      ClsOk (st.classes ++ [⟨[], b, none⟩]) k := by
    intro c k hk
    by_cases hlt : c < st.classes.length
    · rw [List.getElem?_append_left hlt] at hk
      have hco := h.classes c k hk
      refine ⟨hco.table, fun r hr => ?_⟩
      obtain ⟨kr, h1, h2, h3⟩ := hco.real r hr
      have := (List.getElem?_eq_some_iff.mp h1).1
      exact ⟨kr, by rw [List.getElem?_append_left this, h1], h2, h3⟩
    · rw [List.getElem?_append_right (by omega)] at hk
      have h0 : c - st.classes.length = 0 := by
        have := (List.getElem?_eq_some_iff.mp hk).1
        simp at this; omega
      rw [h0] at hk
      simp at hk
      subst hk
      exact ⟨⟨by simp, by simp⟩, by intro r hr; cases hr⟩
  obtain ⟨h1, h2⟩ := inv_grow h hg hok
  exact ⟨_, _, rfl, h1, by rw [h2]; rfl⟩

theorem newSite_step {nil : V} {st : St V} (h : Inv st) (n : Name) :
    Refines nil st (.newSite n) := by
  refine ⟨_, _, rfl, ⟨h.classes, h.objs, ?_, h.codes⟩, ?_⟩
  · intro s site hs c i hc
    dsimp only at hs
    by_cases hlt : s < st.sites.length
    · rw [List.getElem?_append_left hlt] at hs
      exact h.sites s site hs c i hc
    · rw [List.getElem?_append_right (by omega)] at hs
      have h0 : s - st.sites.length = 0 := by
        have := (List.getElem?_eq_some_iff.mp hs).1
        simp at this; omega
      rw [h0] at hs
      simp at hs
      subst hs
      cases hc
  · unfold specStep abs
    simp
    intros
    rfl

theorem slot_fresh {c : Nat} {b : Bool} {inl : List (Option V)} (hinl : ∀ (i : Nat) x, inl[i]? = some x → x = none)
    {v : Option (MonoVec V)} (hv : ∀ w, v = some w → w.len = 0) (j : Nat) :
    (⟨c, b, false, inl, v⟩ : Obj V).slot j = none := by
  unfold Obj.slot
  dsimp only
  split
  · cases hx : inl[j]? with
    | none => rfl
    | some x => exact hinl j x hx
  · unfold Obj.heapVal
    dsimp only
    cases v with
    | none => rfl
    | some w =>
      have := hv w rfl
      dsimp only
      unfold MonoVec.content
      rw [if_neg (by omega)]

theorem new_step {nil : V} {st : St V} (h : Inv st) {c : Nat}
    (hok : okOp st (.new c)) : Refines nil st (.new c) := by
  obtain ⟨k, hk, _⟩ := hok
  unfold Refines step
  dsimp only
  rw [hk]
  dsimp only
  have key : ∃ o : Obj V, St.allocObj k c = some o ∧ o.WF ∧ o.cls = c ∧ o.isObj = k.isObj ∧
      o.frozen = false ∧ ∀ j, o.slot j = none := by
    have hrep : ∀ (i : Nat) x, (List.replicate inlineSlots (none : Option V))[i]? = some x → x = none := by
      intro i x hx
      rw [List.getElem?_replicate] at hx
      split at hx
      · simpa using hx.symm
      · cases hx
    unfold St.allocObj
    dsimp only
    cases hb : k.isObj
    · rw [if_neg (by simp)]
      exact ⟨_, rfl, ⟨(by intro h; cases h), (by intro v hv; cases hv)⟩, rfl, rfl, rfl,
        slot_fresh (by intro i x hx; simp at hx) (by intro w hw; cases hw)⟩
    · rw [if_pos rfl]
      by_cases hs : k.table.length - inlineSlots = 0
      · rw [if_pos hs]
        exact ⟨_, rfl, ⟨by simp, (by intro v hv; cases hv)⟩, rfl, rfl, rfl,
          slot_fresh hrep (by intro w hw; cases hw)⟩
      · rw [if_neg hs]
        obtain ⟨v, g1, g2, g3, g4⟩ := MonoVec.withCapacity_wf (V := V) (k.table.length - inlineSlots)
        rw [g1]
        refine ⟨_, rfl, ⟨by simp, ?_⟩, rfl, rfl, rfl, slot_fresh hrep ?_⟩
        · intro w hw
          cases hw
          exact ⟨g2, by omega⟩
        · intro w hw
          cases hw
          exact g3
  obtain ⟨o, h1, h2, h3, h4, h5, h6⟩ := key
  rw [h1]
  have hf : Fits st.classes o := ⟨h2, k, by rw [h3]; exact hk, h4, fun j _ => h6 j⟩
  obtain ⟨k1, k2⟩ := inv_pushObj h hf
  refine ⟨_, _, rfl, k1, ?_⟩
  rw [k2]
  unfold specStep
  dsimp only
  congr 2
  have : absObj st o = ⟨false, fun _ => none⟩ := by
    unfold absObj
    rw [h5]
    congr 1
    funext n
    unfold absVars
    split
    · exact h6 _
    · rfl
  rw [this]

theorem freeze_fits {cs : List Cls} {o : Obj V} (b : Bool) (hf : Fits cs o) :
    Fits cs { o with frozen := b } := ⟨⟨hf.wf.inl, hf.wf.var⟩, hf.cls⟩

theorem freeze_step {nil : V} {st : St V} (h : Inv st) {i : Nat}
    (hok : okOp st (.freeze i)) : Refines nil st (.freeze i) := by
  have hlt : i < st.heap.length := hok
  have hi : st.heap[i]? = some st.heap[i] := List.getElem?_eq_getElem hlt
  generalize st.heap[i] = o at hi
  have hf := h.objs i o hi
  unfold Refines step specStep
  dsimp only
  rw [hi, abs_get hi]
  dsimp only
  obtain ⟨k1, k2⟩ := inv_setObj h i (freeze_fits true hf)
  refine ⟨_, _, rfl, k1, ?_⟩
  rw [k2]
  rfl

/-- Creating a singleton class changes nothing visible. -/
theorem singleton_inv {st : St V} (h : Inv st) {i : Nat} {o : Obj V} (hi : st.heap[i]? = some o) :
    Inv (st.singleton i o) ∧ abs (st.singleton i o) = abs st ∧
      ∃ o', (st.singleton i o).heap = st.heap.set i o' := by
  have hlt := (List.getElem?_eq_some_iff.mp hi).1
  have hset : st.heap.set i o = st.heap := by
    apply List.ext_getElem?
    intro j
    by_cases hij : i = j
    · subst hij
      rw [List.getElem?_set_self hlt, hi]
    · rw [List.getElem?_set_ne hij]
  have hf := h.objs i o hi
  obtain ⟨k, h1, h2, h3⟩ := hf.cls
  unfold St.singleton
  rw [h1]
  dsimp only
  cases hr : k.real with
  | some r => exact ⟨h, rfl, o, hset.symm⟩
  | none =>
    dsimp only
    have hnew : (st.classes ++ [(⟨k.table, k.isObj, some o.cls⟩ : Cls)])[st.classes.length]? =
        some ⟨k.table, k.isObj, some o.cls⟩ := by simp
    have hold : ∀ (c : Nat) k0, st.classes[c]? = some k0 →
        (st.classes ++ [(⟨k.table, k.isObj, some o.cls⟩ : Cls)])[c]? = some k0 := by
      intro c k0 hk0
      have := (List.getElem?_eq_some_iff.mp hk0).1
      rw [List.getElem?_append_left this, hk0]
    have hg : Grows st.classes (st.classes ++ [⟨k.table, k.isObj, some o.cls⟩]) := by
      constructor
      intro c k0 hk0
      exact ⟨k0, hold c k0 hk0, rfl, rfl, (h.classes c k0 hk0).table, List.prefix_refl _⟩
    have hok : ∀ (c : Nat) k0, (st.classes ++ [⟨k.table, k.isObj, some o.cls⟩])[c]? = some k0 →
        ClsOk (st.classes ++ [⟨k.table, k.isObj, some o.cls⟩]) k0 := by
      intro c k0 hk0
      by_cases hcl : c < st.classes.length
      · rw [List.getElem?_append_left hcl] at hk0
        have hco := h.classes c k0 hk0
        refine ⟨hco.table, fun r hr => ?_⟩
        obtain ⟨kr, g1, g2, g3⟩ := hco.real r hr
        exact ⟨kr, hold r kr g1, g2, g3⟩
      · rw [List.getElem?_append_right (by omega)] at hk0
        have h0 : c - st.classes.length = 0 := by
          have := (List.getElem?_eq_some_iff.mp hk0).1
          simp at this; omega
        rw [h0] at hk0
        simp at hk0
        subst hk0
        refine ⟨(h.classes _ _ h1).table, fun r hr' => ?_⟩
        simp at hr'
        subst hr'
        exact ⟨k, hold _ _ h1, hr, rfl⟩
    obtain ⟨g1, g2⟩ := inv_grow h hg hok
    have hfit : Fits (st.classes ++ [⟨k.table, k.isObj, some o.cls⟩])
        { o with cls := st.classes.length } :=
      ⟨⟨hf.wf.inl, hf.wf.var⟩, _, hnew, h2, h3⟩
    obtain ⟨p1, p2⟩ := inv_setObj g1 i hfit
    refine ⟨p1, ?_, _, rfl⟩
    refine p2.trans ?_
    rw [g2]
    have hobj : absObj { st with classes := st.classes ++ [⟨k.table, k.isObj, some o.cls⟩] }
        { o with cls := st.classes.length } = absObj st o := by
      unfold absObj
      congr 1
      funext n
      unfold absVars
      rw [table_eq h1, table_eq (st := { st with
        classes := st.classes ++ [⟨k.table, k.isObj, some o.cls⟩] }) hnew]
      rfl
    rw [hobj]
    have : (abs st).objs.set i (absObj st o) = (abs st).objs := by
      unfold abs
      dsimp only
      rw [← List.map_set, hset]
    rw [this]

theorem singleton_step {nil : V} {st : St V} (h : Inv st) {i : Nat}
    (hok : okOp st (.singleton i)) : Refines nil st (.singleton i) := by
  have hlt : i < st.heap.length := hok
  have hi : st.heap[i]? = some st.heap[i] := List.getElem?_eq_getElem hlt
  generalize st.heap[i] = o at hi
  unfold Refines step specStep
  dsimp only
  rw [hi]
  obtain ⟨h1, h2, _⟩ := singleton_inv h hi
  exact ⟨_, _, rfl, h1, by rw [h2]⟩

/-- The raw copy, re-attached to the real class, has the same variables if the slots agree. -/
theorem copy_real {st : St V} (h : Inv st) {o c : Obj V} (hf : Fits st.classes o)
    (hok : copyOk st o) (hc : o.copy = some c) :
    Fits st.classes { c with cls := st.realClass o } ∧
      absVars st { c with cls := st.realClass o } = absVars st o ∧ c.frozen = false ∧ c.cls = o.cls := by
  obtain ⟨c', h1, h2, h3, h4, h5, h6⟩ := Obj.copy_wf hf.wf
  rw [hc] at h1
  cases h1
  obtain ⟨k, k1, k2, k3⟩ := hf.cls
  have hreal : ∃ kr, st.classes[st.realClass o]? = some kr ∧ kr.isObj = k.isObj := by
    unfold St.realClass
    rw [k1]
    dsimp only
    cases hr : k.real with
    | none => exact ⟨k, k1, rfl⟩
    | some r =>
      obtain ⟨kr, g1, _, g3⟩ := (h.classes _ _ k1).real r hr
      exact ⟨kr, g1, g3⟩
  obtain ⟨kr, r1, r2⟩ := hreal
  have hslot : ∀ j, ({ c with cls := st.realClass o } : Obj V).slot j = o.slot j := h6
  have hset : ∀ j, o.slot j ≠ none → ∃ n, (st.table o.cls).lookup n = some j ∧
      (st.table (st.realClass o)).lookup n = some j := by
    intro j hj
    have hlt : j < k.table.length := by
      by_contra hc
      exact hj (k3 j (by omega))
    have hp : k.table[j]? = some k.table[j] := List.getElem?_eq_getElem hlt
    have hl := Table.lookup_of_pos (h.classes _ _ k1).table hp
    generalize k.table[j].1 = nm at hl
    rw [← table_eq k1] at hl
    refine ⟨_, hl, hok _ _ hl ?_⟩
    rw [Obj.getById_eq hf.wf]
    simpa using hj
  refine ⟨⟨⟨h2.inl, h2.var⟩, kr, r1, ?_, ?_⟩, ?_, h5, h3⟩
  · show c.isObj = kr.isObj
    rw [h4, k2, r2]
  · intro j hj
    rw [hslot]
    by_contra hne
    obtain ⟨n, _, hn⟩ := hset j hne
    have := Table.lookup_lt (table_wf h _) hn
    rw [table_eq r1] at this
    omega
  · funext n
    unfold absVars
    dsimp only
    cases hl : (st.table o.cls).lookup n with
    | some id =>
      by_cases hv : o.slot id = none
      · cases hl' : (st.table (st.realClass o)).lookup n with
        | none => simp [hv]
        | some j =>
          dsimp only
          rw [hslot, hv]
          by_contra hne
          obtain ⟨m, m1, m2⟩ := hset j hne
          have := Table.lookup_inj (table_wf h _) m2 hl'
          subst this
          rw [hl] at m1
          have hij : id = j := Option.some.inj m1
          subst hij
          exact hne hv
      · rw [hok n id hl (by rw [Obj.getById_eq hf.wf]; simpa using hv)]
        dsimp only
        exact hslot id
    | none =>
      cases hl' : (st.table (st.realClass o)).lookup n with
      | none => rfl
      | some j =>
        dsimp only
        rw [hslot]
        by_contra hne
        obtain ⟨m, m1, m2⟩ := hset j hne
        have := Table.lookup_inj (table_wf h _) m2 hl'
        subst this
        rw [hl] at m1
        cases m1

theorem copy_some {o : Obj V} (hw : o.WF) : ∃ c, o.copy = some c := by
  obtain ⟨c, h1, _⟩ := Obj.copy_wf hw
  exact ⟨c, h1⟩

theorem dup_step {nil : V} {st : St V} (h : Inv st) {i : Nat}
    (hok : okOp st (.dup i)) : Refines nil st (.dup i) := by
  obtain ⟨o, hi, hcopy⟩ := hok
  have hf := h.objs i o hi
  obtain ⟨c, hc⟩ := copy_some hf.wf
  obtain ⟨h1, h2, h3, h4⟩ := copy_real h hf hcopy hc
  unfold Refines step specStep
  dsimp only
  rw [hi, abs_get hi]
  dsimp only
  unfold St.dup
  rw [hc]
  dsimp only [Option.map_some]
  obtain ⟨k1, k2⟩ := inv_pushObj h h1
  refine ⟨_, _, rfl, k1, ?_⟩
  rw [k2]
  congr 3
  unfold absObj
  dsimp only
  rw [h2, h3]

theorem heap_modify_last {l : List (Obj V)} {o : Obj V} (f : Obj V → Obj V) :
    (l ++ [o]).modify l.length f = l ++ [f o] := by
  induction l with
  | nil => rfl
  | cons a l ih => simp [List.modify_cons, ih]

theorem clone_step {nil : V} {st : St V} (h : Inv st) {i : Nat}
    (hok : okOp st (.clone i)) : Refines nil st (.clone i) := by
  obtain ⟨o, hi, hcopy⟩ := hok
  have hf := h.objs i o hi
  obtain ⟨c, hc⟩ := copy_some hf.wf
  obtain ⟨h1, h2, h3, h4⟩ := copy_real h hf hcopy hc
  obtain ⟨k1, k2⟩ := inv_pushObj h h1
  -- the state before the frozen flag is applied
  have key : ∃ (st' : St V) (c' : Obj V),
      st.cloneAttach o c = st' ∧ Inv st' ∧
      st'.heap = st.heap ++ [c'] ∧ st'.sites = st.sites ∧
      abs st' = { abs st with objs := (abs st).objs ++ [⟨false, absVars st o⟩] } := by
    obtain ⟨k, c1, c2, c3⟩ := hf.cls
    have habs : absObj st { c with cls := st.realClass o } = ⟨false, absVars st o⟩ := by
      unfold absObj; dsimp only; rw [h2, h3]
    rw [habs] at k2
    have hreal : st.realClass o = k.real.getD o.cls := by unfold St.realClass; rw [c1]
    unfold St.cloneAttach
    rw [c1]
    obtain ⟨t, b, r⟩ := k
    cases r with
    | some r =>
      have hreal' : st.realClass o = r := hreal
      rw [hreal'] at k1 k2
      dsimp only
      have hget : ({ st with heap := st.heap ++ [{ c with cls := r }] } : St V).heap[st.heap.length]? =
          some { c with cls := r } := by simp
      obtain ⟨s1, s2, o', s3⟩ := singleton_inv k1 hget
      refine ⟨_, o', rfl, s1, ?_, ?_, ?_⟩
      · rw [s3]
        dsimp only
        rw [List.set_append_right _ _ (Nat.le_refl _)]
        simp
      · unfold St.singleton
        dsimp only
        split
        · rfl
        · split <;> rfl
      · rw [s2, k2]
    | none =>
      have hreal' : st.realClass o = o.cls := hreal
      have hcc : ({ c with cls := st.realClass o } : Obj V) = c := by
        rw [hreal', ← h4]
      rw [hcc] at k1 k2
      exact ⟨_, c, rfl, k1, rfl, rfl, k2⟩
  obtain ⟨st', c', e1, e2, e3, e4, e5⟩ := key
  unfold Refines step specStep
  dsimp only
  rw [hi, abs_get hi]
  dsimp only
  unfold St.clone
  rw [hc]
  dsimp only [Option.map_some]
  rw [e1, e3, heap_modify_last]
  have hfit : Fits st'.classes { c' with frozen := o.frozen } := by
    apply freeze_fits
    apply e2.objs st.heap.length
    rw [e3]; simp
  obtain ⟨p1, p2⟩ := inv_setObj e2 st.heap.length hfit
  have hheap : st'.heap.set st.heap.length { c' with frozen := o.frozen } =
      st.heap ++ [{ c' with frozen := o.frozen }] := by
    rw [e3, List.set_append_right _ _ (Nat.le_refl _)]
    simp
  rw [hheap] at p1 p2
  refine ⟨_, _, rfl, p1, ?_⟩
  rw [p2, e5]
  dsimp only
  have hlen : (abs st).objs.length = st.heap.length := by simp [abs]
  rw [List.set_append_right _ _ (by omega), hlen, Nat.sub_self]
  have hc' : absVars st' c' = absVars st o := by
    have := congrArg (fun a => a.objs[st.heap.length]?) e5
    dsimp only [abs] at this
    rw [e3] at this
    simp at this
    exact congrArg AObj.vars this
  have hfin : absObj st' { c' with frozen := o.frozen } = absObj st o := by
    unfold absObj
    congr 1
  rw [hfin]
  rfl

theorem compile_step {nil : V} {st : St V} (h : Inv st) {c : Nat} {names : List Name}
    (hok : okOp st (.compile c names)) : Refines nil st (.compile c names) := by
  have hlt : c < st.classes.length := hok
  have hk : st.classes[c]? = some st.classes[c] := List.getElem?_eq_getElem hlt
  generalize st.classes[c] = k at hk
  unfold Refines step specStep
  dsimp only
  rw [hk]
  dsimp only
  refine ⟨_, _, rfl, ?_, ?_⟩
  · unfold St.compile
    dsimp only
    split
    · refine ⟨h.classes, h.objs, h.sites, ?_⟩
      intro j code hj
      dsimp only at hj
      by_cases hjl : j < st.codes.length
      · rw [List.getElem?_append_left hjl] at hj
        exact h.codes j code hj
      · rw [List.getElem?_append_right (by omega)] at hj
        have h0 : j - st.codes.length = 0 := by
          have := (List.getElem?_eq_some_iff.mp hj).1
          simp at this; omega
        rw [h0] at hj
        simp only [List.getElem?_cons_zero, Option.some.injEq] at hj
        subst hj
        have hw := (h.classes c k hk).table
        generalize hids : names.filterMap (fun n => (k.table.lookup n).map (fun i => (n, i))) = ids
        have hsub : ∀ p ∈ ids, k.table.lookup p.1 = some p.2 := by
          intro p hp
          rw [← hids, List.mem_filterMap] at hp
          obtain ⟨n, _, hn⟩ := hp
          rw [Option.map_eq_some_iff] at hn
          obtain ⟨i, hi, rfl⟩ := hn
          exact hi
        have hmem : ∀ n i, Table.lookup ids n = some i → (n, i) ∈ ids := by
          intro n i hl
          unfold Table.lookup at hl
          rw [Option.map_eq_some_iff] at hl
          obtain ⟨p, hp, rfl⟩ := hl
          have hn : p.1 = n := by simpa using List.find?_some hp
          have := List.mem_of_find?_eq_some hp
          rw [← hn]
          exact this
        have hroom : ∀ i, (∃ n, k.table.lookup n = some i) → Obj.isInline k.isObj i = false →
            Obj.heapIdx k.isObj i <
              (if k.isObj then k.table.length - inlineSlots else k.table.length) := by
          rintro i ⟨n, hn⟩ hin
          have := Table.lookup_lt hw hn
          unfold Obj.heapIdx
          cases hb : k.isObj
          · simpa using this
          · simp [Obj.isInline, hb] at hin
            simp
            omega
        refine ⟨⟨k, hk, ?_⟩, ?_⟩
        · intro n i hl
          dsimp only at hl ⊢
          have hm := hmem n i hl
          have hkl := hsub _ hm
          refine ⟨hkl, fun hin => ?_⟩
          have hany : ids.any (fun p => !Obj.isInline k.isObj p.2) = true := by
            rw [List.any_eq_true]
            exact ⟨_, hm, by simp [hin]⟩
          rw [if_pos hany]
          exact ⟨_, rfl, hroom i ⟨n, hkl⟩ hin⟩
        · intro m hm
          dsimp only at hm
          split at hm
          · rename_i hany
            rw [List.any_eq_true] at hany
            obtain ⟨p, hp, hin⟩ := hany
            have := hroom p.2 ⟨p.1, hsub p hp⟩ (by simpa using hin)
            simp only [Option.some.injEq] at hm
            omega
          · cases hm
    · exact h
  · unfold St.compile
    dsimp only
    split <;> rfl

theorem runCode_eq (nil : V) (self_ : Bool) {st : St V} (h : Inv st) {code : Code}
    (hcode : CodeOk st.classes code) :
    ∀ (as : List (Access V)) (o : Obj V), Fits st.classes o → code.cls = o.cls →
      (self_ = true → o.Ready code.heapLen) → (∀ a ∈ as, (code.ids.lookup a.1).isSome) →
      ∃ o' vs e, runCode nil self_ code.ids o as = some (o', vs, e) ∧ Fits st.classes o' ∧
        specAccesses nil (absObj st o) as = (absObj st o', vs, e) := by
  intro as
  induction as with
  | nil =>
    intro o hf _ _ _
    exact ⟨o, [], false, rfl, hf, rfl⟩
  | cons a rest ih =>
    intro o hf hc hr hn
    obtain ⟨n, ov⟩ := a
    have hsome := hn (n, ov) (by simp)
    obtain ⟨id, hid⟩ := Option.isSome_iff_exists.mp hsome
    obtain ⟨k, c1, c2⟩ := hcode.cls
    obtain ⟨d1, d2⟩ := c2 n id hid
    have hko : o.isObj = k.isObj := by
      obtain ⟨k', e1, e2, _⟩ := hf.cls
      rw [← hc, c1] at e1
      cases e1
      exact e2
    have hlook : (st.table o.cls).lookup n = some id := by rw [← hc, table_eq c1]; exact d1
    rw [← hko] at d2
    have hvar : absVars st o n = o.slot id := by unfold absVars; rw [hlook]
    have hn' : ∀ a ∈ rest, (code.ids.lookup a.1).isSome := fun a ha => hn a (by simp [ha])
    dsimp only at hid
    cases ov with
    | none =>
      obtain ⟨o', vs, e, i1, i2, i3⟩ := ih o hf hc hr hn'
      unfold runCode specAccesses
      rw [hid]
      dsimp only
      have hload : (if self_ = true then o.jitLoadSelf id else o.jitLoadOther id) = some (o.slot id) := by
        by_cases hs : self_ = true
        · rw [if_pos hs]; exact Obj.jitLoadSelf_eq hf.wf (hr hs) d2
        · rw [if_neg hs]; exact Obj.jitLoadOther_eq hf.wf id
      rw [hload, i1, i3]
      refine ⟨_, _, _, rfl, i2, ?_⟩
      have : (absObj st o).vars n = o.slot id := hvar
      rw [this]
    | some x =>
      unfold runCode specAccesses
      rw [hid]
      dsimp only
      have hfr : (absObj st o).frozen = o.frozen := rfl
      rw [hfr]
      cases hfz : o.frozen
      · rw [if_neg (show ¬(false = true) by simp), if_neg (show ¬(false = true) by simp)]
        have hstore : ∃ o1, (if self_ = true then o.jitStoreSelf id x else o.jitStoreOther id x) = some o1 ∧
            o1.WF ∧ Obj.Same o o1 ∧ (self_ = true → o1.Ready code.heapLen) ∧
            ∀ j, o1.slot j = if j = id then some x else o.slot j := by
          by_cases hs : self_ = true
          · rw [if_pos hs]
            obtain ⟨o1, s1, s2, s3, s4, s5⟩ := Obj.jitStoreSelf_wf hf.wf (hr hs) x d2
            exact ⟨o1, s1, s2, s3, fun _ => s4, s5⟩
          · rw [if_neg hs]
            obtain ⟨o1, s1, s2, s3, s5⟩ := Obj.jitStoreOther_wf hf.wf id x
            exact ⟨o1, s1, s2, s3, fun h => absurd h hs, s5⟩
        obtain ⟨o1, s1, s2, s3, s4, s5⟩ := hstore
        rw [s1]
        dsimp only
        obtain ⟨o', vs, e, i1, i2, i3⟩ :=
          ih o1 (fits_upd h hf s2 s3 hlook s5) (by rw [s3.cls, hc]) s4 hn'
        refine ⟨o', vs, e, i1, i2, ?_⟩
        rw [← i3]
        congr 1
        unfold absObj AObj.upd
        rw [s3.frozen, absVars_upd h s3.cls hlook s5]
      · rw [if_pos rfl, if_pos rfl]
        exact ⟨o, [], true, rfl, hf, rfl⟩

theorem jit_step {nil : V} {st : St V} (h : Inv st) {self_ : Bool} {j i : Nat} {as : List (Access V)}
    (hok : okOp st (.jit self_ j i as)) : Refines nil st (.jit self_ j i as) := by
  obtain ⟨code, o, hj, hi, hc, hn⟩ := hok
  have hf := h.objs i o hi
  have hcode := h.codes j code hj
  unfold Refines step specStep
  dsimp only
  rw [hj, hi, abs_get hi]
  dsimp only
  rw [if_pos hc]
  have hpro : ∃ o1, (if self_ = true then o.prologue code.heapLen else some o) = some o1 ∧
      Fits st.classes o1 ∧ o1.cls = o.cls ∧ (self_ = true → o1.Ready code.heapLen) ∧
      absObj st o1 = absObj st o := by
    by_cases hs : self_ = true
    · rw [if_pos hs]
      obtain ⟨o1, p1, p2, p3, p4, p5⟩ := Obj.prologue_wf hf.wf hcode.pos
      refine ⟨o1, p1, fits_same hf p2 p3 p5, p3.cls, fun _ => p4, ?_⟩
      unfold absObj
      rw [p3.frozen, absVars_same p3.cls p5]
    · rw [if_neg hs]
      exact ⟨o, rfl, hf, rfl, fun h => absurd h hs, rfl⟩
  obtain ⟨o1, p1, p2, p3, p4, p5⟩ := hpro
  rw [p1]
  dsimp only
  obtain ⟨o', vs, e, r1, r2, r3⟩ := runCode_eq nil self_ h hcode as o1 p2 (by rw [p3, hc]) p4 hn
  rw [r1]
  dsimp only
  obtain ⟨k1, k2⟩ := inv_setObj h i r2
  refine ⟨_, _, rfl, k1, ?_⟩
  rw [k2, ← p5, r3]

theorem step_refines (nil : V) {st : St V} (h : Inv st) (op : Op V) (hok : okOp st op) :
    Refines nil st op := by
  cases op with
  | newClass b => exact newClass_step h b
  | newSite n => exact newSite_step h n
  | new c => exact new_step h hok
  | get o n => exact get_step h hok
  | set o n v => exact set_step h hok
  | remove o n => exact remove_step h hok
  | load s o => exact load_step h hok
  | store s o v => exact store_step h hok
  | singleton o => exact singleton_step h hok
  | freeze o => exact freeze_step h hok
  | dup o => exact dup_step h hok
  | clone o => exact clone_step h hok
  | compile c names => exact compile_step h hok
  | jit s j o as => exact jit_step h hok

theorem inv_init : Inv (St.init : St V) :=
  ⟨by intro c k h; simp [St.init] at h, by intro i o h; simp [St.init] at h,
    by intro s t h; simp [St.init] at h, by intro j c h; simp [St.init] at h⟩

theorem run_refines (nil : V) : ∀ (ops : List (Op V)) (st : St V), Inv st → okRun nil st ops →
    ∃ st' rs, run nil st ops = some (st', rs) ∧ Inv st' ∧
      specRun nil (abs st) ops = (abs st', rs) := by
  intro ops
  induction ops with
  | nil => intro st h _; exact ⟨st, [], rfl, h, rfl⟩
  | cons op ops ih =>
    intro st h hok
    obtain ⟨st1, r, s1, s2, s3⟩ := step_refines nil h op hok.1
    obtain ⟨st2, rs, i1, i2, i3⟩ := ih st1 s2 (hok.2 st1 r s1)
    refine ⟨st2, r :: rs, ?_, i2, ?_⟩
    · unfold run
      rw [s1]
      dsimp only
      rw [i1]
    · unfold specRun
      rw [s3]
      dsimp only
      rw [i3]

end Verif.Ivar
