/-
Properties C55-C64: method lookup, include, prepend, the method cache, super, listings,
superclass, comparison and visibility.
-/
import Verif.Classes.Stable

namespace Verif.Classes

/-! ### Vocabulary of the statements -/

/-- `c` is a class of the program. -/
def IsClass (st : St) (c : Nat) : Prop :=
  c < st.classes.length ∧ (st.node (st.obj c)).kind = .cls

/-- `m` is a module of the program. -/
def IsModule (st : St) (m : Nat) : Prop :=
  m < st.classes.length ∧ (st.node (st.obj m)).kind = .mod

/-- Something has been prepended to `c` (or a `prepend` to it was attempted). -/
def Prepended (st : St) (c : Nat) : Prop := st.hasOrigin (st.obj c) = true

/-- `a` defines `name` with the body `f`. -/
def Defines (st : St) (a name f : Nat) : Prop :=
  ∃ e, st.entry a name = some e ∧ e.shadow = false ∧ e.func = some f

/-- `a` undefines `name` (`undef_method`). -/
def Undefines (st : St) (a name : Nat) : Prop :=
  ∃ e, st.entry a name = some e ∧ e.shadow = false ∧ e.func = none ∧ e.vis = .undef

/-- `a` says nothing about `name`, or only its visibility (`private :name`). -/
def Passes (st : St) (a name : Nat) : Prop :=
  ∀ e, st.entry a name = some e → e.shadow = true

/-- The state after a history, for the examples. -/
def after (ops : List Op) : St := (exec boot ops).getD boot

theorem Passes.noneDecisive {st : St} {name : Nat} {l : List Nat}
    (h : ∀ a ∈ l, Passes st a name) : NoneDecisive (fun a => st.entry a name) l := by
  intro a ha e he hd
  have := h a ha e he
  rw [hd.1] at this
  cases this

/-! ### C55: the method called is the nearest ancestor's -/

/-- The method called is the one of the first ancestor that defines the name, and its
visibility is the one the first ancestor to mention the name gives it. -/
theorem C55_calls_nearest {st : St} (h : Reach st) {c name a f : Nat} (hc : IsClass st c)
    {pre post : List Nat} (ha : ancestors st c = pre ++ a :: post)
    (hpre : ∀ b ∈ pre, Passes st b name) (hdef : Defines st a name f) :
    ∃ r, searchByClass st c name = some r ∧ r.func = some f ∧
      some r.vis = ((pre ++ [a]).findSome? fun b => st.entry b name).map (·.vis) := by
  have w := h.heap
  obtain ⟨e, he, hs, hf⟩ := hdef
  unfold searchByClass
  rw [searchMethod_eq, ← w.ancestors_class hc.1 hc.2, ha]
  exact searchIds_def (Passes.noneDecisive hpre) he hs hf

/-- `undef_method` in an ancestor hides every definition behind it. -/
theorem C55_undef_hides {st : St} (h : Reach st) {c name a : Nat} (hc : IsClass st c)
    {pre post : List Nat} (ha : ancestors st c = pre ++ a :: post)
    (hpre : ∀ b ∈ pre, Passes st b name) (hdef : Undefines st a name) :
    searchByClass st c name = none := by
  have w := h.heap
  obtain ⟨e, he, hs, hf, hv⟩ := hdef
  unfold searchByClass
  rw [searchMethod_eq, ← w.ancestors_class hc.1 hc.2, ha]
  exact searchIds_undef (Passes.noneDecisive hpre) he hs hf hv

/-- A method no ancestor mentions is not found. -/
theorem C55_absent {st : St} (h : Reach st) {c name : Nat} (hc : IsClass st c)
    (hno : ∀ a ∈ ancestors st c, st.entry a name = none) : searchByClass st c name = none := by
  have w := h.heap
  unfold searchByClass
  rw [searchMethod_eq, ← w.ancestors_class hc.1 hc.2]
  rw [searchIds_none (fun a ha e he => by rw [hno a ha] at he; cases he)]
  have : firstShadow (fun a => st.entry a name) (ancestors st c) = none := by
    unfold firstShadow
    rw [List.findSome?_eq_none_iff]
    intro a ha
    simp [hno a ha]
  rw [this]; rfl

/-- What is found is what some ancestor holds. -/
theorem C55_found_in_ancestor {st : St} (h : Reach st) {c name : Nat} {r : Entry}
    (hc : IsClass st c) (hr : searchByClass st c name = some r) :
    ∃ a ∈ ancestors st c, ∃ e, st.entry a name = some e ∧ e.func = r.func := by
  have w := h.heap
  unfold searchByClass at hr
  rw [searchMethod_eq, ← w.ancestors_class hc.1 hc.2] at hr
  rcases noneDecisive_or (fun a => st.entry a name) (ancestors st c) with hn | hd
  · rw [searchIds_none hn] at hr
    cases hs : firstShadow (fun a => st.entry a name) (ancestors st c) with
    | none => rw [hs] at hr; cases hr
    | some s =>
      rw [hs] at hr
      simp only [Option.map_some, Option.some.injEq] at hr
      unfold firstShadow at hs
      obtain ⟨a, ha, hae⟩ := List.exists_of_findSome?_eq_some hs
      rw [Option.filter_eq_some_iff] at hae
      exact ⟨a, ha, s, hae.1, by rw [← hr]⟩
  · obtain ⟨pre, a, post, e, hl, hp, he, hde⟩ := hd
    rw [hl] at hr
    refine ⟨a, by rw [hl]; simp, e, he, ?_⟩
    cases hf : e.func with
    | some f =>
      obtain ⟨r', hr', hrf, _⟩ := searchIds_def (post := post) hp he hde.1 hf
      rw [hr'] at hr
      cases hr
      exact hrf.symm
    | none =>
      have hv : e.vis = .undef := by
        rcases hde.2 with h | h
        · rw [hf] at h; cases h
        · exact h
      rw [searchIds_undef hp he hde.1 hf hv] at hr
      cases hr

/-- `is_a?` of an instance of `c` asks for `ancestors`. -/
theorem C55_is_a {st : St} (h : Reach st) {c : Nat} (hc : IsClass st c) (m : Nat) :
    isKindOf st c m = true ↔ m ∈ ancestors st c := h.heap.isKindOf_iff hc.1 hc.2

/-- A class has the ancestors of its superclass behind its own. -/
theorem C55_inherits {st : St} (h : Reach st) {d c : Nat} (hd : IsClass st d)
    (hb : Below st d c) : ∃ pre, ancestors st d = pre ++ ancestors st c :=
  h.heap.below_tail hb hd.1 hd.2

/-- Every class and module is its own ancestor. -/
theorem C55_self {st : St} (h : Reach st) {c : Nat} (hc : c < st.classes.length) :
    c ∈ ancestors st c := h.heap.mem_self hc

section Examples55

/-- `class A; def m(0) = 7; end; class B < A; private :m; end` -/
def hist55 : List Op :=
  [.newClass 1, .newClass 2, .newModule, .define 2 0 7 .pub, .setVis 3 0 .priv, .include 3 4,
   .define 4 1 8 .pub, .undef 3 2, .define 2 2 9 .pub]

example : Reach (after hist55) := ⟨hist55, by decide +kernel⟩
example : IsClass (after hist55) 3 := by unfold IsClass; decide +kernel
example : ancestors (after hist55) 3 = [3, 4, 2, 1, 0] := by decide +kernel
example : (searchByClass (after hist55) 3 0).map (fun r => (r.func, r.vis)) = some (some 7, .priv) := by
  decide +kernel
example : (after hist55).entry 2 0 = some { owner := 2, func := some 7, vis := .pub, shadow := false } := by
  decide +kernel
example : searchByClass (after hist55) 3 2 = none := by decide +kernel
example : superclass (after hist55) 3 = some 2 := by decide +kernel

end Examples55

/-! ### C56: include adds the module and its ancestors -/

/-- Including a module that has the receiver among its ancestors raises, and nothing changes. -/
theorem C56_cyclic_raises {st : St} (h : Reach st) {c m : Nat} (hc : c < st.classes.length)
    (hm : IsModule st m) (hcy : c ∈ ancestors st m) : includeModule st c m = .cyclic st := by
  have := (h.heap.checkCyclic_iff hc hm.1 hm.2).2 hcy
  unfold includeModule includeOrPrepend
  rw [this]
  rfl

/-- Nothing else raises it. -/
theorem C56_cyclic_only {st : St} (h : Reach st) {c m : Nat} (hc : c < st.classes.length)
    (hm : IsModule st m) (hcy : c ∉ ancestors st m) (s : St) :
    includeModule st c m ≠ .cyclic s := by
  intro he
  have heq := include_eq h.heap hc hm.1 hm.2 hcy
  rw [heq] at he
  have : ∀ (cs : List Nat) (s0 : St) (b : Nat),
      mixList (st.obj c) false s0 b cs ≠ .cyclic s := by
    intro cs
    induction cs with
    | nil => intro s0 b h; cases h
    | cons a cs ih =>
      intro s0 b h
      rw [mixList] at h
      split at h
      · cases h
      · exact ih _ _ h
  exact this _ _ _ he

/-- An `include` that succeeds gives the class every ancestor of the module, and takes no
ancestor away from any class. -/
theorem C56_adds_ancestors {st st' : St} (h : Reach st) {c m : Nat} (hc : IsClass st c)
    (hm : IsModule st m) (hok : includeModule st c m = .ok st') :
    (∀ a ∈ ancestors st m, a ∈ ancestors st' c) ∧
      (∀ d, IsClass st d → (ancestors st d).Sublist (ancestors st' d)) := by
  have w := h.heap
  have hl := w.obj_lt c hc.1
  have hcy : c ∉ ancestors st m := by
    intro hcy
    rw [C56_cyclic_raises h hc.1 hm hcy] at hok
    cases hok
  rw [include_eq w hc.1 hm.1 hm.2 hcy] at hok
  have hpb : Path (bump st) (st.obj c) ((bump st).chain (st.obj c)) := w.bump.chain hl
  obtain ⟨t, ht⟩ := hpb.head
  obtain ⟨g, p', hp', hsub, hall⟩ := mixList_include (ancestors st m) w.bump hpb
    (by rw [ht]; simp) (fun a ha => w.ancestors_lt hm.1 ha) hok
  refine ⟨fun a ha => ?_, fun d hd => ?_⟩
  · have w' := g.heap w.bump
    have hkb : (st'.node (st'.obj c)).kind = .cls := by
      rw [g.obj, (g.node _ (w.bump.obj_lt c hc.1)).2.1]; exact hc.2
    rw [w'.ancestors_class (by rw [g.classes]; exact hc.1) hkb, g.obj]
    have : Path st' ((bump st).obj c) p' := hp'
    rw [this.chain, ← w'.mem_view_path this]
    exact hall a ha
  · rw [← ancestors_bump st d]
    exact g.ancestors w.bump hd.1 hd.2

/-- So do the descendants of the class. -/
theorem C56_descendants {st st' : St} (h : Reach st) {c m d : Nat} (hc : IsClass st c)
    (hm : IsModule st m) (hd : IsClass st d) (hb : Below st d c)
    (hok : includeModule st c m = .ok st') : ∀ a ∈ ancestors st m, a ∈ ancestors st' d := by
  have w := h.heap
  have hop : (Op.include c m).valid st = true := by
    simp only [Op.valid, Bool.and_eq_true, decide_eq_true_eq, beq_iff_eq]
    exact ⟨⟨hc.1, hm.1⟩, hm.2⟩
  have hst : step st (.include c m) = some st' := by simp only [step, hok]
  have w' := w.step hop hst
  have hst' := fun x (hx : x < st.classes.length) => step_stable w hop hst hx
  have key : ∀ {d e : Nat}, Below st d e → d < st.classes.length →
      (st.node (st.obj d)).kind = .cls → Below st' d e := by
    intro d e hb
    induction hb with
    | refl c => intro _ _; exact .refl c
    | @step d e c hs hb ih =>
      intro hdl hdk
      obtain ⟨h1, h2, _, _⟩ := w.superclass_tail hdl hdk hs
      exact .step (by rw [(hst' d hdl).2.1]; exact hs) (ih h1 h2)
  have hb' := key hb hd.1 hd.2
  obtain ⟨h1, _, _, h4⟩ := hst' d hd.1
  obtain ⟨pre, hpre⟩ := w'.below_tail hb' h1 (by rw [h4]; exact hd.2)
  intro a ha
  rw [hpre]
  exact List.mem_append_right _ ((C56_adds_ancestors h hc hm hok).1 a ha)

/-- When no module appears twice among the ancestors of `m`, the `include` succeeds. -/
theorem C56_succeeds_partial {st : St} (h : Reach st) {c m : Nat} (hc : c < st.classes.length)
    (hm : IsModule st m) (hcy : c ∉ ancestors st m) (hnd : (ancestors st m).Nodup) :
    ∃ st', includeModule st c m = .ok st' := by
  have w := h.heap
  rw [include_eq w hc hm.1 hm.2 hcy]
  obtain ⟨z, hz⟩ := w.bump.zone_include (w.obj_lt c hc)
  obtain ⟨st', hok, _⟩ := mixList_zone (ancestors st m) (base := st.obj c) (pre := []) (post := z)
    (done := []) w.bump hz rfl (fun a ha => w.ancestors_lt hm.1 ha) rfl hnd (by intro d hd; cases hd)
  exact ⟨st', hok⟩

/-- Modules new to a class nothing was prepended to go right behind the class, in the order
they have among the ancestors of `m`. -/
theorem C56_order_class_partial {st : St} (h : Reach st) {c m : Nat} (hc : IsClass st c)
    (hm : IsModule st m) (hno : ¬ Prepended st c) (hnd : (ancestors st m).Nodup)
    (hnew : ∀ a ∈ ancestors st m, a ∉ ancestors st c) :
    ∃ st' rest, includeModule st c m = .ok st' ∧ ancestors st c = c :: rest ∧
      ancestors st' c = c :: (ancestors st m ++ rest) := by
  have w := h.heap
  have hp := w.chain (w.obj_lt c hc.1)
  have hcy : c ∉ ancestors st m := fun hx => hnew c hx (w.mem_self hc.1)
  obtain ⟨st', hok, _, ⟨hh, t, h1, h2, h3⟩, _⟩ := include_fresh w hc.1 hm.1 hm.2 hcy hnd (by
    intro a ha x hx he
    apply hnew a ha
    rw [w.ancestors_class hc.1 hc.2, ← w.mem_view_path hp]
    exact ⟨x, List.mem_of_mem_tail hx, he⟩)
  have : st.hasOrigin (st.obj c) = false := by
    unfold Prepended at hno; simpa using hno
  rw [this] at h3
  subst h3
  exact ⟨st', t, hok, h1, h2⟩

/-- The same for a module as the receiver, when the modules are not ancestors of `Object`. -/
theorem C56_order_module_partial {st : St} (h : Reach st) {c m : Nat} (hc : IsModule st c)
    (hm : IsModule st m) (hno : ¬ Prepended st c) (hnd : (ancestors st m).Nodup)
    (hcy : c ∉ ancestors st m)
    (hnew : ∀ a ∈ ancestors st m, a ∉ ancestors st c ∧ a ∉ ancestors st OBJECT) :
    ∃ st' rest, includeModule st c m = .ok st' ∧ ancestors st c = c :: rest ∧
      ancestors st' c = c :: (ancestors st m ++ rest) := by
  have w := h.heap
  obtain ⟨st', hok, _, ⟨hh, t, h1, h2, h3⟩, _⟩ := include_fresh w hc.1 hm.1 hm.2 hcy hnd (by
    intro a ha x hx he
    rcases w.mod_chain_ids h.modsUnder hc.1 hc.2 hx with hx | hx
    · rw [he] at hx; exact (hnew a ha).1 hx
    · rw [he] at hx; exact (hnew a ha).2 hx)
  have : st.hasOrigin (st.obj c) = false := by
    unfold Prepended at hno; simpa using hno
  rw [this] at h3
  subst h3
  exact ⟨st', t, hok, h1, h2⟩

/-- Including the same modules again changes nothing a program sees. -/
theorem C56_again {st : St} (h : Reach st) {c m : Nat} (hc : IsClass st c) (hm : IsModule st m)
    (hcy : c ∉ ancestors st m) (hall : ∀ a ∈ ancestors st m, a ∈ ancestors st c)
    (hnd : (ancestors st m).Nodup) : includeModule st c m = .ok (bump st) := by
  have w := h.heap
  have hp := w.chain (w.obj_lt c hc.1)
  obtain ⟨st', hok⟩ := C56_succeeds_partial h hc.1 hm hcy hnd
  rw [include_eq w hc.1 hm.1 hm.2 hcy] at hok ⊢
  have hpres : ∀ a ∈ ancestors st m, present (bump st) (st.obj c) false a = true := by
    intro a ha
    have := hall a ha
    rw [w.ancestors_class hc.1 hc.2, ← w.mem_view_path hp] at this
    obtain ⟨x, hx, he⟩ := this
    obtain ⟨t, ht⟩ := hp.head
    rw [ht] at hx
    have hxt : x ∈ t := by
      rcases List.mem_cons.1 hx with rfl | hx
      · rw [w.obj_cid c hc.1] at he
        subst he
        exact absurd ha hcy
      · exact hx
    unfold present isAncestorOf
    simp only [Bool.false_eq_true, if_false]
    have hch : (bump st).chain (st.obj c) = st.chain (st.obj c) :=
      chain_congr (st := st) (st' := bump st) rfl _
    rw [hch, ht, List.tail_cons, List.any_eq_true]
    exact ⟨x, hxt, by simp only [beq_iff_eq]; exact he⟩
  rcases mixList_all_present (ancestors st m) (base := st.obj c) hpres with h1 | h1
  · exact h1
  · rw [h1] at hok; cases hok

section Examples56

/-- `module M; include N; end; class C` with `m = 3`, `n = 4`, `c = 2`. -/
def hist56 : List Op := [.newClass 1, .newModule, .newModule, .include 3 4, .newClass 2]

example : Reach (after hist56) := ⟨hist56, by decide +kernel⟩
example : IsClass (after hist56) 2 := by unfold IsClass; decide +kernel
example : IsModule (after hist56) 3 := by unfold IsModule; decide +kernel
example : ¬ Prepended (after hist56) 2 := by unfold Prepended; decide +kernel
example : ancestors (after hist56) 3 = [3, 4] := by decide +kernel
example : ancestors (after (hist56 ++ [.include 2 3])) 2 = [2, 3, 4, 1, 0] := by decide +kernel
example : ancestors (after (hist56 ++ [.include 2 3])) 5 = [5, 2, 3, 4, 1, 0] := by decide +kernel
example : 3 ∈ ancestors (after hist56) 3 ∧ includeModule (after hist56) 4 3 = .cyclic (after hist56) := by
  decide +kernel

end Examples56

/-- With a prepended module, an included module lands in front of the class. -/
theorem C56_prepended_class_fails :
    ancestors (after [.newClass 1, .newModule, .newModule, .prepend 2 3, .include 2 4]) 2 =
      [4, 3, 2, 1, 0] := by decide +kernel

/-- Including a module some of whose ancestors the class has already does not keep the order
of the module's ancestors: `M` has `X` in front of `Y`, the class gets `Y` in front of `X`. -/
theorem C56_order_fails :
    let h : List Op := [.newClass 1, .newModule, .newModule, .newModule, .newModule,
      .include 2 3, .include 2 4, .include 6 5, .include 6 3]
    ancestors (after h) 6 = [6, 3, 5] ∧ ancestors (after h) 2 = [2, 4, 3, 1, 0] ∧
      ancestors (after (h ++ [.include 2 6])) 2 = [2, 6, 4, 5, 3, 1, 0] := by decide +kernel

/-- A module included into a module does not reach the classes that include the latter. -/
theorem C56_late_include_fails :
    let st := after [.newClass 1, .newModule, .newModule, .include 2 3, .include 3 4]
    4 ∈ ancestors st 3 ∧ 3 ∈ ancestors st 2 ∧ 4 ∉ ancestors st 2 := by decide +kernel

/-- A module that includes and prepends the same module cannot be included any more: the
interpreter panics. -/
theorem C56_panics :
    ancestors (after [.newModule, .newModule, .include 2 3, .prepend 2 3]) 2 = [3, 2, 3] ∧
      includeModule (after [.newModule, .newModule, .include 2 3, .prepend 2 3]) 0 2 = .panic := by
  decide +kernel

/-- A module already included in `Object` cannot be included in a module. -/
theorem C56_object_module_fails :
    ancestors (after [.newModule, .newModule, .include 1 2, .include 3 2]) 3 = [3] := by
  decide +kernel

/-! ### C57: include and prepend leave unrelated classes alone -/

/-- Including modules new to the class changes no class the receiver is not an ancestor of. -/
theorem C57_include_partial {st : St} (h : Reach st) {c m d : Nat} (hc : IsClass st c)
    (hm : IsModule st m) (hnd : (ancestors st m).Nodup)
    (hnew : ∀ a ∈ ancestors st m, a ∉ ancestors st c) (hd : IsClass st d)
    (hcd : c ∉ ancestors st d) :
    ∃ st', includeModule st c m = .ok st' ∧ ancestors st' d = ancestors st d := by
  have w := h.heap
  have hp := w.chain (w.obj_lt c hc.1)
  have hcy : c ∉ ancestors st m := fun hx => hnew c hx (w.mem_self hc.1)
  obtain ⟨st', hok, _, _, h2⟩ := include_fresh w hc.1 hm.1 hm.2 hcy hnd (by
    intro a ha x hx he
    apply hnew a ha
    rw [w.ancestors_class hc.1 hc.2, ← w.mem_view_path hp]
    exact ⟨x, List.mem_of_mem_tail hx, he⟩)
  exact ⟨st', hok, h2 d hd.1 hd.2 hcd⟩

/-- Prepending modules new to the prepended part of the receiver changes no class the
receiver is not an ancestor of. -/
theorem C57_prepend_partial {st : St} (h : Reach st) {c m d : Nat} (hc : c < st.classes.length)
    (hm : IsModule st m) (hnd : (ancestors st m).Nodup) (hcy : c ∉ ancestors st m)
    {pre post : List Nat} (hanc : ancestors st c = pre ++ c :: post) (hpre : c ∉ pre)
    (hpost : c ∉ post) (hnew : ∀ a ∈ ancestors st m, a ∉ pre) (hd : IsClass st d)
    (hcd : c ∉ ancestors st d) :
    ∃ st', prependModule st c m = .ok st' ∧ ancestors st' d = ancestors st d := by
  obtain ⟨st', hok, _, h2⟩ := prepend_fresh h.heap hc hm.1 hm.2 hcy hnd hanc hpre hpost hnew
  exact ⟨st', hok, h2 d hd.1 hd.2 hcd⟩

section Examples57

def hist57 : List Op := [.newClass 1, .newClass 1, .newModule]

example : Reach (after hist57) := ⟨hist57, by decide +kernel⟩
example : IsClass (after hist57) 2 ∧ IsClass (after hist57) 3 ∧ IsModule (after hist57) 4 := by
  unfold IsClass IsModule; decide +kernel
example : 2 ∉ ancestors (after hist57) 3 := by decide +kernel
example : ancestors (after hist57) 2 = [] ++ 2 :: [1, 0] := by decide +kernel

end Examples57

/-- Including into a subclass a module whose ancestors the superclass has in part inserts
modules into the superclass: `B < A`, `A` includes `X`, `M` includes `Y` and `X`, and
`B` includes `M`; now `A` has `Y` among its ancestors. -/
theorem C57_superclass_changes_fails :
    let h : List Op := [.newClass 1, .newModule, .newModule, .newModule, .newClass 2,
      .include 2 3, .include 4 5, .include 4 3]
    ancestors (after h) 2 = [2, 3, 1, 0] ∧
      ancestors (after (h ++ [.include 6 4])) 2 = [2, 5, 3, 1, 0] := by decide +kernel

/-! ### C58: prepend puts the module in front of the class -/

/-- Prepending modules new to the prepended part puts the module's ancestors in front of
the receiver's. -/
theorem C58_in_front_partial {st : St} (h : Reach st) {c m : Nat} (hc : c < st.classes.length)
    (hm : IsModule st m) (hcy : c ∉ ancestors st m) (hnd : (ancestors st m).Nodup)
    {pre post : List Nat} (hanc : ancestors st c = pre ++ c :: post) (hpre : c ∉ pre)
    (hpost : c ∉ post) (hnew : ∀ a ∈ ancestors st m, a ∉ pre) :
    ∃ st', prependModule st c m = .ok st' ∧
      ancestors st' c = ancestors st m ++ ancestors st c := by
  obtain ⟨st', hok, h1, _⟩ := prepend_fresh h.heap hc hm.1 hm.2 hcy hnd hanc hpre hpost hnew
  exact ⟨st', hok, h1⟩

/-- Prepending a module that has the receiver among its ancestors raises, and no ancestors
and no lookup change. -/
theorem C58_cyclic_raises {st : St} (h : Reach st) {c m : Nat} (hc : c < st.classes.length)
    (hm : IsModule st m) (hcy : c ∈ ancestors st m) :
    ∃ st', prependModule st c m = .cyclic st' ∧
      (∀ d, d < st.classes.length → ancestors st' d = ancestors st d) ∧
      (∀ d n, d < st.classes.length → searchByClass st' d n = searchByClass st d n) :=
  ⟨_, prepend_cyclic h.heap hc hm.1 hm.2 hcy,
    fun _ hd => ancestors_makeOrigin h.heap (h.heap.obj_lt c hc) (h.heap.obj_kind c hc) hd,
    fun _ _ hd => search_makeOrigin h.heap (h.heap.obj_lt c hc) hd⟩

/-- A module prepended to a module reaches every class that has the latter among its
ancestors and no prepended modules of its own: it comes in front there, too. -/
theorem C58_reaches_includers_partial {st st' : St} (h : Reach st) {c m d : Nat}
    (hc : IsModule st c) (hm : IsModule st m) (hd : IsClass st d)
    (hsg : (st.node (st.obj d)).singleton = false) (hno : ¬ Prepended st d)
    (hin : c ∈ ancestors st d) (hok : prependModule st c m = .ok st') :
    ∃ pre post, ancestors st' d = pre ++ c :: post ∧ c ∉ pre ∧ m ∈ pre :=
  prepend_reaches h.heap hc.1 hm.1 hc.2 hm.2 hd.1 hd.2 hsg
    (by unfold Prepended at hno; simpa using hno) hin hok

/-- Prepending never takes an ancestor away from a class. -/
theorem C58_keeps_ancestors {st st' : St} (h : Reach st) {c m d : Nat}
    (hc : c < st.classes.length) (hm : IsModule st m) (hd : IsClass st d)
    (hok : prependModule st c m = .ok st') : (ancestors st d).Sublist (ancestors st' d) := by
  have w := h.heap
  have hl := w.obj_lt c hc
  have g := prependModule_grow w hc hm.1 hok
  have w0 := w.makeOrigin hl (w.obj_kind c hc)
  rw [← ancestors_makeOrigin w hl (w.obj_kind c hc) hd.1, ← ancestors_bump]
  refine g.ancestors w0.bump ?_ ?_
  · show d < (makeOrigin st (st.obj c)).classes.length
    rw [(makeOrigin_rest _ _).1]; exact hd.1
  · show ((makeOrigin st (st.obj c)).node ((makeOrigin st (st.obj c)).obj d)).kind = _
    rw [obj_makeOrigin, makeOrigin_kind hl (w.obj_lt d hd.1)]
    exact hd.2

section Examples58

/-- `module A; end; class B; include A; end; module M; end` -/
def hist58 : List Op := [.newModule, .newClass 1, .include 3 2, .newModule, .newClass 3]

example : Reach (after hist58) := ⟨hist58, by decide +kernel⟩
example : IsModule (after hist58) 2 ∧ IsClass (after hist58) 3 ∧ IsModule (after hist58) 4 := by
  unfold IsClass IsModule; decide +kernel
example : ancestors (after hist58) 3 = [3, 2, 1, 0] := by decide +kernel
example : ancestors (after (hist58 ++ [.prepend 2 4])) 3 = [3, 4, 2, 1, 0] := by decide +kernel
example : ancestors (after (hist58 ++ [.prepend 2 4])) 5 = [5, 3, 4, 2, 1, 0] := by decide +kernel
example : ancestors (after (hist58 ++ [.prepend 3 4])) 3 = [4, 3, 2, 1, 0] := by decide +kernel

end Examples58

/-- Only the module itself reaches the includers, not the modules it includes. -/
theorem C58_ancestors_of_module_fails :
    let st := after [.newModule, .newClass 1, .newModule, .newModule, .include 3 2, .include 4 5,
      .prepend 2 4]
    ancestors st 2 = [4, 5, 2] ∧ ancestors st 3 = [3, 4, 2, 1, 0] := by decide +kernel

/-- Nor does it reach a class with a prepended module of its own, or a singleton class. -/
theorem C58_prepended_includer_fails :
    let st := after [.newModule, .newClass 1, .newModule, .newModule, .prepend 3 4, .newClass 1,
      .newSingleton 1, .include 7 2, .prepend 2 5]
    ancestors st 2 = [5, 2] ∧ ancestors st 7 = [7, 2, 1, 0] := by decide +kernel

/-! ### C59: the method cache answers as a fresh lookup -/

/-- After any history of fewer than 2³² - 2 operations, the cached lookup answers what a
lookup along the ancestors answers now. -/
theorem C59_cache_is_fresh_partial {ops : List Op} {st : St} (he : exec boot ops = some st)
    (hlen : ops.length < 2 ^ 32 - 2) {c : Nat} (hc : c < st.classes.length) (name : Nat) :
    (lookupCached st c name).2 = searchByClass st c name :=
  ((boot_coherent.exec ops (by simp [boot]; omega) he).lookup hc).2.1

theorem exec_append {ops : List Op} : ∀ {s s' : St} {ops' : List Op}, exec s ops = some s' →
    exec s (ops ++ ops') = exec s' ops' := by
  induction ops with
  | nil =>
    intro s s' ops' hs
    simp only [exec, Option.some.injEq] at hs
    subst hs; rfl
  | cons op ops ih =>
    intro s s' ops' hs
    rw [List.cons_append, exec]
    rw [exec] at hs
    split
    · rename_i hv'
      rw [if_pos hv'] at hs
      cases hstep : step s op with
      | none => rw [hstep] at hs; cases hs
      | some s'' => rw [hstep] at hs; exact ih hs
    · rename_i hv'
      rw [if_neg hv'] at hs
      exact ih hs

/-- The next lookup finds a method the moment it is defined. -/
theorem C59_define_seen_partial {ops : List Op} {st : St} (he : exec boot ops = some st)
    (hlen : ops.length + 1 < 2 ^ 32 - 2) {c : Nat} (hc : IsClass st c)
    (hno : ¬ Prepended st c) (name f : Nat) {v : Vis} (hv : v ≠ .undef) :
    ∃ r, (lookupCached (addMethod st c name f v) c name).2 = some r ∧ r.func = some f ∧ r.vis = v := by
  have hr : Reach st := ⟨ops, he⟩
  have w := hr.heap
  have hvalid : (Op.define c name f v).valid st = true := by
    simp [Op.valid, hc.1, hv]
  have he' : exec boot (ops ++ [.define c name f v]) = some (addMethod st c name f v) := by
    rw [exec_append he]
    simp only [exec, hvalid, if_true, step]
  have hcl : c < (addMethod st c name f v).classes.length := by
    simp [addMethod, insertMethod, setEntry, bump]; exact hc.1
  rw [C59_cache_is_fresh_partial he' (by simp; omega) hcl]
  have hr' : Reach (addMethod st c name f v) := ⟨_, he'⟩
  have hobj : ∀ x, (addMethod st c name f v).obj x = st.obj x := fun x =>
    obj_setEntry (bump st) c name _ x
  have hanc : ancestors (addMethod st c name f v) c = ancestors st c :=
    ancestors_congr (st := st) (st' := addMethod st c name f v) rfl hobj c
  have hho : st.hasOrigin (st.obj c) = false := by unfold Prepended at hno; simpa using hno
  have hhead : ∃ rest, ancestors st c = [] ++ c :: rest := by
    obtain ⟨t, ht⟩ := (w.chain (w.obj_lt c hc.1)).head
    rw [w.ancestors_class hc.1 hc.2, ht, view_cons, hho, w.obj_cid c hc.1]
    exact ⟨_, rfl⟩
  obtain ⟨rest, hrest⟩ := hhead
  have hentry : (addMethod st c name f v).entry c name =
      some { owner := c, func := some f, vis := v, shadow := false } := by
    simp [St.entry, addMethod, insertMethod, setEntry, bump, List.getD_eq_getElem?_getD, hc.1]
  obtain ⟨r, h1, h2, h3⟩ := C55_calls_nearest hr' (c := c) (name := name) (a := c) (f := f)
    (pre := []) (post := rest)
    ⟨hcl, by rw [hobj]; exact hc.2⟩ (by rw [hanc]; exact hrest) (by intro b hb; cases hb)
    ⟨_, hentry, rfl, rfl⟩
  refine ⟨r, h1, h2, ?_⟩
  simp [hentry] at h3
  exact h3

example : (lookupCached (after [.newClass 1, .lookup 2 0, .define 1 0 5 .pub]) 2 0).2.isSome := by
  decide +kernel

/-- After 2³² changes the version is the old one again, and the cache answers of old: a
method defined after the first lookup is not found. -/
theorem C59_wraparound_fails : ∃ ops st, exec boot ops = some st ∧
    (lookupCached st 2 0).2 = none ∧ (searchByClass st 2 0).isSome = true := by
  obtain ⟨s3, h3, hv3, hc3, hl3, hs3⟩ : ∃ s3,
      exec boot [.newClass 1, .lookup 2 0, .define 2 0 7 .pub] = some s3 ∧ s3.version = 2 ∧
      s3.cache = { version := 1, map := [((0, 2), none)] } ∧ s3.classes.length = 3 ∧
      (searchByClass s3 2 0).isSome = true :=
    ⟨after [.newClass 1, .lookup 2 0, .define 2 0 7 .pub], by decide +kernel, by decide +kernel,
      by decide +kernel, by decide +kernel, by decide +kernel⟩
  -- unrelated definitions
  have iter : ∀ n : Nat, ∃ st, exec s3 (List.replicate n (.define 2 1 8 .pub)) = some st ∧
      st.version = (2 + n) % 2 ^ 32 ∧ st.cache = s3.cache ∧ st.nodes = s3.nodes ∧
      st.classes.length = 3 ∧ (∀ x, st.obj x = s3.obj x) ∧
      (∀ x, st.entry x 0 = s3.entry x 0) := by
    have gen : ∀ (n : Nat) (s : St), s.classes.length = 3 →
        ∃ st, exec s (List.replicate n (.define 2 1 8 .pub)) = some st ∧
        st.version = (if n = 0 then s.version else (s.version + n) % 2 ^ 32) ∧
        st.cache = s.cache ∧ st.nodes = s.nodes ∧ st.classes.length = 3 ∧
        (∀ x, st.obj x = s.obj x) ∧ (∀ x, st.entry x 0 = s.entry x 0) := by
      intro n
      induction n with
      | zero => intro s hs; exact ⟨s, rfl, rfl, rfl, rfl, hs, fun _ => rfl, fun _ => rfl⟩
      | succ n ih =>
        intro s hs
        have hlen : (addMethod s 2 1 8 .pub).classes.length = 3 := by
          simp [addMethod, insertMethod, setEntry, bump, hs]
        obtain ⟨st, e1, e2, e3, e4, e5, e6, e7⟩ := ih (addMethod s 2 1 8 .pub) hlen
        refine ⟨st, ?_, ?_, e3, e4, e5, ?_, ?_⟩
        · rw [List.replicate_succ, exec]
          simp only [Op.valid, hs, step]
          exact e1
        · rw [e2]
          have : (addMethod s 2 1 8 .pub).version = (s.version + 1) % 2 ^ 32 := rfl
          rw [this]
          split
          · rename_i h0; subst h0; simp
          · simp only [Nat.add_eq_zero_iff, Nat.one_ne_zero, and_false, if_false]; omega
        · intro x; rw [e6]; exact obj_setEntry (bump s) 2 1 _ x
        · intro x
          rw [e7]
          unfold addMethod insertMethod setEntry St.entry
          simp only [List.getD_eq_getElem?_getD, List.getElem?_set]
          by_cases hx : 2 = x
          · subst hx
            simp [bump, hs, List.lookup_cons]
          · rw [if_neg hx]; rfl
    intro n
    obtain ⟨st, e1, e2, e3, e4, e5, e6, e7⟩ := gen n s3 hl3
    refine ⟨st, e1, ?_, e3, e4, e5, e6, e7⟩
    rw [e2, hv3]
    split
    · rename_i h0; subst h0; rfl
    · rfl
  obtain ⟨st, e1, e2, e3, e4, e5, e6, e7⟩ := iter (2 ^ 32 - 1)
  have hver : st.version = 1 := by rw [e2]
  refine ⟨[.newClass 1, .lookup 2 0, .define 2 0 7 .pub] ++
    List.replicate (2 ^ 32 - 1) (.define 2 1 8 .pub), st, ?_, ?_, ?_⟩
  · rw [exec_append h3]
    exact e1
  · unfold lookupCached
    rw [e3, hc3, hver]
    simp
  · have : searchByClass st 2 0 = searchByClass s3 2 0 := by
      unfold searchByClass
      rw [searchMethod_eq, searchMethod_eq, chain_congr e4, e6]
      have hv : ∀ l, view st l = view s3 l := by
        intro l
        have hnd : ∀ x, st.node x = s3.node x := by intro x; simp [St.node, e4]
        unfold view
        simp only [St.hasOrigin, hnd]
        have : st.cid = s3.cid := by funext s; unfold St.cid; rw [hnd]
        rw [this]
      rw [hv]
      congr 1
      funext a
      exact e7 a
    rw [this]; exact hs3

/-- `Class.allocate` followed by a lookup and `initialize(superclass)` keeps the answer of
the class without a superclass. -/
theorem C59_initialize_fails :
    let st := after [.newClass 1, .define 2 0 7 .pub]
    let st := (classInitialize (lookupCached (allocateClass st) 3 0).1 3 2).1
    (lookupCached st 3 0).2 = none ∧ (searchByClass st 3 0).isSome = true := by decide +kernel

/-! ### C60: super continues behind the running method -/

/-- `a` runs the body `fid` for `name`: its own entry is the body or a wrapper of it. -/
def Runs (fs : Funcs) (st : St) (a name fid : Nat) : Prop :=
  ∃ f, Defines st a name f ∧ (f = fid ∨ fs.body f = some fid)

theorem dispatchedBy_iff (fs : Funcs) (st : St) (a name fid : Nat) :
    dispatchedBy fs st a name fid = true ↔ Runs fs st a name fid := by
  unfold dispatchedBy Runs Defines
  cases he : st.entry a name with
  | none => simp
  | some e =>
    dsimp only
    cases hs : e.shadow with
    | true => simp [hs]
    | false =>
      cases hf : e.func with
      | none => simp [hs, hf]
      | some f => simp [hs, hf]

theorem not_runs {fs : Funcs} {st : St} {name fid : Nat} {l : List Nat}
    (h : ∀ b ∈ l, ¬ Runs fs st b name fid) : ∀ b ∈ l, dispatchedBy fs st b name fid = false := by
  intro b hb
  cases hd : dispatchedBy fs st b name fid with
  | false => rfl
  | true => exact absurd ((dispatchedBy_iff fs st b name fid).1 hd) (h b hb)

theorem checkSuper_single {st : St} (h : Reach st) {fs : Funcs} {c fid name a : Nat}
    (hc : IsClass st c) {pre post : List Nat} (ha : ancestors st c = pre ++ a :: post)
    (hrun : Runs fs st a name fid) (hpre : ∀ b ∈ pre, ¬ Runs fs st b name fid)
    (hpost : ∀ b ∈ post, ¬ Runs fs st b name fid) :
    checkSuper fs st c fid name =
      (found (fun b => st.entry b name) post).filter (fun f => decide (f ≠ fid)) := by
  have w := h.heap
  have hview := w.ancestors_class hc.1 hc.2
  have hd := (dispatchedBy_iff fs st a name fid).2 hrun
  unfold checkSuper
  rw [superOccurrences_eq, ← hview, ha, filter_single (not_runs hpre) hd (not_runs hpost)]
  simp only [List.length_singleton, gt_iff_lt, Nat.lt_irrefl, if_false]
  unfold checkSuperAt
  dsimp only
  rw [superWalk_eq, ← hview, ha, superIds_single (not_runs hpre) hd (not_runs hpost)]
  cases found (fun b => st.entry b name) post with
  | none => rfl
  | some f =>
    dsimp only
    by_cases hf : f = fid
    · simp [hf, Option.filter]
    · simp [hf, Option.filter]

/-- `super` in the method of `a` calls the nearest definition behind `a`. -/
theorem C60_super_next {st : St} (h : Reach st) {fs : Funcs} {c fid name a b g : Nat}
    (hc : IsClass st c) {pre mid post : List Nat}
    (ha : ancestors st c = pre ++ a :: (mid ++ b :: post)) (hrun : Runs fs st a name fid)
    (honce : ∀ x ∈ pre ++ (mid ++ b :: post), ¬ Runs fs st x name fid)
    (hmid : ∀ x ∈ mid, Passes st x name) (hb : Defines st b name g) :
    checkSuper fs st c fid name = some g := by
  rw [checkSuper_single h hc ha hrun (fun x hx => honce x (by simp [hx]))
    (fun x hx => honce x (List.mem_append_right _ hx))]
  obtain ⟨e, he, hs, hf⟩ := hb
  obtain ⟨r, h1, h2, _⟩ := searchIds_def (tbl := fun b => st.entry b name) (post := post)
    (Passes.noneDecisive hmid) he hs hf
  unfold found
  rw [h1]
  have hg : g ≠ fid := by
    intro e'
    exact honce b (by simp) ⟨g, ⟨e, he, hs, hf⟩, Or.inl e'⟩
  simp [h2, hg, Option.filter]

/-- `super` with no definition behind it is a NoMethodError, also when one is there but
undefined in between. -/
theorem C60_super_none {st : St} (h : Reach st) {fs : Funcs} {c fid name a : Nat}
    (hc : IsClass st c) {pre post : List Nat} (ha : ancestors st c = pre ++ a :: post)
    (hrun : Runs fs st a name fid) (honce : ∀ x ∈ pre ++ post, ¬ Runs fs st x name fid)
    (hno : (∀ x ∈ post, st.entry x name = none) ∨
      ∃ mid b rest, post = mid ++ b :: rest ∧ (∀ x ∈ mid, Passes st x name) ∧
        Undefines st b name) : checkSuper fs st c fid name = none := by
  rw [checkSuper_single h hc ha hrun (fun x hx => honce x (by simp [hx]))
    (fun x hx => honce x (List.mem_append_right _ hx))]
  rcases hno with hno | ⟨mid, b, rest, rfl, hmid, e, he, hs, hf, hv⟩
  · unfold found
    rw [searchIds_none (fun x hx e he => by rw [hno x hx] at he; cases he)]
    have : firstShadow (fun b => st.entry b name) post = none := by
      unfold firstShadow
      rw [List.findSome?_eq_none_iff]
      intro x hx
      simp [hno x hx]
    rw [this]; rfl
  · unfold found
    rw [searchIds_undef (tbl := fun b => st.entry b name) (Passes.noneDecisive hmid) he hs hf hv]
    rfl

/-- A body installed in several ancestors: from its `k`-th place `super` goes to the nearest
definition behind that place. -/
theorem C60_super_at_partial {st : St} (h : Reach st) {fs : Funcs} {c fid name a b g k : Nat}
    (hc : IsClass st c) {pre mid post : List Nat}
    (ha : ancestors st c = pre ++ a :: (mid ++ b :: post)) (hrun : Runs fs st a name fid)
    (hk : (pre.filter fun x => dispatchedBy fs st x name fid).length + 1 = k)
    (hmid : ∀ x ∈ mid, Passes st x name) (hb : Defines st b name g) :
    checkSuperAt fs st c fid name (some k) = some g := by
  have w := h.heap
  have hview := w.ancestors_class hc.1 hc.2
  obtain ⟨e, he, hs, hf⟩ := hb
  obtain ⟨r, h1, h2, _⟩ := searchIds_def (tbl := fun b => st.entry b name) (post := post)
    (Passes.noneDecisive hmid) he hs hf
  have hfound : found (fun b => st.entry b name) (mid ++ b :: post) = some g := by
    unfold found; rw [h1]; exact h2
  unfold checkSuperAt
  dsimp only
  rw [superWalk_eq, ← hview, ha, superIds_at (disp := fun x => dispatchedBy fs st x name fid)
    (k := k) ((dispatchedBy_iff fs st a name fid).2 hrun)
    hfound (n := 0) (by omega)]

section Examples60

def noFuncs : Funcs := { body := fun _ => none, owners := fun _ => [] }

/-- `class A; def m; class B < A; include N; def m; module N; private :m`-like chain. -/
def hist60 : List Op :=
  [.newClass 1, .newClass 2, .define 2 0 7 .pub, .define 3 0 8 .pub]

example : Reach (after hist60) := ⟨hist60, by decide +kernel⟩
example : ancestors (after hist60) 3 = [] ++ 3 :: ([] ++ 2 :: [1, 0]) := by decide +kernel
example : checkSuper noFuncs (after hist60) 3 8 0 = some 7 := by decide +kernel
example : checkSuper noFuncs (after hist60) 3 7 0 = none := by decide +kernel

end Examples60

/-- `[A(f), B(undef), C(f), D(g)]`: `super` from the first `f` goes on behind the `undef`. -/
theorem C60_undef_skipped_fails :
    let st := after [.newClass 1, .newClass 2, .newClass 3, .newClass 4, .define 5 0 7 .pub,
      .undef 4 0, .define 3 0 7 .pub, .define 2 0 8 .pub]
    ancestors st 5 = [5, 4, 3, 2, 1, 0] ∧ Undefines st 4 0 ∧
      checkSuperAt noFuncs st 5 7 0 (some 1) = some 8 := by
  refine ⟨by decide +kernel, ⟨{ owner := 4, func := none, vis := .undef, shadow := false },
    by decide +kernel, rfl, rfl, rfl⟩, by decide +kernel⟩

/-! ### C61: the listings agree with dispatch -/

theorem namesWalk_ids (st : St) : ∀ (pre : List Nat) (r s : Nat) (post : List Nat),
    (∀ x ∈ pre ++ [r], st.cid x ≠ OBJECT) →
    ∃ rest, namesWalk st (s :: (pre ++ r :: post)) = s :: (pre ++ r :: rest)
  | [], r, s, post, h => by
    rw [List.nil_append, namesWalk]
    have hr := h r (by simp)
    rw [if_neg (by simpa using hr)]
    cases post with
    | nil => exact ⟨[], rfl⟩
    | cons p post =>
      rw [namesWalk]
      split
      · exact ⟨[], rfl⟩
      · exact ⟨_, rfl⟩
  | p :: pre, r, s, post, h => by
    rw [List.cons_append, namesWalk]
    rw [if_neg (by have := h p (by simp); simpa using this)]
    obtain ⟨rest, hrest⟩ := namesWalk_ids st pre r p post (fun x hx => h x (by simp at hx ⊢; tauto))
    exact ⟨rest, by rw [hrest]; rfl⟩

/-- When nothing is prepended to an ancestor, a method is listed as public, protected or
private exactly when a call finds it with that visibility; for the ancestors in front of
`Object` and names no ancestor there only changes the visibility of. -/
theorem C61_listing_partial {st : St} (h : Reach st) {c name a : Nat} (hc : IsClass st c)
    (hno : ∀ x ∈ ancestors st c, ¬ Prepended st x) {pre post : List Nat}
    (ha : ancestors st c = c :: (pre ++ a :: post)) (hobj : ∀ x ∈ pre ++ [a], x ≠ OBJECT)
    (hpre : ∀ x ∈ c :: pre, st.entry x name = none)
    (hdec : (∃ f, Defines st a name f) ∨ Undefines st a name) {v : Vis} (hv : v ≠ .undef) :
    listedWith st c name v = true ↔ ∃ r, searchByClass st c name = some r ∧ r.vis = v := by
  have w := h.heap
  have hl := w.obj_lt c hc.1
  have hp := w.chain hl
  -- no cell on the chain has an origin
  have hno' : ∀ x ∈ st.chain (st.obj c), st.hasOrigin x = false := by
    intro x hx
    cases ho : st.hasOrigin x with
    | false => rfl
    | true =>
      exfalso
      have hxl := hp.lt x hx
      obtain ⟨o, ho'⟩ := Option.isSome_iff_exists.1 ho
      have hxk := (w.origin x o hxl ho').1
      have hxo := w.cid_obj x hxl hxk
      apply hno (st.cid x)
      · rw [w.ancestors_class hc.1 hc.2, ← w.mem_view_path hp]
        exact ⟨x, hx, rfl⟩
      · unfold Prepended; rw [hxo]; exact ho
  have hmap : (st.chain (st.obj c)).map st.cid = ancestors st c := by
    rw [w.ancestors_class hc.1 hc.2]
    unfold view
    rw [List.filter_eq_self.2]
    intro x hx
    rw [hno' x hx]; rfl
  have hcells : ∃ s cp r cq, st.chain (st.obj c) = s :: (cp ++ r :: cq) ∧ st.cid s = c ∧
      cp.map st.cid = pre ∧ st.cid r = a := by
    rw [ha] at hmap
    obtain ⟨s, l, hsl, hs, hl⟩ := List.map_eq_cons_iff.1 hmap
    obtain ⟨cp, l2, hl2, hcp, hr⟩ := List.map_eq_append_iff.1 hl
    obtain ⟨r, cq, hrq, hra, _⟩ := List.map_eq_cons_iff.1 hr
    exact ⟨s, cp, r, cq, by rw [hsl, hl2, hrq], hs, hcp, hra⟩
  obtain ⟨s, cp, r, cq, hch, hs, hcp, hr⟩ := hcells
  obtain ⟨rest, hwalk⟩ := namesWalk_ids st cp r s cq (by
    intro x hx
    apply hobj
    rw [← hcp, ← hr]
    rcases List.mem_append.1 hx with hx | hx
    · exact List.mem_append_left _ (List.mem_map_of_mem hx)
    · simp at hx; subst hx; simp)
  have hnone : ∀ x ∈ s :: cp, st.entry (st.cid x) name = none := by
    intro x hx
    apply hpre
    rcases List.mem_cons.1 hx with rfl | hx
    · rw [hs]; simp
    · refine List.mem_cons_of_mem _ ?_
      rw [← hcp]; exact List.mem_map_of_mem hx
  have hfind : ∀ e, st.entry a name = some e →
      (namesWalk st (st.chain (st.obj c))).findSome? (fun x => st.entry (st.cid x) name) = some e := by
    intro e he
    rw [hch, hwalk, ← List.cons_append, List.findSome?_append,
      List.findSome?_eq_none_iff.2 hnone, List.findSome?_cons, hr, he]
    rfl
  have hpass : ∀ b ∈ c :: pre, Passes st b name := fun b hb e he => by
    rw [hpre b hb] at he; cases he
  unfold listedWith
  rcases hdec with ⟨f, hdef⟩ | hund
  · obtain ⟨r', h1, h2, h3⟩ := C55_calls_nearest h hc (pre := c :: pre) (by rw [ha]; rfl) hpass hdef
    obtain ⟨e, he, hsh, hf⟩ := hdef
    have hvis : r'.vis = e.vis := by
      rw [List.findSome?_append, List.findSome?_eq_none_iff.2 hpre] at h3
      simp [he] at h3
      exact h3
    rw [hfind e he]
    dsimp only
    unfold Entry.is
    rw [hf, h1]
    simp only [Option.isSome_some, Bool.true_and, Bool.and_eq_true, bne_iff_ne, beq_iff_eq,
      Option.some.injEq, exists_eq_left', hvis, ne_eq]
    constructor
    · exact fun h => h.2
    · intro hev; exact ⟨by rw [hev]; exact hv, hev⟩
  · have := C55_undef_hides h hc (pre := c :: pre) (by rw [ha]; rfl) hpass hund
    obtain ⟨e, he, hsh, hf, hu⟩ := hund
    rw [hfind e he, this]
    simp [hu]

/-- The same for a name the class itself defines. -/
theorem C61_own_listing_partial {st : St} (h : Reach st) {c name : Nat} (hc : IsClass st c)
    (hno : ¬ Prepended st c) (hdec : (∃ f, Defines st c name f) ∨ Undefines st c name) {v : Vis}
    (hv : v ≠ .undef) :
    listedWith st c name v = true ↔ ∃ r, searchByClass st c name = some r ∧ r.vis = v := by
  have w := h.heap
  have hl := w.obj_lt c hc.1
  have hp := w.chain hl
  have hho : st.hasOrigin (st.obj c) = false := by unfold Prepended at hno; simpa using hno
  obtain ⟨t, ht⟩ := hp.head
  have hanc : ancestors st c = [] ++ c :: view st t := by
    rw [w.ancestors_class hc.1 hc.2, ht, view_cons, hho, w.obj_cid c hc.1]; rfl
  have hfind : ∀ e, st.entry c name = some e →
      (namesWalk st (st.chain (st.obj c))).findSome? (fun x => st.entry (st.cid x) name) = some e := by
    intro e he
    have : ∃ q, namesWalk st (st.obj c :: t) = st.obj c :: q := by
      cases t with
      | nil => exact ⟨[], rfl⟩
      | cons s t =>
        rw [namesWalk]
        split
        · exact ⟨[], rfl⟩
        · exact ⟨_, rfl⟩
    obtain ⟨q, hq⟩ := this
    rw [ht, hq, List.findSome?_cons, w.obj_cid c hc.1, he]
  unfold listedWith
  rcases hdec with ⟨f, hdef⟩ | hund
  · obtain ⟨r', h1, h2, h3⟩ := C55_calls_nearest h hc hanc (by intro b hb; cases hb) hdef
    obtain ⟨e, he, hsh, hf⟩ := hdef
    have hvis : r'.vis = e.vis := by simp [he] at h3; exact h3
    rw [hfind e he]
    dsimp only
    unfold Entry.is
    rw [hf, h1]
    simp only [Option.isSome_some, Bool.true_and, Bool.and_eq_true, bne_iff_ne, beq_iff_eq,
      Option.some.injEq, exists_eq_left', hvis, ne_eq]
    constructor
    · exact fun h => h.2
    · intro hev; exact ⟨by rw [hev]; exact hv, hev⟩
  · have := C55_undef_hides h hc hanc (by intro b hb; cases hb) hund
    obtain ⟨e, he, hsh, hf, hu⟩ := hund
    rw [hfind e he, this]
    simp [hu]

/-- `method_defined?` of a class: whether a call finds the method and it is not private. -/
theorem C61_method_defined_class {st : St} {c name : Nat} (hc : IsClass st c) :
    methodDefined st c name = true ↔
      ∃ r, searchByClass st c name = some r ∧ (r.vis = .pub ∨ r.vis = .prot) := by
  unfold methodDefined methodVis
  rw [if_pos hc.2]
  cases searchByClass st c name with
  | none => simp
  | some r => cases hv : r.vis <;> simp [hv]

/-- `method_defined?` of a module: the first of its ancestors with an entry decides, when
none of them undefines the method. -/
theorem C61_method_defined_module_partial {st : St} {m name a f : Nat} {e : Entry}
    (hm : IsModule st m) {pre post : List Nat} (ha : ancestors st m = pre ++ a :: post)
    (hpre : ∀ b ∈ pre, st.entry b name = none) (he : st.entry a name = some e)
    (hf : e.func = some f) :
    methodDefined st m name = true ↔ (e.vis = .pub ∨ e.vis = .prot) := by
  unfold methodDefined methodVis
  rw [if_neg (by rw [hm.2]; simp), ha, List.findSome?_append, List.findSome?_eq_none_iff.2,
    Option.none_or, List.findSome?_cons]
  · simp only [getMethod, he, hf, Option.isSome_some, if_true]
    cases hv : e.vis <;> simp
  · intro b hb; simp [getMethod, hpre b hb]

section Examples61

def hist61 : List Op := [.newClass 1, .newClass 2, .define 2 0 7 .prot, .newClass 3]

example : Reach (after hist61) := ⟨hist61, by decide +kernel⟩
example : ancestors (after hist61) 4 = 4 :: ([3] ++ 2 :: [1, 0]) := by decide +kernel
example : ∀ x ∈ ancestors (after hist61) 4, ¬ Prepended (after hist61) x := by
  unfold Prepended; decide +kernel
example : listedWith (after hist61) 4 0 .prot = true ∧ listedWith (after hist61) 4 0 .pub = false := by
  decide +kernel

end Examples61

/-- With a prepended module the class's own entry is the one listed: a public method hidden
by a private one of a prepended module is listed as public. -/
theorem C61_prepended_fails :
    let st := after [.newClass 1, .newModule, .define 2 0 7 .pub, .define 3 0 8 .priv,
      .prepend 2 3]
    listedWith st 2 0 .pub = true ∧ listedWith st 2 0 .priv = false ∧
      (searchByClass st 2 0).map (·.vis) = some .priv := by decide +kernel

/-- Methods inherited from `Object` are not listed. -/
theorem C61_object_methods_fails :
    let st := after [.newClass 1, .define 1 0 7 .pub]
    listedWith st 2 0 .pub = false ∧ (searchByClass st 2 0).map (·.vis) = some .pub := by
  decide +kernel

/-- `M.method_defined?(:m)` is true after `undef_method(:m)` in `M` when a module `M`
includes defines it, although no instance of a class including `M` has the method. -/
theorem C61_method_defined_fails :
    let st := after [.newClass 1, .newModule, .newModule, .define 4 0 7 .pub, .include 3 4,
      .undef 3 0, .include 2 3]
    methodDefined st 3 0 = true ∧ searchByClass st 2 0 = none := by decide +kernel

/-! ### C62: the superclass of a class never changes -/

/-- No operation changes the `superclass` of an existing class or what kind it is. -/
theorem C62_superclass_stable {ops : List Op} {st st' : St} (h : Reach st) {c : Nat}
    (hc : c < st.classes.length) (he : exec st ops = some st') :
    c < st'.classes.length ∧ superclass st' c = superclass st c ∧
      (IsClass st c ↔ IsClass st' c) := by
  have key : ∀ (ops : List Op) (s : St), Heap s → c < s.classes.length → exec s ops = some st' →
      c < st'.classes.length ∧ superclass st' c = superclass s c ∧
        (st'.node (st'.obj c)).kind = (s.node (s.obj c)).kind := by
    intro ops
    induction ops with
    | nil =>
      intro s _ hs he
      simp only [exec, Option.some.injEq] at he
      subst he
      exact ⟨hs, rfl, rfl⟩
    | cons op ops ih =>
      intro s w hs he
      rw [exec] at he
      split at he
      · rename_i hop
        cases hst : step s op with
        | none => rw [hst] at he; cases he
        | some s1 =>
          rw [hst] at he
          obtain ⟨h1, h2, _, h4⟩ := step_stable w hop hst hs
          obtain ⟨k1, k2, k3⟩ := ih s1 (w.step hop hst) h1 he
          exact ⟨k1, k2.trans h2, k3.trans h4⟩
      · exact ih s w hs he
  obtain ⟨h1, h2, h3⟩ := key ops st h.heap hc he
  refine ⟨h1, h2, ?_⟩
  unfold IsClass
  rw [h3]
  exact ⟨fun h => ⟨h1, h.2⟩, fun h => ⟨hc, h.2⟩⟩

/-- A new class has the superclass it was made with. -/
theorem C62_superclass_of_new {st : St} (h : Reach st) {s : Nat} (hs : IsClass st s) :
    superclass (newClass st s false) st.classes.length = some s := by
  have w := h.heap
  have hl := w.obj_lt s hs.1
  have hp := w.chain hl
  have hp' := hp.new (sup := some (st.obj s)) (k := .cls) (sg := false)
  have hpn : Path (newModuleObj st (some (st.obj s)) .cls false) st.nodes.length
      (st.nodes.length :: st.chain (st.obj s)) :=
    .cons (by simp [newModuleObj]) (by unfold St.sup; rw [node_new_new]) hp'
  unfold newClass superclass
  rw [obj_new_new, hpn.realSuper, List.tail_cons]
  obtain ⟨t, ht⟩ := hp.head
  rw [ht, List.find?_cons]
  have : (newModuleObj st (some (st.obj s)) .cls false).isIclass (st.obj s) = false := by
    unfold St.isIclass; rw [node_new_old hl, hs.2]; rfl
  rw [this]
  simp only [Bool.not_false, Option.map_some, Option.some.injEq]
  unfold St.cid
  rw [node_new_old hl]
  exact w.obj_cid s hs.1

example : superclass (after [.newClass 1, .newModule, .newClass 2, .prepend 2 3, .include 2 3,
    .include 4 3]) 4 = some 2 := by decide +kernel

/-! ### C63: comparison -/

/-- `c < m` for a class `c` asks for `ancestors`. -/
theorem C63_class_less_than_partial {st : St} (h : Reach st) {c m : Nat} (hc : IsClass st c) :
    lessThan st c m = some true ↔ m ≠ c ∧ m ∈ ancestors st c := by
  have w := h.heap
  have hp := w.chain (w.obj_lt c hc.1)
  have key : m ≠ c → (isAncestorOf st m (st.obj c) = true ↔ m ∈ ancestors st c) := by
    intro hne
    rw [w.ancestors_class hc.1 hc.2, ← w.mem_view_path hp]
    obtain ⟨t, ht⟩ := hp.head
    unfold isAncestorOf
    rw [ht]
    simp only [List.tail_cons, List.any_eq_true, beq_iff_eq, List.mem_cons, exists_eq_or_imp,
      w.obj_cid c hc.1]
    constructor
    · exact Or.inr
    · rintro (e | h)
      · exact absurd e.symm hne
      · exact h
  unfold lessThan
  by_cases hne : m = c
  · simp [hne]
  · rw [if_neg hne]
    by_cases ha : isAncestorOf st m (st.obj c) = true
    · rw [if_pos ha]; simp [hne, (key hne).1 ha]
    · rw [if_neg ha]
      have : m ∉ ancestors st c := fun h => ha ((key hne).2 h)
      simp only [this, and_false, iff_false]
      split <;> simp

/-- So does `m < n` for a module `m`, when `n` is not an ancestor of `Object`. -/
theorem C63_module_less_than_partial {st : St} (h : Reach st) {m n : Nat} (hm : IsModule st m)
    (hn : n ∉ ancestors st OBJECT) :
    lessThan st m n = some true ↔ n ≠ m ∧ n ∈ ancestors st m := by
  have w := h.heap
  have key : n ≠ m → (isAncestorOf st n (st.obj m) = true ↔ n ∈ ancestors st m) := by
    intro hne
    unfold isAncestorOf
    simp only [List.any_eq_true, beq_iff_eq]
    constructor
    · rintro ⟨x, hx, he⟩
      rcases w.mod_chain_ids h.modsUnder hm.1 hm.2 hx with hx | hx
      · rw [he] at hx; exact hx
      · rw [he] at hx; exact absurd hx hn
    · intro ha
      rw [w.mem_seg hm.1] at ha
      obtain ⟨x, hx, he⟩ := ha
      unfold St.seg at hx
      rw [if_neg (by rw [hm.2]; simp)] at hx
      rcases List.mem_cons.1 hx with rfl | hx
      · rw [w.obj_cid m hm.1] at he; exact absurd he.symm hne
      · exact ⟨x, (List.takeWhile_sublist _).subset hx, he⟩
  unfold lessThan
  by_cases hne : n = m
  · simp [hne]
  · rw [if_neg hne]
    by_cases ha : isAncestorOf st n (st.obj m) = true
    · rw [if_pos ha]; simp [hne, (key hne).1 ha]
    · rw [if_neg ha]
      have : n ∉ ancestors st m := fun h => ha ((key hne).2 h)
      simp only [this, and_false, iff_false]
      split <;> simp

example : lessThan (after hist56) 3 4 = some true ∧ 4 ∉ ancestors (after hist56) OBJECT := by
  decide +kernel

example : lessThan (after hist56) 5 2 = some true ∧ lessThan (after hist56) 2 5 = some false := by
  decide +kernel

/-- `M < Object` is true for every module although no module has `Object` as an ancestor:
a fresh module already answers so. -/
theorem C63_module_less_than_object_fails :
    lessThan (after [.newModule]) 2 OBJECT = some true ∧
      OBJECT ∉ ancestors (after [.newModule]) 2 := by decide +kernel

/-! ### C64: changing the visibility of a method -/

theorem entry_setEntry (st : St) {c : Nat} (hc : c < st.classes.length) (name : Nat) (e : Entry)
    (a n : Nat) :
    (setEntry st c name e).entry a n = if a = c ∧ n = name then some e else st.entry a n := by
  unfold setEntry St.entry
  simp only [List.getD_eq_getElem?_getD, List.getElem?_set]
  by_cases ha : c = a
  · subst ha
    rw [if_pos rfl, if_pos hc]
    simp only [Option.getD_some, List.lookup_cons]
    by_cases hn : n = name
    · subst hn; simp
    · have : (n == name) = false := by simpa using hn
      rw [this]; simp [hn]
  · rw [if_neg ha, if_neg (fun h => ha h.1.symm)]

/-- What a lookup finds in a class after its entry for the name became `e`. -/
theorem search_setEntry {st st' : St} (h : Heap st)
    (hn : st'.nodes = st.nodes) (ho : ∀ x, st'.obj x = st.obj x) (d n : Nat)
    (he : ∀ a ∈ ancestors st d, st'.entry a n = st.entry a n) (hd : IsClass st d) :
    searchByClass st' d n = searchByClass st d n := by
  have hnd : ∀ x, st'.node x = st.node x := by intro x; simp [St.node, hn]
  have hv : ∀ l, view st' l = view st l := by
    intro l
    unfold view
    have : st'.cid = st.cid := by funext s; unfold St.cid; rw [hnd]
    simp only [St.hasOrigin, hnd, this]
  unfold searchByClass
  rw [searchMethod_eq, searchMethod_eq, chain_congr hn, ho, hv, ← h.ancestors_class hd.1 hd.2]
  exact searchIds_congr _ _ _ he

/-- `private :m` (`public`, `protected`) in a class keeps the body a call runs and gives it
the visibility; other names, and classes that do not have this one among their ancestors, are
not affected.  For a class that is the first of its ancestors (nothing prepended) and methods
that have a definition. -/
theorem C64_set_visibility_partial {ops : List Op} {st : St} (he : exec boot ops = some st)
    (hlen : ops.length < 2 ^ 32 - 2) {c name f a : Nat} (hc : IsClass st c) {rest : List Nat}
    (ha : ancestors st c = c :: rest) (hself : c ∉ rest) {pre post : List Nat}
    (hsplit : ancestors st c = pre ++ a :: post) (hpre : ∀ b ∈ pre, Passes st b name)
    (hdef : Defines st a name f) (v : Vis) :
    ∃ st', changeVisibility st c name v = (st', true) ∧
      (∃ r', searchByClass st' c name = some r' ∧ r'.func = some f ∧ r'.vis = v) ∧
      (∀ d n, IsClass st d → (c ∉ ancestors st d ∨ n ≠ name) →
        searchByClass st' d n = searchByClass st d n) := by
  have hreach : Reach st := ⟨ops, he⟩
  have w := hreach.heap
  obtain ⟨r, hr, hf, hrv⟩ := C55_calls_nearest hreach hc hsplit hpre hdef
  obtain ⟨hco, hans, hver⟩ := (boot_coherent.exec ops (by simp [boot]; omega) he).lookup
    (name := name) hc.1
  have hnodes : (lookupCached st c name).1.nodes = st.nodes := by
    unfold lookupCached; dsimp only; split <;> rfl
  have hclasses : (lookupCached st c name).1.classes = st.classes := by
    unfold lookupCached; dsimp only; split <;> rfl
  have hpair : lookupCached st c name = ((lookupCached st c name).1, some r) := by
    rw [Prod.ext_iff]; exact ⟨rfl, by rw [hans, hr]⟩
  generalize (lookupCached st c name).1 = s1 at *
  have hobj1 : ∀ x, s1.obj x = st.obj x := by intro x; unfold St.obj; rw [hclasses]
  have hent1 : ∀ a n, s1.entry a n = st.entry a n := by
    intro a n; unfold St.entry; rw [hclasses]
  have hc1 : c < s1.classes.length := by rw [hclasses]; exact hc.1
  -- what a state answers whose entry for the name became `e`
  have fin : ∀ (st' : St) (e : Entry), st'.nodes = st.nodes → (∀ x, st'.obj x = st.obj x) →
      (∀ b n, st'.entry b n = if b = c ∧ n = name then some e else st.entry b n) →
      e.vis = v → (pre = [] → e.shadow = false ∧ e.func = some f) →
      (pre ≠ [] → e.shadow = true) →
      (∃ r', searchByClass st' c name = some r' ∧ r'.func = some f ∧ r'.vis = v) ∧
      (∀ d n, IsClass st d → (c ∉ ancestors st d ∨ n ≠ name) →
        searchByClass st' d n = searchByClass st d n) := by
    intro st' e hn ho hent hev hnil hcons
    constructor
    · have hnd : ∀ x, st'.node x = st.node x := by intro x; simp [St.node, hn]
      have hv : ∀ l, view st' l = view st l := by
        intro l
        unfold view
        have : st'.cid = st.cid := by funext s; unfold St.cid; rw [hnd]
        simp only [St.hasOrigin, hnd, this]
      unfold searchByClass
      rw [searchMethod_eq, chain_congr hn, ho, hv, ← w.ancestors_class hc.1 hc.2, hsplit]
      obtain ⟨e0, he0, hs0, hf0⟩ := hdef
      cases pre with
      | nil =>
        rw [ha] at hsplit
        simp only [List.nil_append, List.cons.injEq] at hsplit
        obtain ⟨rfl, _⟩ := hsplit
        have hec : st'.entry c name = some e := by rw [hent]; simp
        obtain ⟨h1, h2⟩ := hnil rfl
        obtain ⟨r', k1, k2, k3⟩ := searchIds_def (tbl := fun b => st'.entry b name) (post := post)
          (pre := []) (by intro b hb; cases hb) hec h1 h2
        refine ⟨r', k1, k2, ?_⟩
        simp [firstEntry, hec] at k3
        rw [k3, hev]
      | cons c' pre =>
        have hsp := hsplit
        rw [ha] at hsp
        simp only [List.cons_append, List.cons.injEq] at hsp
        obtain ⟨rfl, hrest⟩ := hsp
        have hec : st'.entry c name = some e := by rw [hent]; simp
        have hac : a ≠ c := by
          rintro rfl
          apply hself
          rw [hrest]; simp
        have hea : st'.entry a name = some e0 := by rw [hent, if_neg (fun h => hac h.1)]; exact he0
        obtain ⟨r', k1, k2, k3⟩ := searchIds_def (tbl := fun b => st'.entry b name) (post := post)
          (pre := c :: pre) (by
            intro b hb e' he' hd'
            dsimp only at he'
            rw [hent] at he'
            split at he'
            · cases he'
              have := hcons (by simp)
              rw [hd'.1] at this; cases this
            · have := hpre b hb e' he'
              rw [hd'.1] at this; cases this) hea hs0 hf0
        refine ⟨r', k1, k2, ?_⟩
        simp [firstEntry, hec] at k3
        rw [k3, hev]
    · intro d n hd hor
      refine search_setEntry w hn ho d n ?_ hd
      intro b hbd
      rw [hent, if_neg]
      rintro ⟨rfl, rfl⟩
      rcases hor with h | h
      · exact h hbd
      · exact h rfl
  have hcl : ∀ e : Entry, (setEntry s1 c name e).nodes = st.nodes := fun e => hnodes
  have hob : ∀ (e : Entry) x, (setEntry s1 c name e).obj x = st.obj x := by
    intro e x; rw [obj_setEntry]; exact hobj1 x
  have hen : ∀ (e : Entry) b n, (setEntry s1 c name e).entry b n =
      if b = c ∧ n = name then some e else st.entry b n := by
    intro e b n; rw [entry_setEntry s1 hc1, hent1]
  unfold changeVisibility
  rw [hpair]
  dsimp only
  rw [hf, hent1]
  dsimp only
  cases hown : st.entry c name with
  | none =>
    dsimp only
    have hne : pre ≠ [] := by
      rintro rfl
      rw [ha] at hsplit
      simp only [List.nil_append, List.cons.injEq] at hsplit
      obtain ⟨rfl, _⟩ := hsplit
      obtain ⟨e0, he0, _⟩ := hdef
      rw [hown] at he0; cases he0
    by_cases hv : r.vis = v
    · rw [if_pos hv]
      refine ⟨s1, rfl, ⟨r, ?_, hf, hv⟩, fun d n _ _ => search_congr hnodes hclasses d n⟩
      rw [search_congr hnodes hclasses]; exact hr
    · rw [if_neg hv]
      refine ⟨_, rfl, fin _ { owner := c, func := some f, vis := v, shadow := true } ?_ ?_ ?_ rfl
        (fun h => absurd h hne) (fun _ => rfl)⟩
      · exact hnodes
      · intro x; exact (obj_setEntry (bump s1) c name _ x).trans (hobj1 x)
      · intro b n
        have := entry_setEntry (bump s1) (c := c) hc1 name
          { owner := c, func := some f, vis := v, shadow := true } b n
        rw [insertMethod, this]
        congr 1
        exact hent1 b n
  | some e =>
    dsimp only
    refine ⟨_, rfl, fin _ _ hnodes (fun x => hob _ x) (fun b n => hen _ b n) ?_ ?_ ?_⟩
    · split
      · split <;> rfl
      · rfl
    · rintro rfl
      rw [ha] at hsplit
      simp only [List.nil_append, List.cons.injEq] at hsplit
      obtain ⟨rfl, _⟩ := hsplit
      obtain ⟨e0, he0, hs0, hf0⟩ := hdef
      rw [hown] at he0
      cases he0
      simp [hs0, hf0]
    · intro hne
      have hsh : e.shadow = true := by
        cases pre with
        | nil => exact absurd rfl hne
        | cons c' pre =>
          rw [ha] at hsplit
          simp only [List.cons_append, List.cons.injEq] at hsplit
          obtain ⟨rfl, _⟩ := hsplit
          exact hpre c (by simp) e hown
      rw [if_pos hsh]
      split
      · exact hsh
      · exact hsh

example : (changeVisibility (after hist60) 3 0 .priv).2 = true := by decide +kernel
example : ancestors (after hist60) 3 = 3 :: [2, 1, 0] := by decide +kernel

/-- With a prepended module that defines the method, `private :m` in the class has no effect
on calls. -/
theorem C64_prepended_fails :
    let st := after [.newClass 1, .newModule, .define 3 0 7 .pub, .prepend 2 3]
    (changeVisibility st 2 0 .priv).2 = true ∧
      (searchByClass (changeVisibility st 2 0 .priv).1 2 0).map (·.vis) = some .pub := by
  decide +kernel

/-- `B < A` made `m` private; after `A.remove_method(:m)` no ancestor of `B` defines `m`, and
calls on `B` still run the removed body. -/
theorem C64_removed_body_fails :
    let st := after [.newClass 1, .newClass 2, .define 2 0 7 .pub, .setVis 3 0 .priv, .remove 2 0]
    (∀ a ∈ ancestors st 3, Passes st a 0) ∧ (searchByClass st 3 0).bind (·.func) = some 7 := by
  refine ⟨?_, by decide +kernel⟩
  have : ancestors (after [.newClass 1, .newClass 2, .define 2 0 7 .pub, .setVis 3 0 .priv,
    .remove 2 0]) 3 = [3, 2, 1, 0] := by decide +kernel
  intro a ha e he
  rw [this] at ha
  simp only [List.mem_cons, List.not_mem_nil, or_false] at ha
  rcases ha with rfl | rfl | rfl | rfl
  · have h : ((after [.newClass 1, .newClass 2, .define 2 0 7 .pub, .setVis 3 0 .priv,
      .remove 2 0]).entry 3 0).map (·.shadow) = some true := by decide +kernel
    rw [he] at h
    simpa using h
  all_goals
    exfalso
    revert he
    decide +revert +kernel

end Verif.Classes
