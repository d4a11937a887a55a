/-
What no operation changes, and the superclass of a module.
-/
import Verif.Classes.Changes

namespace Verif.Classes

/-- One operation keeps every class, its kind and its superclass. -/
theorem step_stable {st st' : St} (w : Heap st) {op : Op} (hop : op.valid st = true)
    (hst : step st op = some st') {c : Nat} (hc : c < st.classes.length) :
    c < st'.classes.length ∧ superclass st' c = superclass st c ∧
      st'.obj c = st.obj c ∧ (st'.node (st'.obj c)).kind = (st.node (st.obj c)).kind := by
  have hl := w.obj_lt c hc
  have new : ∀ (s : Option Nat) (k : Kind) (sg : Bool),
      c < (newModuleObj st s k sg).classes.length ∧
      superclass (newModuleObj st s k sg) c = superclass st c ∧
      (newModuleObj st s k sg).obj c = st.obj c ∧
      ((newModuleObj st s k sg).node ((newModuleObj st s k sg).obj c)).kind =
        (st.node (st.obj c)).kind := by
    intro s k sg
    refine ⟨by simp [newModuleObj]; omega, superclass_new w hc, obj_new_old hc, ?_⟩
    rw [obj_new_old hc, node_new_old hl]
  have same : ∀ s : St, s.nodes = st.nodes → (∀ x, s.obj x = st.obj x) →
      s.classes.length = st.classes.length → c < s.classes.length ∧
      superclass s c = superclass st c ∧ s.obj c = st.obj c ∧
      (s.node (s.obj c)).kind = (st.node (st.obj c)).kind := by
    intro s hn ho hcl
    refine ⟨by omega, superclass_congr hn ho c, ho c, ?_⟩
    rw [ho]; simp [St.node, hn]
  have grow : ∀ {a s : St}, Grow a s → Heap a → c < a.classes.length → a.obj c < a.nodes.length →
      c < s.classes.length ∧ superclass s c = superclass a c ∧ s.obj c = a.obj c ∧
      (s.node (s.obj c)).kind = (a.node (a.obj c)).kind := by
    intro a s g wa hca hla
    exact ⟨by rw [g.classes]; exact hca, g.superclass wa hca, g.obj c,
      by rw [g.obj, (g.node _ hla).2.1]⟩
  have origin : ∀ r, r < st.nodes.length → c < (makeOrigin st r).classes.length ∧
      superclass (makeOrigin st r) c = superclass st c ∧ (makeOrigin st r).obj c = st.obj c ∧
      ((makeOrigin st r).node ((makeOrigin st r).obj c)).kind = (st.node (st.obj c)).kind := by
    intro r hr
    refine ⟨by rw [(makeOrigin_rest st r).1]; exact hc, superclass_makeOrigin w hr hc,
      obj_makeOrigin _ _ _, ?_⟩
    rw [obj_makeOrigin, makeOrigin_kind hr hl]
  cases op with
  | newClass s =>
    simp only [step, Option.some.injEq] at hst
    subst hst
    exact new _ _ _
  | newSingleton s =>
    simp only [step, Option.some.injEq] at hst
    subst hst
    exact new _ _ _
  | newModule =>
    simp only [step, Option.some.injEq] at hst
    subst hst
    exact new _ _ _
  | «include» a m =>
    simp [Op.valid] at hop
    simp only [step] at hst
    split at hst
    · rename_i s hs
      cases hst
      have g := includeOrPrepend_grow w (w.obj_lt a hop.1.1) (w.obj_lt m hop.1.2) hs
      obtain ⟨h1, h2, h3, h4⟩ := grow g w.bump hc hl
      exact ⟨h1, h2.trans (superclass_congr (st := st) (st' := bump st) rfl (fun _ => rfl) c), h3, h4⟩
    · rename_i s hs
      cases hst
      have := includeOrPrepend_cyclic hs
      subst this
      exact ⟨hc, rfl, rfl, rfl⟩
    · cases hst
  | prepend a m =>
    simp [Op.valid] at hop
    have hal := w.obj_lt a hop.1.1
    obtain ⟨o1, o2, o3, o4⟩ := origin _ hal
    simp only [step] at hst
    split at hst
    · rename_i s hs
      cases hst
      have g := prependModule_grow w hop.1.1 hop.1.2 hs
      have w0 := w.makeOrigin hal (w.obj_kind a hop.1.1)
      obtain ⟨h1, h2, h3, h4⟩ := grow g w0.bump o1 (w0.obj_lt c o1)
      refine ⟨h1, ?_, h3.trans o3, h4.trans o4⟩
      rw [h2, superclass_congr (st := makeOrigin st (st.obj a))
        (st' := bump (makeOrigin st (st.obj a))) rfl (fun _ => rfl) c, o2]
    · rename_i s hs
      cases hst
      have := prependModule_cyclic hs
      subst this
      exact ⟨o1, o2, o3, o4⟩
    · cases hst
  | define a name f v =>
    simp only [step, Option.some.injEq] at hst
    subst hst
    exact same _ rfl (fun x => obj_setEntry (bump st) a name _ x)
      (by simp [addMethod, insertMethod, setEntry, bump])
  | undef a name =>
    simp only [step, Option.some.injEq] at hst
    subst hst
    exact same _ rfl (fun x => obj_setEntry (bump st) a name _ x)
      (by simp [undefMethod, insertMethod, setEntry, bump])
  | remove a name =>
    simp only [step, Option.some.injEq] at hst
    subst hst
    obtain ⟨h1, h2, h3⟩ := removeMethod_same st a name
    exact same _ h1 h2 h3
  | setVis a name v =>
    simp only [step, Option.some.injEq] at hst
    subst hst
    obtain ⟨h1, h2, h3⟩ := changeVisibility_same st a name v
    exact same _ h1 h2 h3
  | lookup a name =>
    simp only [step, Option.some.injEq] at hst
    subst hst
    obtain ⟨h1, h2, _⟩ := lookupCached_nodes st a name
    exact same _ h1 (fun x => by unfold St.obj; rw [h2]) (by rw [h2])

/-- Behind a module there is `Object`. -/
def ModsUnderObject (st : St) : Prop :=
  ∀ m, m < st.classes.length → (st.node (st.obj m)).kind = .mod → superclass st m = some OBJECT

theorem modsUnder_new {st : St} (w : Heap st) (h : ModsUnderObject st) {s : Option Nat} {k : Kind}
    {sg : Bool} (hk : k = .mod → s = some (st.obj OBJECT)) :
    ModsUnderObject (newModuleObj st s k sg) := by
  intro m hm hmk
  by_cases hlt : m < st.classes.length
  · rw [superclass_new w hlt]
    apply h m hlt
    rw [obj_new_old hlt, node_new_old (w.obj_lt m hlt)] at hmk
    exact hmk
  · have : m = st.classes.length := by simp [newModuleObj] at hm; omega
    subst this
    rw [obj_new_new, node_new_new] at hmk
    have hs := hk hmk
    subst hs
    obtain ⟨ho, hok⟩ := w.objClass
    have hol := w.obj_lt OBJECT ho
    have hp := w.chain hol
    have hp' := hp.new (sup := some (st.obj OBJECT)) (k := k) (sg := sg)
    have hpn : Path (newModuleObj st (some (st.obj OBJECT)) k sg) st.nodes.length
        (st.nodes.length :: st.chain (st.obj OBJECT)) :=
      .cons (by simp [newModuleObj]) (by unfold St.sup; rw [node_new_new]) hp'
    unfold superclass
    rw [obj_new_new, hpn.realSuper, List.tail_cons]
    obtain ⟨t, ht⟩ := hp.head
    rw [ht, List.find?_cons]
    have : (newModuleObj st (some (st.obj OBJECT)) k sg).isIclass (st.obj OBJECT) = false := by
      unfold St.isIclass; rw [node_new_old hol, hok]; rfl
    rw [this]
    simp only [Bool.not_false, Option.map_some, Option.some.injEq]
    unfold St.cid
    rw [node_new_old hol]
    exact w.obj_cid OBJECT ho

theorem exec_modsUnder : ∀ (ops : List Op) {st st' : St}, Heap st → ModsUnderObject st →
    exec st ops = some st' → ModsUnderObject st'
  | [], st, st', _, h, he => by simp [exec] at he; subst he; exact h
  | op :: ops, st, st', w, h, he => by
    rw [exec] at he
    split at he
    · rename_i hop
      split at he
      · rename_i s hs
        refine exec_modsUnder ops (w.step hop hs) ?_ he
        by_cases hnew : ∃ sp k sg, s = newModuleObj st sp k sg ∧
            (k = .mod → sp = some (st.obj OBJECT))
        · obtain ⟨sp, k, sg, rfl, hk⟩ := hnew
          exact modsUnder_new w h hk
        · have hlen : s.classes.length = st.classes.length := by
            have ws := w.step hop hs
            cases op with
            | newClass s0 =>
              simp only [step, Option.some.injEq] at hs
              exact absurd ⟨_, _, _, hs.symm, by intro h; cases h⟩ hnew
            | newSingleton s0 =>
              simp only [step, Option.some.injEq] at hs
              exact absurd ⟨_, _, _, hs.symm, by intro h; cases h⟩ hnew
            | newModule =>
              simp only [step, Option.some.injEq] at hs
              exact absurd ⟨_, _, _, hs.symm, by intro _; rfl⟩ hnew
            | «include» a m =>
              simp [Op.valid] at hop
              simp only [step] at hs
              split at hs
              · rename_i s' hs'
                cases hs
                rw [(includeOrPrepend_grow w (w.obj_lt a hop.1.1) (w.obj_lt m hop.1.2) hs').classes]
                rfl
              · rename_i s' hs'
                cases hs
                rw [includeOrPrepend_cyclic hs']
              · cases hs
            | prepend a m =>
              simp [Op.valid] at hop
              simp only [step] at hs
              split at hs
              · rename_i s' hs'
                cases hs
                rw [(prependModule_grow w hop.1.1 hop.1.2 hs').classes]
                show (makeOrigin st (st.obj a)).classes.length = _
                rw [(makeOrigin_rest _ _).1]
              · rename_i s' hs'
                cases hs
                rw [prependModule_cyclic hs', (makeOrigin_rest _ _).1]
              · cases hs
            | define a name f v =>
              simp only [step, Option.some.injEq] at hs
              subst hs
              simp [addMethod, insertMethod, setEntry, bump]
            | undef a name =>
              simp only [step, Option.some.injEq] at hs
              subst hs
              simp [undefMethod, insertMethod, setEntry, bump]
            | remove a name =>
              simp only [step, Option.some.injEq] at hs
              subst hs
              exact (removeMethod_same st a name).2.2
            | setVis a name v =>
              simp only [step, Option.some.injEq] at hs
              subst hs
              exact (changeVisibility_same st a name v).2.2
            | lookup a name =>
              simp only [step, Option.some.injEq] at hs
              subst hs
              rw [(lookupCached_nodes st a name).2.1]
          intro m hm hk
          rw [hlen] at hm
          obtain ⟨_, h2, _, h4⟩ := step_stable w hop hs hm
          rw [h2]
          exact h m hm (by rw [← h4]; exact hk)
      · cases he
    · exact exec_modsUnder ops w h he

theorem Reach.modsUnder {st : St} (h : Reach st) : ModsUnderObject st := by
  obtain ⟨ops, he⟩ := h
  refine exec_modsUnder ops boot_heap ?_ he
  intro m hm hk
  have hm' : m = 0 ∨ m = 1 := by simp [boot] at hm; omega
  rcases hm' with rfl | rfl <;> simp [boot, St.node, St.obj] at hk

/-- The ids behind a module are those of its ancestors and of `Object`'s. -/
theorem Heap.mod_chain_ids {st : St} (w : Heap st) (hu : ModsUnderObject st) {c x : Nat}
    (hc : c < st.classes.length) (hk : (st.node (st.obj c)).kind = .mod)
    (hx : x ∈ (st.chain (st.obj c)).tail) :
    st.cid x ∈ ancestors st c ∨ st.cid x ∈ ancestors st OBJECT := by
  have hl := w.obj_lt c hc
  have hp := w.chain hl
  obtain ⟨t, ht⟩ := hp.head
  rw [ht, List.tail_cons] at hx
  rw [ht] at hp
  have hsup := hu c hc hk
  unfold superclass at hsup
  rw [hp.realSuper, List.tail_cons] at hsup
  have hnm : ∀ y ∈ t, (st.node y).kind ≠ .mod := by
    intro y hy hyk
    rcases hp.pred y (by simp [hy]) with e | ⟨q, hq, hqs⟩
    · have := hp.nodup; subst e; simp [hy] at this
    · exact w.supKind q y (hp.lt q hq) hqs hyk
  by_cases htw : x ∈ t.takeWhile (fun s => (st.node s).kind != .cls)
  · left
    rw [w.mem_seg hc]
    refine ⟨x, ?_, rfl⟩
    unfold St.seg
    rw [if_neg (by rw [hk]; simp), hp.chain]
    simp [htw]
  · right
    -- the first class behind the module is `Object`
    have key : ∀ t : List Nat, (∀ y ∈ t, (st.node y).kind ≠ .mod) → x ∈ t →
        x ∉ t.takeWhile (fun s => (st.node s).kind != .cls) →
        ∃ pre r post, t = pre ++ r :: post ∧ x ∈ r :: post ∧ (st.node r).kind = .cls ∧
          t.find? (fun s => !st.isIclass s) = some r := by
      intro t
      induction t with
      | nil => intro _ h; cases h
      | cons y t ih =>
        intro hnm hx htw
        by_cases hy : (st.node y).kind = .cls
        · exact ⟨[], y, t, rfl, hx, hy, by rw [List.find?_cons]; simp only [St.isIclass, hy]; rfl⟩
        · rw [List.takeWhile_cons, if_pos (by simpa using hy)] at htw
          have hyi : (st.node y).kind = .icls := by
            cases h : (st.node y).kind with
            | cls => exact absurd h hy
            | mod => exact absurd h (hnm y (by simp))
            | icls => rfl
          have hxt : x ∈ t := by
            rcases List.mem_cons.1 hx with rfl | h
            · simp at htw
            · exact h
          obtain ⟨pre, r, post, rfl, h2, h3, h4⟩ := ih (fun z hz => hnm z (by simp [hz])) hxt
            (fun h => htw (by simp [h]))
          refine ⟨y :: pre, r, post, rfl, h2, h3, ?_⟩
          rw [List.find?_cons]
          simp only [St.isIclass, hyi]
          exact h4
    obtain ⟨pre, r, post, rfl, h2, h3, h4⟩ := key t hnm hx htw
    rw [h4] at hsup
    simp only [Option.map_some, Option.some.injEq] at hsup
    have hrl : r < st.nodes.length := hp.lt r (by simp)
    have hro : st.obj OBJECT = r := by
      rw [← hsup]; exact w.cid_obj r hrl (by rw [h3]; simp)
    have hpr : Path st r (r :: post) := by
      have : st.obj c :: (pre ++ r :: post) = (st.obj c :: pre) ++ r :: post := rfl
      rw [this] at hp
      exact hp.split
    rw [w.mem_seg w.objClass.1]
    refine ⟨x, ?_, rfl⟩
    unfold St.seg
    rw [if_pos w.objClass.2, hro, hpr.chain]
    exact h2

end Verif.Classes
