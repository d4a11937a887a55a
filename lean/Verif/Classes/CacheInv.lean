/-
The global method cache holds the answers of the current hierarchy.
-/
import Verif.Classes.Hier

namespace Verif.Classes

/-- The cache, when it is of the current version, answers as a lookup does. -/
structure Coherent (st : St) : Prop where
  heap : Heap st
  le : st.cache.version ≤ st.version
  map : st.cache.version = st.version → ∀ n c e, st.cache.map.lookup (n, c) = some e →
    c < st.classes.length ∧ e = searchByClass st c n

theorem searchIds_congr {t t' : Nat → Option Entry} : ∀ (l : List Nat) (v : Option Vis)
    (s : Option Entry), (∀ a ∈ l, t a = t' a) → searchIds t v s l = searchIds t' v s l
  | [], v, s, _ => by cases s <;> rfl
  | a :: l, v, s, h => by
    rw [searchIds, searchIds, h a (by simp)]
    cases t' a with
    | none => exact searchIds_congr l v s (fun b hb => h b (by simp [hb]))
    | some e =>
      dsimp only
      split
      · exact searchIds_congr l _ _ (fun b hb => h b (by simp [hb]))
      · cases e.func with
        | some f => rfl
        | none =>
          dsimp only
          split
          · rfl
          · exact searchIds_congr l _ _ (fun b hb => h b (by simp [hb]))

theorem search_congr {st st' : St} (hn : st'.nodes = st.nodes) (hc : st'.classes = st.classes)
    (c name : Nat) : searchByClass st' c name = searchByClass st c name := by
  unfold searchByClass
  rw [searchMethod_eq, searchMethod_eq, chain_congr hn]
  have ho : st'.obj c = st.obj c := by unfold St.obj; rw [hc]
  have he : (fun a => st'.entry a name) = fun a => st.entry a name := by
    funext a; unfold St.entry; rw [hc]
  have hv : ∀ l, view st' l = view st l := by
    intro l
    have hnd : ∀ x, st'.node x = st.node x := by intro x; simp [St.node, hn]
    unfold view
    simp only [St.hasOrigin, hnd]
    have : st'.cid = st.cid := by funext s; unfold St.cid; rw [hnd]
    rw [this]
  rw [ho, he, hv]

theorem view_new {st : St} {s : Option Nat} {k : Kind} {sg : Bool} : ∀ {l : List Nat},
    (∀ x ∈ l, x < st.nodes.length) → view (newModuleObj st s k sg) l = view st l
  | [], _ => rfl
  | x :: l, h => by
    have hx := node_new_old (sup := s) (k := k) (sg := sg) (h x (by simp))
    rw [view_cons, view_cons, view_new (fun y hy => h y (by simp [hy]))]
    unfold St.hasOrigin St.cid
    rw [hx]

theorem search_new {st : St} (w : Heap st) {s : Option Nat} {k : Kind} {sg : Bool} {c name : Nat}
    (hc : c < st.classes.length) :
    searchByClass (newModuleObj st s k sg) c name = searchByClass st c name := by
  have hp := w.chain (w.obj_lt c hc)
  unfold searchByClass
  rw [searchMethod_eq, searchMethod_eq, obj_new_old hc,
    (hp.new (sup := s) (k := k) (sg := sg)).chain, view_new hp.lt]
  apply searchIds_congr
  intro a ha
  rw [mem_view] at ha
  obtain ⟨x, hx, _, rfl⟩ := ha
  exact entry_new_old (w.cid_lt x (hp.lt x hx))

theorem search_makeOrigin {st : St} (w : Heap st) {self c name : Nat}
    (hs : self < st.nodes.length) (hc : c < st.classes.length) :
    searchByClass (makeOrigin st self) c name = searchByClass st c name := by
  unfold searchByClass
  have : (makeOrigin st self).obj c = st.obj c := by
    unfold St.obj; rw [(makeOrigin_rest st self).1]
  rw [this, searchMethod_makeOrigin w hs (w.obj_lt c hc)]

theorem Coherent.lookup {st : St} (h : Coherent st) {c name : Nat} (hc : c < st.classes.length) :
    Coherent (lookupCached st c name).1 ∧
      (lookupCached st c name).2 = searchByClass st c name ∧
      (lookupCached st c name).1.cache.version = st.version := by
  obtain ⟨h1, h2, h3⟩ := lookupCached_nodes st c name
  have hs := search_congr h1 h2
  have w := h.heap.lookupCached c name
  revert hs w h1 h2 h3
  unfold lookupCached
  dsimp only
  by_cases hv : st.cache.version = st.version
  · rw [if_neg (not_not.2 hv)]
    cases hl : st.cache.map.lookup (name, c) with
    | some e =>
      intro h1 h2 h3 hs w
      exact ⟨⟨w, h.le, fun hv n c e he => by
        have := h.map hv n c e he
        rw [hs]; exact this⟩, (h.map hv name c e hl).2, hv⟩
    | none =>
      intro h1 h2 h3 hs w
      refine ⟨⟨w, Nat.le_refl _, fun _ n c' e he => ?_⟩, rfl, rfl⟩
      dsimp only at he ⊢
      rw [hs]
      rw [List.lookup_cons] at he
      by_cases hk : ((n, c') == (name, c)) = true
      · rw [hk] at he
        simp at hk he
        obtain ⟨rfl, rfl⟩ := hk
        exact ⟨hc, he.symm⟩
      · simp only [Bool.not_eq_true] at hk
        rw [hk] at he
        exact h.map hv n c' e he
  · rw [if_pos hv]
    simp only [List.lookup_nil]
    intro h1 h2 h3 hs w
    refine ⟨⟨w, Nat.le_refl _, fun _ n c' e he => ?_⟩, by trivial, by trivial⟩
    dsimp only at he ⊢
    rw [hs]
    rw [List.lookup_cons] at he
    by_cases hk : ((n, c') == (name, c)) = true
    · rw [hk] at he
      simp at hk he
      obtain ⟨rfl, rfl⟩ := hk
      exact ⟨hc, he.symm⟩
    · simp only [Bool.not_eq_true] at hk
      rw [hk] at he
      simp at he

/-- A step that raised the version leaves nothing of the cache current. -/
theorem Coherent.bumped {st st' : St} (h : Coherent st) (w : Heap st')
    (hv : st'.version = st.version + 1) (hc : st'.cache = st.cache) : Coherent st' := by
  refine ⟨w, by rw [hc, hv]; have := h.le; omega, fun he => ?_⟩
  rw [hc, hv] at he
  have := h.le
  omega

theorem bump_version {st : St} (h : st.version + 1 < 2 ^ 32) :
    (bump st).version = st.version + 1 := Nat.mod_eq_of_lt h

theorem Coherent.step {st st' : St} (h : Coherent st) (hv : st.version + 1 < 2 ^ 32) (op : Op)
    (hop : op.valid st = true) (hst : step st op = some st') :
    Coherent st' ∧ st'.version ≤ st.version + 1 := by
  have w := h.heap
  have w' := w.step hop hst
  have hb := bump_version hv
  cases op with
  | newClass s =>
    simp only [Classes.step, Option.some.injEq] at hst
    subst hst
    exact ⟨⟨w', h.le, fun he n c e hl => by
      obtain ⟨h1, h2⟩ := h.map he n c e hl
      exact ⟨by simp [newClass, newModuleObj]; omega, by rw [h2]; exact (search_new w h1).symm⟩⟩,
      Nat.le_succ _⟩
  | newSingleton s =>
    simp only [Classes.step, Option.some.injEq] at hst
    subst hst
    exact ⟨⟨w', h.le, fun he n c e hl => by
      obtain ⟨h1, h2⟩ := h.map he n c e hl
      exact ⟨by simp [newClass, newModuleObj]; omega, by rw [h2]; exact (search_new w h1).symm⟩⟩,
      Nat.le_succ _⟩
  | newModule =>
    simp only [Classes.step, Option.some.injEq] at hst
    subst hst
    exact ⟨⟨w', h.le, fun he n c e hl => by
      obtain ⟨h1, h2⟩ := h.map he n c e hl
      exact ⟨by simp [newModule, newModuleObj]; omega, by rw [h2]; exact (search_new w h1).symm⟩⟩,
      Nat.le_succ _⟩
  | «include» c m =>
    simp [Op.valid] at hop
    simp only [Classes.step] at hst
    split at hst
    · rename_i s hs
      cases hst
      have g := includeOrPrepend_grow w (w.obj_lt c hop.1.1) (w.obj_lt m hop.1.2) hs
      have hgv := g.version
      exact ⟨h.bumped w' (by rw [hgv, hb]) g.cache, by rw [hgv, hb]; exact Nat.le_refl _⟩
    · rename_i s hs
      cases hst
      have := includeOrPrepend_cyclic hs
      subst this
      exact ⟨h, Nat.le_succ _⟩
    · cases hst
  | prepend c m =>
    simp [Op.valid] at hop
    have hrest := makeOrigin_rest st (st.obj c)
    simp only [Classes.step] at hst
    split at hst
    · rename_i s hs
      cases hst
      have g := prependModule_grow w hop.1.1 hop.1.2 hs
      have hgv : st'.version = st.version + 1 := by
        rw [g.version]
        show ((makeOrigin st (st.obj c)).version + 1) % 2 ^ 32 = _
        rw [hrest.2.1]; exact hb
      exact ⟨h.bumped w' hgv (by rw [g.cache]; exact hrest.2.2), by rw [hgv]; exact Nat.le_refl _⟩
    · rename_i s hs
      cases hst
      have := prependModule_cyclic hs
      subst this
      refine ⟨⟨w', by rw [hrest.2.1, hrest.2.2]; exact h.le, fun he n c' e hl => ?_⟩,
        by rw [hrest.2.1]; exact Nat.le_succ _⟩
      rw [hrest.2.1, hrest.2.2] at he
      rw [hrest.2.2] at hl
      obtain ⟨h1, h2⟩ := h.map he n c' e hl
      exact ⟨by rw [hrest.1]; exact h1,
        by rw [h2]; exact (search_makeOrigin w (w.obj_lt c hop.1.1) h1).symm⟩
    · cases hst
  | define c name f v =>
    simp only [Classes.step, Option.some.injEq] at hst
    subst hst
    exact ⟨h.bumped w' hb rfl, Nat.le_of_eq hb⟩
  | undef c name =>
    simp only [Classes.step, Option.some.injEq] at hst
    subst hst
    exact ⟨h.bumped w' hb rfl, Nat.le_of_eq hb⟩
  | remove c name =>
    simp only [Classes.step, Option.some.injEq] at hst
    subst hst
    have : (removeMethod st c name).1.version = (bump st).version ∧
        (removeMethod st c name).1.cache = st.cache := by
      unfold removeMethod
      dsimp only
      split <;> exact ⟨rfl, rfl⟩
    exact ⟨h.bumped w' (by rw [this.1, hb]) this.2, by rw [this.1, hb]; exact Nat.le_refl _⟩
  | setVis c name v =>
    simp [Op.valid] at hop
    simp only [Classes.step, Option.some.injEq] at hst
    subst hst
    obtain ⟨hl, _, _⟩ := h.lookup (name := name) hop.1
    obtain ⟨_, _, h3⟩ := lookupCached_nodes st c name
    revert w'
    unfold changeVisibility
    rcases hq : lookupCached st c name with ⟨st1, e⟩
    rw [hq] at hl h3
    dsimp only at hl h3 ⊢
    have hb1 : (bump st1).version = st1.version + 1 := bump_version (by rw [h3]; exact hv)
    cases e with
    | none => intro _; exact ⟨hl, by rw [h3]; exact Nat.le_succ _⟩
    | some found =>
      dsimp only
      cases found.func with
      | none => intro _; exact ⟨hl, by rw [h3]; exact Nat.le_succ _⟩
      | some fid =>
        dsimp only
        cases st1.entry c name with
        | some e =>
          intro w'
          exact ⟨hl.bumped w' hb1 rfl, by
            rw [← h3]; exact Nat.le_of_eq hb1⟩
        | none =>
          dsimp only
          split
          · intro _; exact ⟨hl, by rw [h3]; exact Nat.le_succ _⟩
          · intro w'
            exact ⟨hl.bumped w' hb1 rfl, by
              rw [← h3]; exact Nat.le_of_eq hb1⟩
  | lookup c name =>
    simp [Op.valid] at hop
    simp only [Classes.step, Option.some.injEq] at hst
    subst hst
    exact ⟨(h.lookup hop).1, by rw [(lookupCached_nodes st c name).2.2]; exact Nat.le_succ _⟩

theorem Coherent.exec : ∀ (ops : List Op) {st st' : St}, Coherent st →
    st.version + ops.length < 2 ^ 32 → exec st ops = some st' → Coherent st'
  | [], st, st', h, _, he => by
    simp [Classes.exec] at he
    subst he
    exact h
  | op :: ops, st, st', h, hv, he => by
    rw [Classes.exec] at he
    simp at hv
    split at he
    · rename_i hop
      split at he
      · rename_i s hs
        obtain ⟨h1, h2⟩ := h.step (by omega) op hop hs
        exact Coherent.exec ops h1 (by omega) he
      · cases he
    · exact Coherent.exec ops h (by omega) he

theorem boot_coherent : Coherent boot := by
  refine ⟨boot_heap, by decide, fun h => ?_⟩
  simp [boot] at h

end Verif.Classes
