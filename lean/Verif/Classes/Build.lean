/-
Every operation keeps the heap well formed.
-/
import Verif.Classes.Heap

namespace Verif.Classes

/-! ### New cells -/

theorem node_new_old {st : St} {sup : Option Nat} {k : Kind} {sg : Bool} {x : Nat}
    (hx : x < st.nodes.length) : (newModuleObj st sup k sg).node x = st.node x := by
  simp only [St.node, newModuleObj]
  rw [List.getD_eq_getElem?_getD, List.getElem?_append_left hx, List.getD_eq_getElem?_getD]

theorem node_new_new (st : St) (sup : Option Nat) (k : Kind) (sg : Bool) :
    (newModuleObj st sup k sg).node st.nodes.length =
      { cid := st.classes.length, sup := sup, origin := none, kind := k, singleton := sg } := by
  simp [St.node, newModuleObj]

theorem obj_new_old {st : St} {sup : Option Nat} {k : Kind} {sg : Bool} {c : Nat}
    (hc : c < st.classes.length) : (newModuleObj st sup k sg).obj c = st.obj c := by
  simp only [St.obj, newModuleObj]
  rw [List.getD_eq_getElem?_getD, List.getElem?_append_left hc, List.getD_eq_getElem?_getD]

theorem obj_new_new (st : St) (sup : Option Nat) (k : Kind) (sg : Bool) :
    (newModuleObj st sup k sg).obj st.classes.length = st.nodes.length := by
  simp [St.obj, newModuleObj]

theorem entry_new_old {st : St} {sup : Option Nat} {k : Kind} {sg : Bool} {c name : Nat}
    (hc : c < st.classes.length) : (newModuleObj st sup k sg).entry c name = st.entry c name := by
  simp only [St.entry, newModuleObj]
  rw [List.getD_eq_getElem?_getD, List.getElem?_append_left hc, List.getD_eq_getElem?_getD]

theorem Path.new {st : St} {sup : Option Nat} {k : Kind} {sg : Bool} {r : Nat} {l : List Nat}
    (h : Path st r l) : Path (newModuleObj st sup k sg) r l := by
  have hlen : (newModuleObj st sup k sg).nodes.length = st.nodes.length + 1 := by
    simp [newModuleObj]
  induction h with
  | last hr hs =>
    refine .last (by omega) ?_
    unfold St.sup; rw [node_new_old hr]; exact hs
  | cons hr hs _ ih =>
    refine .cons (by omega) ?_ ih
    unfold St.sup; rw [node_new_old hr]; exact hs

theorem Heap.new {st : St} (w : Heap st) {s : Nat} {k : Kind} (sg : Bool)
    (hs : s < st.nodes.length) (hsk : (st.node s).kind = .cls) (hk : k ≠ .icls) :
    Heap (newModuleObj st (some s) k sg) := by
  have hlen : (newModuleObj st (some s) k sg).nodes.length = st.nodes.length + 1 := by
    simp [newModuleObj]
  have hcls : (newModuleObj st (some s) k sg).classes.length = st.classes.length + 1 := by
    simp [newModuleObj]
  have hnew := node_new_new st (some s) k sg
  have hold : ∀ x, x < st.nodes.length →
      (newModuleObj st (some s) k sg).node x = st.node x := fun x hx => node_new_old hx
  have split : ∀ x, x < (newModuleObj st (some s) k sg).nodes.length →
      x < st.nodes.length ∨ x = st.nodes.length := by
    intro x hx; omega
  have splitc : ∀ x, x < (newModuleObj st (some s) k sg).classes.length →
      x < st.classes.length ∨ x = st.classes.length := by
    intro x hx; omega
  refine ⟨?_, ?_, ?_, ?_, ?_, ?_, ?_, ?_, ?_, ?_⟩
  · intro r hr
    rcases split r hr with hr | rfl
    · obtain ⟨l, hl⟩ := w.path r hr
      exact ⟨l, hl.new⟩
    · obtain ⟨l, hl⟩ := w.path s hs
      exact ⟨_, .cons hr (by unfold St.sup; rw [hnew]) hl.new⟩
  · intro r t hr ht
    rcases split r hr with hr | rfl
    · unfold St.sup at ht
      rw [hold r hr] at ht
      rw [hold t (w.sup_lt hr ht)]
      exact w.supKind r t hr ht
    · unfold St.sup at ht
      rw [hnew] at ht
      cases ht
      rw [hold s hs, hsk]; simp
  · intro a b i ha hb hsa hsb hki
    have key : ∀ x, x < (newModuleObj st (some s) k sg).nodes.length →
        (newModuleObj st (some s) k sg).sup x = some i → x < st.nodes.length ∧ st.sup x = some i := by
      intro x hx hsx
      rcases split x hx with hx | rfl
      · unfold St.sup at hsx
        rw [hold x hx] at hsx
        exact ⟨hx, hsx⟩
      · unfold St.sup at hsx
        rw [hnew] at hsx
        cases hsx
        rw [hold s hs, hsk] at hki
        cases hki
    obtain ⟨ha, hsa⟩ := key a ha hsa
    obtain ⟨hb, hsb⟩ := key b hb hsb
    rw [hold i (w.sup_lt ha hsa)] at hki
    exact w.pred a b i ha hb hsa hsb hki
  · intro c hc
    rcases splitc c hc with hc | rfl
    · rw [obj_new_old hc]; have := w.obj_lt c hc; omega
    · rw [obj_new_new]; omega
  · intro c hc
    rcases splitc c hc with hc | rfl
    · rw [obj_new_old hc]; unfold St.cid; rw [hold _ (w.obj_lt c hc)]; exact w.obj_cid c hc
    · rw [obj_new_new]; unfold St.cid; rw [hnew]
  · intro c hc
    rcases splitc c hc with hc | rfl
    · rw [obj_new_old hc, hold _ (w.obj_lt c hc)]; exact w.obj_kind c hc
    · rw [obj_new_new, hnew]; exact hk
  · intro r hr
    rcases split r hr with hr | rfl
    · unfold St.cid; rw [hold r hr]; have := w.cid_lt r hr; unfold St.cid at this; omega
    · unfold St.cid; rw [hnew]; dsimp; omega
  · intro r hr hkr
    rcases split r hr with hr | rfl
    · rw [hold r hr] at hkr
      have h1 := w.cid_lt r hr
      have h2 := w.cid_obj r hr hkr
      unfold St.cid at *
      rw [hold r hr, obj_new_old h1]; exact h2
    · unfold St.cid; rw [hnew]; exact obj_new_new _ _ _ _
  · intro r o hr ho
    rcases split r hr with hr | rfl
    · rw [hold r hr] at ho
      obtain ⟨h1, h2, h3, h4, h5⟩ := w.origin r o hr ho
      obtain ⟨l, hl⟩ := w.path r hr
      have hol : o < st.nodes.length := hl.lt o (h5 l hl).mem
      unfold St.cid at *
      rw [hold r hr, hold o hol]
      refine ⟨h1, h2, h3, h4, ?_⟩
      intro l' hl'
      rw [hl'.unique hl.new]
      obtain ⟨pre, post, rfl, hk⟩ := h5 l hl
      refine ⟨pre, post, rfl, fun x hx => ?_⟩
      rw [hold x (hl.lt x (by simp [hx]))]; exact hk x hx
    · rw [hnew] at ho; cases ho
  · refine ⟨by have := w.objClass.1; omega, ?_⟩
    rw [obj_new_old w.objClass.1, hold _ (w.obj_lt _ w.objClass.1)]
    exact w.objClass.2

/-! ### States with the same heap -/

theorem Path.congr {st st' : St} {r : Nat} {l : List Nat} (hn : st'.nodes = st.nodes)
    (h : Path st r l) : Path st' r l := by
  have hs : ∀ x, st'.sup x = st.sup x := by intro x; simp [St.sup, St.node, hn]
  induction h with
  | last hr h => exact .last (by rw [hn]; exact hr) (by rw [hs]; exact h)
  | cons hr h _ ih => exact .cons (by rw [hn]; exact hr) (by rw [hs]; exact h) ih

/-- Changing method tables, the version or the cache does not touch the heap. -/
theorem Heap.congr {st st' : St} (w : Heap st) (hn : st'.nodes = st.nodes)
    (hc : st'.classes.length = st.classes.length) (ho : ∀ c, st'.obj c = st.obj c) :
    Heap st' := by
  have hnd : ∀ x, st'.node x = st.node x := by intro x; simp [St.node, hn]
  have hcid : ∀ x, st'.cid x = st.cid x := by intro x; simp [St.cid, hnd]
  have hsup : ∀ x, st'.sup x = st.sup x := by intro x; simp [St.sup, hnd]
  obtain ⟨w1, w2, w3, w4, w5, w6, w7, w8, w9, w10⟩ := w
  refine ⟨?_, ?_, ?_, ?_, ?_, ?_, ?_, ?_, ?_, ?_⟩
  · intro r hr
    rw [hn] at hr
    obtain ⟨l, hl⟩ := w1 r hr
    exact ⟨l, hl.congr hn⟩
  · simpa only [hn, hsup, hnd] using w2
  · simpa only [hn, hsup, hnd] using w3
  · simpa only [hn, hc, ho] using w4
  · simpa only [hn, hc, ho, hcid] using w5
  · simpa only [hn, hc, ho, hnd] using w6
  · simpa only [hn, hc, ho, hcid] using w7
  · simpa only [hn, hc, ho, hcid, hnd] using w8
  · intro r o hr hor
    rw [hn] at hr
    rw [hnd] at hor
    obtain ⟨h1, h2, h3, h4, h5⟩ := w9 r o hr hor
    rw [hnd, hnd, hcid, hcid]
    refine ⟨h1, h2, h3, h4, fun l hl => ?_⟩
    obtain ⟨pre, post, rfl, hk⟩ := h5 l (hl.congr hn.symm)
    exact ⟨pre, post, rfl, fun x hx => by rw [hnd]; exact hk x hx⟩
  · simpa only [hn, hc, ho, hnd] using w10

theorem Heap.bump {st : St} (w : Heap st) : Heap (bump st) := w.congr rfl rfl (fun _ => rfl)

theorem obj_set_methods (st : St) (c : Nat) (ms : List (Nat × Entry)) (x : Nat) :
    ({ st with classes := (st.classes.set c
        { st.classes.getD c noInfo with methods := ms }) } : St).obj x = st.obj x := by
  simp only [St.obj, List.getD_eq_getElem?_getD, List.getElem?_set]
  by_cases h : c = x
  · subst h
    by_cases hl : c < st.classes.length
    · simp [hl]
    · simp [hl]
  · simp [h]

theorem obj_setEntry (st : St) (c name : Nat) (e : Entry) (x : Nat) :
    (setEntry st c name e).obj x = st.obj x := obj_set_methods st c _ x

theorem Heap.setEntry {st : St} (w : Heap st) (c name : Nat) (e : Entry) :
    Heap (setEntry st c name e) :=
  w.congr rfl (by simp [Classes.setEntry]) (fun x => obj_setEntry st c name e x)

theorem Heap.insertMethod {st : St} (w : Heap st) (c name : Nat) (e : Entry) :
    Heap (insertMethod st c name e) := w.bump.setEntry c name e

theorem Heap.removeMethod {st : St} (w : Heap st) (c name : Nat) :
    Heap (removeMethod st c name).1 := by
  unfold Classes.removeMethod
  dsimp only
  split
  · exact w.bump
  · exact w.bump.congr rfl (by simp) (fun x => obj_set_methods (Classes.bump st) c _ x)

theorem lookupCached_nodes (st : St) (c name : Nat) :
    (lookupCached st c name).1.nodes = st.nodes ∧
      (lookupCached st c name).1.classes = st.classes ∧
      (lookupCached st c name).1.version = st.version := by
  unfold lookupCached
  dsimp only
  split <;> exact ⟨rfl, rfl, rfl⟩

theorem Heap.lookupCached {st : St} (w : Heap st) (c name : Nat) :
    Heap (lookupCached st c name).1 := by
  obtain ⟨h1, h2, _⟩ := lookupCached_nodes st c name
  exact w.congr h1 (by rw [h2]) (fun x => by simp [St.obj, h2])

theorem Heap.changeVisibility {st : St} (w : Heap st) (c name : Nat) (v : Vis) :
    Heap (changeVisibility st c name v).1 := by
  have wl := w.lookupCached c name
  unfold Classes.changeVisibility
  rcases hq : Classes.lookupCached st c name with ⟨st', e⟩
  rw [hq] at wl
  dsimp only at wl ⊢
  cases e with
  | none => exact wl
  | some found =>
    dsimp only
    cases found.func with
    | none => exact wl
    | some fid =>
      dsimp only
      split
      · exact (wl.setEntry c name _).bump
      · split
        · exact wl
        · exact wl.insertMethod c name _

/-! ### Growing by insertions -/

/-- `st'` comes from `st` by inserting iclasses. -/
inductive Grow : St → St → Prop
  | refl (st : St) : Grow st st
  | step {st st' : St} (h : Grow st st') (b c : Nat) (hb : b < st'.nodes.length)
      (hc : c < st'.classes.length) : Grow st (insertAfter st' b c)

theorem Grow.trans {a b c : St} (h : Grow a b) (h' : Grow b c) : Grow a c := by
  induction h' with
  | refl => exact h
  | step _ x y hx hy ih => exact .step ih x y hx hy

theorem Grow.heap {a b : St} (h : Grow a b) (w : Heap a) : Heap b := by
  induction h with
  | refl => exact w
  | step _ x y hx hy ih => exact ih.insert hx hy

theorem Grow.classes {a b : St} (h : Grow a b) : b.classes = a.classes := by
  induction h with
  | refl => rfl
  | step _ x y hx hy ih => rw [← ih]; rfl

theorem Grow.version {a b : St} (h : Grow a b) : b.version = a.version := by
  induction h with
  | refl => rfl
  | step _ x y hx hy ih => rw [← ih]; rfl

theorem Grow.cache {a b : St} (h : Grow a b) : b.cache = a.cache := by
  induction h with
  | refl => rfl
  | step _ x y hx hy ih => rw [← ih]; rfl

theorem Grow.le {a b : St} (h : Grow a b) : a.nodes.length ≤ b.nodes.length := by
  induction h with
  | refl => exact Nat.le_refl _
  | step _ x y hx hy ih => rw [nodes_insert]; omega

/-- Nothing but the superclass pointer of an old cell changes. -/
theorem Grow.node {a b : St} (h : Grow a b) :
    ∀ x, x < a.nodes.length →
      (b.node x).cid = (a.node x).cid ∧ (b.node x).kind = (a.node x).kind ∧
      (b.node x).origin = (a.node x).origin ∧ (b.node x).singleton = (a.node x).singleton := by
  induction h with
  | refl => intro x _; exact ⟨rfl, rfl, rfl, rfl⟩
  | step hg bb c hx hy ih =>
    intro x hx'
    have hlt := Nat.lt_of_lt_of_le hx' hg.le
    obtain ⟨h1, h2, h3, h4⟩ := ih x hx'
    exact ⟨by have := cid_insert (b := bb) (c := c) hlt; unfold St.cid at this; rw [this, h1],
      by rw [kind_insert hlt, h2], by rw [origin_insert hlt, h3], by rw [singleton_insert hlt, h4]⟩

/-- New cells are iclasses without an origin. -/
theorem Grow.fresh {a b : St} (h : Grow a b) :
    ∀ x, a.nodes.length ≤ x → x < b.nodes.length →
      (b.node x).kind = .icls ∧ (b.node x).origin = none := by
  induction h with
  | refl => intro x h1 h2; omega
  | @step hg hgr bb c hb hc ih =>
    intro x h1 h2
    rw [nodes_insert] at h2
    by_cases hx : x < hg.nodes.length
    · obtain ⟨h3, h4⟩ := ih x h1 hx
      exact ⟨by rw [kind_insert hx, h3], by rw [origin_insert hx, h4]⟩
    · have : x = hg.nodes.length := by omega
      subst this
      rw [node_insert_new]
      exact ⟨rfl, rfl⟩

/-- The old path is kept in order, new cells go between. -/
theorem Grow.path {a b : St} (h : Grow a b) {r : Nat} {l : List Nat} (hp : Path a r l) :
    ∃ l', Path b r l' ∧ l.Sublist l' := by
  induction h with
  | refl => exact ⟨l, hp, List.Sublist.refl _⟩
  | step hg bb c hb hc ih =>
    obtain ⟨l', hl', hs⟩ := ih
    refine ⟨_, hl'.insert bb c, hs.trans ?_⟩
    clear hl' hs
    induction l' with
    | nil => simp [ins]
    | cons x l' ih' =>
      by_cases hx : x = bb
      · subst hx
        rw [ins_cons_self]
        exact (ih'.cons _).cons₂ _
      · rw [ins_cons_ne _ _ hx]
        exact ih'.cons₂ _

/-! ### include and prepend -/

theorem mixLoop_grow {self : Nat} {fp : Bool} : ∀ (n : Nat) {st : St} {base m : Nat} {st' : St},
    Heap st → base < st.nodes.length → m < st.nodes.length →
    mixLoop self fp n st base m = .ok st' → Grow st st'
  | 0, st, base, m, st', _, _, _, h => by simp [mixLoop] at h
  | n + 1, st, base, m, st', w, hb, hm, h => by
    rw [mixLoop] at h
    generalize hpr : (if fp = true then isAncestorBeforeOrigin st (st.cid m) self
      else isAncestorOf st (st.cid m) self) = pr at h
    generalize hst : (if pr = true then st else insertAfter st base (st.cid m)) = st1 at h
    have g : Grow st st1 := by
      subst hst
      split
      · exact .refl _
      · exact .step (.refl _) _ _ hb (w.cid_lt m hm)
    have w1 := g.heap w
    have hb1 := Nat.lt_of_lt_of_le hb g.le
    have hm1 := Nat.lt_of_lt_of_le hm g.le
    split at h
    · cases h
    · rename_i b hsb
      split at h
      · rename_i s hss
        split at h
        · exact g.trans (mixLoop_grow n w1 (w1.sup_lt hb1 hsb) (w1.sup_lt hm1 hss) h)
        · cases h; exact g
      · cases h; exact g

theorem includeOrPrepend_cyclic {st st' : St} {self m : Nat} {fp : Bool}
    (h : includeOrPrepend st self m fp = .cyclic st') : st' = st := by
  have hml : ∀ n st base m s, mixLoop self fp n st base m ≠ .cyclic s := by
    intro n
    induction n with
    | zero => intro st base m s h; simp [mixLoop] at h
    | succ n ih =>
      intro st base m s h
      rw [mixLoop] at h
      generalize (if (if fp = true then isAncestorBeforeOrigin st (st.cid m) self
        else isAncestorOf st (st.cid m) self) = true then st else insertAfter st base (st.cid m)) = st1 at h
      split at h
      · cases h
      · split at h
        · split at h
          · exact ih _ _ _ _ h
          · cases h
        · cases h
  unfold includeOrPrepend at h
  split at h
  · cases h; rfl
  · dsimp only at h
    split at h
    · split at h
      · split at h
        · exact absurd h (hml _ _ _ _ _)
        · cases h
      · cases h
    · exact absurd h (hml _ _ _ _ _)

theorem includeOrPrepend_grow {st st' : St} {self m : Nat} {fp : Bool} (w : Heap st)
    (hs : self < st.nodes.length) (hm : m < st.nodes.length)
    (h : includeOrPrepend st self m fp = .ok st') : Grow (bump st) st' := by
  unfold includeOrPrepend at h
  split at h
  · cases h
  · dsimp only at h
    split at h
    · split at h
      · rename_i s hss
        split at h
        · exact mixLoop_grow _ w.bump hs (w.bump.sup_lt hm hss) h
        · cases h; exact .refl _
      · cases h; exact .refl _
    · exact mixLoop_grow _ w.bump hs hm h

/-- Setting the origin of a cell. -/
def setOrigin (st : St) (r o : Nat) : St :=
  { st with nodes := st.nodes.set r { st.node r with origin := some o } }

theorem node_setOrigin_other {st : St} {r o x : Nat} (h : x ≠ r) :
    (setOrigin st r o).node x = st.node x := by
  simp only [St.node, setOrigin, List.getD_eq_getElem?_getD]
  rw [List.getElem?_set_ne (Ne.symm h)]

theorem node_setOrigin_self {st : St} {r : Nat} (o : Nat) (h : r < st.nodes.length) :
    (setOrigin st r o).node r = { st.node r with origin := some o } := by
  conv_lhs => simp only [St.node, setOrigin, List.getD_eq_getElem?_getD]
  rw [List.getElem?_set_self h]; rfl

theorem makeOrigin_eq {st : St} {self : Nat} (h : st.hasOrigin self = false) :
    makeOrigin st self = setOrigin (insertAfter st self (st.cid self)) self st.nodes.length := by
  unfold makeOrigin
  rw [h]; rfl

theorem makeOrigin_has {st : St} {self : Nat} (h : st.hasOrigin self = true) :
    makeOrigin st self = st := by
  unfold makeOrigin
  rw [h]; rfl

theorem sup_setOrigin {st : St} {r o : Nat} (hr : r < st.nodes.length) (x : Nat) :
    (setOrigin st r o).sup x = st.sup x := by
  unfold St.sup
  by_cases h : x = r
  · subst h; rw [node_setOrigin_self o hr]
  · rw [node_setOrigin_other h]

theorem cid_setOrigin {st : St} {r o : Nat} (hr : r < st.nodes.length) (x : Nat) :
    (setOrigin st r o).cid x = st.cid x := by
  unfold St.cid
  by_cases h : x = r
  · subst h; rw [node_setOrigin_self o hr]
  · rw [node_setOrigin_other h]

theorem kind_setOrigin {st : St} {r o : Nat} (hr : r < st.nodes.length) (x : Nat) :
    ((setOrigin st r o).node x).kind = (st.node x).kind := by
  by_cases h : x = r
  · subst h; rw [node_setOrigin_self o hr]
  · rw [node_setOrigin_other h]

theorem singleton_setOrigin {st : St} {r o : Nat} (hr : r < st.nodes.length) (x : Nat) :
    ((setOrigin st r o).node x).singleton = (st.node x).singleton := by
  by_cases h : x = r
  · subst h; rw [node_setOrigin_self o hr]
  · rw [node_setOrigin_other h]

theorem nodes_setOrigin (st : St) (r o : Nat) :
    (setOrigin st r o).nodes.length = st.nodes.length := by simp [setOrigin]

theorem Path.setOrigin {st : St} {r o x : Nat} {l : List Nat} (hr : r < st.nodes.length)
    (h : Path st x l) : Path (setOrigin st r o) x l := by
  induction h with
  | last hx hs => exact .last (by rw [nodes_setOrigin]; exact hx) (by rw [sup_setOrigin hr]; exact hs)
  | cons hx hs _ ih =>
    exact .cons (by rw [nodes_setOrigin]; exact hx) (by rw [sup_setOrigin hr]; exact hs) ih

theorem Path.ofSetOrigin {st : St} {r o x : Nat} {l : List Nat} (hr : r < st.nodes.length)
    (h : Path (Classes.setOrigin st r o) x l) : Path st x l := by
  induction h with
  | last hx hs => exact .last (by rw [nodes_setOrigin] at hx; exact hx) (by rw [sup_setOrigin hr] at hs; exact hs)
  | cons hx hs _ ih =>
    exact .cons (by rw [nodes_setOrigin] at hx; exact hx) (by rw [sup_setOrigin hr] at hs; exact hs) ih

theorem Heap.setOrigin {st : St} (w : Heap st) {r o : Nat} (hr : r < st.nodes.length)
    (h1 : (st.node r).kind ≠ .icls) (h2 : o ≠ r) (h3 : (st.node o).kind = .icls)
    (h4 : st.cid o = st.cid r) (h5 : ∀ l, Path st r l → Ahead st r o l) : Heap (setOrigin st r o) := by
  have hn := nodes_setOrigin st r o
  have hobj : ∀ c, (Classes.setOrigin st r o).obj c = st.obj c := fun _ => rfl
  have hc : (Classes.setOrigin st r o).classes = st.classes := rfl
  obtain ⟨w1, w2, w3, w4, w5, w6, w7, w8, w9, w10⟩ := w
  refine ⟨?_, ?_, ?_, ?_, ?_, ?_, ?_, ?_, ?_, ?_⟩
  · intro x hx
    rw [hn] at hx
    obtain ⟨l, hl⟩ := w1 x hx
    exact ⟨l, hl.setOrigin hr⟩
  · simpa only [hn, sup_setOrigin hr, kind_setOrigin hr] using w2
  · simpa only [hn, sup_setOrigin hr, kind_setOrigin hr] using w3
  · simpa only [hn, hobj, hc] using w4
  · simpa only [hn, hobj, hc, cid_setOrigin hr] using w5
  · simpa only [hn, hobj, hc, kind_setOrigin hr] using w6
  · simpa only [hn, hobj, hc, cid_setOrigin hr] using w7
  · simpa only [hn, hobj, hc, cid_setOrigin hr, kind_setOrigin hr] using w8
  · intro x o' hx ho'
    rw [hn] at hx
    rw [kind_setOrigin hr, kind_setOrigin hr, cid_setOrigin hr, cid_setOrigin hr]
    by_cases hxr : x = r
    · subst hxr
      rw [node_setOrigin_self o hr] at ho'
      cases ho'
      refine ⟨h1, h2, h3, h4, fun l hl => ?_⟩
      obtain ⟨pre, post, rfl, hk⟩ := h5 l (hl.ofSetOrigin hr)
      exact ⟨pre, post, rfl, fun y hy => by rw [kind_setOrigin hr]; exact hk y hy⟩
    · rw [node_setOrigin_other hxr] at ho'
      obtain ⟨k1, k2, k3, k4, k5⟩ := w9 x o' hx ho'
      refine ⟨k1, k2, k3, k4, fun l hl => ?_⟩
      obtain ⟨pre, post, rfl, hk⟩ := k5 l (hl.ofSetOrigin hr)
      exact ⟨pre, post, rfl, fun y hy => by rw [kind_setOrigin hr]; exact hk y hy⟩
  · simpa only [hn, hobj, hc, kind_setOrigin hr] using w10

theorem Heap.makeOrigin {st : St} (w : Heap st) {self : Nat} (hs : self < st.nodes.length)
    (hk : (st.node self).kind ≠ .icls) : Heap (makeOrigin st self) := by
  cases ho : st.hasOrigin self with
  | true => rw [makeOrigin_has ho]; exact w
  | false =>
    rw [makeOrigin_eq ho]
    have wi := w.insert hs (w.cid_lt self hs)
    refine wi.setOrigin (by rw [nodes_insert]; omega) ?_ (by omega) ?_ ?_ ?_
    · rw [kind_insert hs]; exact hk
    · rw [node_insert_new]
    · rw [cid_insert hs]; unfold St.cid; rw [node_insert_new]
    · intro l hl
      obtain ⟨l0, hl0⟩ := w.path self hs
      rw [hl.unique (hl0.insert self _)]
      obtain ⟨t, rfl⟩ := hl0.head
      rw [ins_cons_self]
      exact ⟨[], _, rfl, by simp⟩

theorem makeOrigin_nodes {st : St} {self : Nat} :
    st.nodes.length ≤ (makeOrigin st self).nodes.length := by
  cases ho : st.hasOrigin self with
  | true => rw [makeOrigin_has ho]; exact Nat.le_refl _
  | false => rw [makeOrigin_eq ho, nodes_setOrigin, nodes_insert]; omega

theorem makeOrigin_rest (st : St) (self : Nat) :
    (makeOrigin st self).classes = st.classes ∧ (makeOrigin st self).version = st.version ∧
      (makeOrigin st self).cache = st.cache := by
  cases ho : st.hasOrigin self with
  | true => rw [makeOrigin_has ho]; exact ⟨rfl, rfl, rfl⟩
  | false => rw [makeOrigin_eq ho]; exact ⟨rfl, rfl, rfl⟩

theorem findSplice_mem {st : St} {a b : Nat} {o : Option Nat} {p : Nat} :
    ∀ {l : List Nat} {prev : Nat} {seen : Bool}, findSplice st a b o prev seen l = some p →
      p = prev ∨ p ∈ l
  | [], prev, seen, h => by simp [findSplice] at h
  | x :: l, prev, seen, h => by
    rw [findSplice] at h
    split at h
    · split at h
      · cases h
      · cases h; exact Or.inl rfl
    · split at h
      · cases h
      · rcases findSplice_mem h with rfl | h
        · exact Or.inr (by simp)
        · exact Or.inr (by simp [h])

theorem propagateOne_grow {st : St} (w : Heap st) {a b cand : Nat}
    (hc : cand < st.nodes.length) (hb : b < st.classes.length) :
    Grow st (propagateOne a b st cand) := by
  unfold propagateOne
  split
  · rename_i p hp
    refine .step (.refl _) _ _ ?_ hb
    have hl := w.chain hc
    rcases findSplice_mem hp with rfl | h
    · exact hc
    · exact hl.lt _ (List.mem_of_mem_tail h)
  · exact .refl _

theorem foldl_propagate_grow {a b : Nat} : ∀ (cs : List Nat) {st : St}, Heap st →
    (∀ c ∈ cs, c < st.nodes.length) → b < st.classes.length →
    Grow st (cs.foldl (propagateOne a b) st)
  | [], st, _, _, _ => .refl _
  | c :: cs, st, w, hc, hb => by
    have g := propagateOne_grow (a := a) (b := b) w (hc c (by simp)) hb
    refine g.trans (foldl_propagate_grow cs (g.heap w) ?_ (by rw [g.classes]; exact hb))
    intro x hx
    exact Nat.lt_of_lt_of_le (hc x (by simp [hx])) g.le

theorem candidates_lt {st : St} (w : Heap st) {a x : Nat} (h : x ∈ candidates st a) :
    x < st.nodes.length := by
  simp only [candidates, List.mem_filter, List.mem_map] at h
  obtain ⟨⟨i, hi, rfl⟩, _⟩ := h
  obtain ⟨c, hc, rfl⟩ := List.getElem_of_mem hi
  have := w.obj_lt c hc
  simpa [St.obj, List.getD_eq_getElem?_getD, List.getElem?_eq_getElem hc] using this

theorem propagatePrepend_grow {st : St} (w : Heap st) {a b : Nat} (hb : b < st.classes.length) :
    Grow st (propagatePrepend st a b) :=
  foldl_propagate_grow _ w (fun _ h => candidates_lt w h) hb

/-- What a `prepend` leaves behind: the origin, and insertions. -/
theorem prependModule_grow {st st' : St} (w : Heap st) {c m : Nat} (hc : c < st.classes.length)
    (hm : m < st.classes.length) (h : prependModule st c m = .ok st') :
    Grow (bump (makeOrigin st (st.obj c))) st' := by
  unfold prependModule at h
  have hoc := w.obj_lt c hc
  have hom := w.obj_lt m hm
  have wo := w.makeOrigin hoc (w.obj_kind c hc)
  have hle := makeOrigin_nodes (st := st) (self := st.obj c)
  split at h
  · rename_i st1 h1
    cases h
    have g := includeOrPrepend_grow wo (Nat.lt_of_lt_of_le hoc hle) (Nat.lt_of_lt_of_le hom hle) h1
    refine g.trans (propagatePrepend_grow (g.heap wo.bump) ?_)
    rw [g.classes]
    show m < (makeOrigin st (st.obj c)).classes.length
    rw [(makeOrigin_rest _ _).1]; exact hm
  · rename_i hne
    exact absurd h (hne _)

theorem prependModule_cyclic {st st' : St} {c m : Nat} (h : prependModule st c m = .cyclic st') :
    st' = makeOrigin st (st.obj c) := by
  unfold prependModule at h
  split at h
  · cases h
  · exact includeOrPrepend_cyclic h

theorem Heap.step {st st' : St} (w : Heap st) {op : Op} (hv : op.valid st = true)
    (h : step st op = some st') : Heap st' := by
  cases op with
  | newClass s =>
    simp only [Op.valid, Bool.and_eq_true, decide_eq_true_eq, beq_iff_eq] at hv
    cases h
    exact w.new false (w.obj_lt s hv.1) hv.2 (by simp)
  | newSingleton s =>
    simp only [Op.valid, Bool.and_eq_true, decide_eq_true_eq, beq_iff_eq] at hv
    cases h
    exact w.new true (w.obj_lt s hv.1) hv.2 (by simp)
  | newModule =>
    cases h
    exact w.new false (w.obj_lt _ w.objClass.1) w.objClass.2 (by simp)
  | «include» c m =>
    simp only [Op.valid, Bool.and_eq_true, decide_eq_true_eq, beq_iff_eq] at hv
    rw [Classes.step] at h
    split at h
    · rename_i st1 h1
      cases h
      exact (includeOrPrepend_grow w (w.obj_lt c hv.1.1) (w.obj_lt m hv.1.2) h1).heap w.bump
    · rename_i st1 h1
      cases h
      rw [includeOrPrepend_cyclic h1]; exact w
    · cases h
  | prepend c m =>
    simp only [Op.valid, Bool.and_eq_true, decide_eq_true_eq, beq_iff_eq] at hv
    have wo := w.makeOrigin (w.obj_lt c hv.1.1) (w.obj_kind c hv.1.1)
    rw [Classes.step] at h
    split at h
    · rename_i st1 h1
      cases h
      exact (prependModule_grow w hv.1.1 hv.1.2 h1).heap wo.bump
    · rename_i st1 h1
      cases h
      rw [prependModule_cyclic h1]; exact wo
    · cases h
  | define c name f v => cases h; exact w.insertMethod _ _ _
  | undef c name => cases h; exact w.insertMethod _ _ _
  | remove c name => cases h; exact w.removeMethod _ _
  | setVis c name v => cases h; exact w.changeVisibility _ _ _
  | lookup c name => cases h; exact w.lookupCached _ _

theorem boot_heap : Heap boot := by
  have h0 : Path boot 0 [0] := .last (by decide) (by decide)
  have h1 : Path boot 1 [1, 0] := .cons (by decide) (by decide) h0
  have two : ∀ r, r < boot.nodes.length → r = 0 ∨ r = 1 := by
    intro r hr; have : boot.nodes.length = 2 := rfl; omega
  have twoc : ∀ r, r < boot.classes.length → r = 0 ∨ r = 1 := by
    intro r hr; have : boot.classes.length = 2 := rfl; omega
  refine ⟨?_, ?_, ?_, ?_, ?_, ?_, ?_, ?_, ?_, by decide⟩
  · intro r hr
    rcases two r hr with rfl | rfl
    exacts [⟨_, h0⟩, ⟨_, h1⟩]
  · intro r s hr hs
    rcases two r hr with rfl | rfl
    · cases hs
    · cases hs; decide
  · intro a b i ha hb hsa hsb hk
    rcases two a ha with rfl | rfl
    · cases hsa
    · rcases two b hb with rfl | rfl
      · cases hsb
      · rfl
  all_goals
    first
    | (intro r hr; rcases two r hr with rfl | rfl <;> decide)
    | (intro r hr; rcases twoc r hr with rfl | rfl <;> decide)
    | (intro r o hr ho; rcases two r hr with rfl | rfl <;> cases ho)

theorem exec_heap : ∀ (ops : List Op) {st st' : St}, Heap st → exec st ops = some st' → Heap st'
  | [], st, st', w, h => by cases h; exact w
  | op :: ops, st, st', w, h => by
    rw [exec] at h
    split at h
    · rename_i hv
      split at h
      · rename_i st1 h1
        exact exec_heap ops (w.step hv h1) h
      · cases h
    · exact exec_heap ops w h

theorem Reach.heap {st : St} (h : Reach st) : Heap st := by
  obtain ⟨ops, h⟩ := h
  exact exec_heap ops boot_heap h

end Verif.Classes
