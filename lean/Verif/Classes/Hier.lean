/-
Superclasses, sublists of ancestors, the cyclic check.
-/
import Verif.Classes.Prepend

namespace Verif.Classes

/-! ### Views under insertions -/

theorem Grow.view {a b : St} (g : Grow a b) {l : List Nat} (hl : ∀ x ∈ l, x < a.nodes.length) :
    view b l = view a l := by
  induction l with
  | nil => rfl
  | cons x l ih =>
    have hx := g.node x (hl x (by simp))
    rw [view_cons, view_cons, ih (fun y hy => hl y (by simp [hy]))]
    unfold St.hasOrigin St.cid
    rw [hx.1, hx.2.2.1]

theorem Grow.obj {a b : St} (g : Grow a b) (c : Nat) : b.obj c = a.obj c := by
  unfold St.obj; rw [g.classes]

theorem Grow.entry {a b : St} (g : Grow a b) (c n : Nat) : b.entry c n = a.entry c n := by
  unfold St.entry; rw [g.classes]

theorem view_sublist {st : St} {l l' : List Nat} (h : l.Sublist l') :
    (view st l).Sublist (view st l') := (h.filter _).map _

/-- Insertions only add to the ancestors of a class. -/
theorem Grow.ancestors {a b : St} (g : Grow a b) (w : Heap a) {d : Nat}
    (hd : d < a.classes.length) (hk : (a.node (a.obj d)).kind = .cls) :
    (Classes.ancestors a d).Sublist (Classes.ancestors b d) := by
  have hdl := w.obj_lt d hd
  have wb := g.heap w
  rw [w.ancestors_class hd hk, wb.ancestors_class (by rw [g.classes]; exact hd)
    (by rw [g.obj, (g.node _ hdl).2.1]; exact hk), g.obj]
  have hp := w.chain hdl
  obtain ⟨l', hl', hs⟩ := g.path hp
  rw [hl'.chain, ← g.view hp.lt]
  exact view_sublist hs

theorem chain_congr {st st' : St} (hn : st'.nodes = st.nodes) (r : Nat) :
    st'.chain r = st.chain r := by
  have hs : ∀ x, st'.sup x = st.sup x := by intro x; simp [St.sup, St.node, hn]
  have hch : ∀ n r, st'.chainF n r = st.chainF n r := by
    intro n
    induction n with
    | zero => intro r; rfl
    | succ n ih =>
      intro r
      rw [St.chainF, St.chainF, hs]
      cases st.sup r with
      | none => rfl
      | some s => simp [ih]
  unfold St.chain
  rw [hn, hch]

theorem ancestors_congr {st st' : St} (hn : st'.nodes = st.nodes)
    (ho : ∀ c, st'.obj c = st.obj c) (d : Nat) : ancestors st' d = ancestors st d := by
  have hnd : ∀ x, st'.node x = st.node x := by intro x; simp [St.node, hn]
  unfold ancestors
  dsimp only
  rw [ho, chain_congr hn]
  simp only [St.hasOrigin, St.isIclass, hnd]
  have : st'.cid = st.cid := by funext s; unfold St.cid; rw [hnd]
  rw [this]
  congr

theorem ancestors_bump (st : St) (d : Nat) : ancestors (bump st) d = ancestors st d :=
  ancestors_congr (st := st) (st' := bump st) rfl (fun _ => rfl) d

/-! ### The superclass -/

/-- The first cell behind `r` that is not an iclass. -/
theorem Path.realSuper {st : St} {r : Nat} {l : List Nat} (h : Path st r l) :
    Classes.realSuper st r = l.tail.find? fun s => !st.isIclass s := by
  unfold Classes.realSuper; rw [h.chain]

theorem find_ins {st : St} {b c : Nat} : ∀ {l : List Nat}, (∀ x ∈ l, x < st.nodes.length) →
    (ins b st.nodes.length l).find? (fun s => !(insertAfter st b c).isIclass s) =
      l.find? fun s => !st.isIclass s
  | [], _ => rfl
  | x :: l, hl => by
    have ih := find_ins (b := b) (c := c) (l := l) (fun y hy => hl y (by simp [hy]))
    have hx := hl x (by simp)
    have hnew : (insertAfter st b c).isIclass st.nodes.length = true := by
      unfold St.isIclass; rw [node_insert_new]; rfl
    by_cases hxb : x = b
    · subst hxb
      rw [ins_cons_self, List.find?_cons, List.find?_cons, List.find?_cons, isIclass_insert hx, hnew,
        ih]
      rfl
    · rw [ins_cons_ne _ _ hxb, List.find?_cons, List.find?_cons, isIclass_insert hx, ih]

theorem tail_ins {b new x : Nat} {l : List Nat} :
    (ins b new (x :: l)).tail = (if x = b then [new] else []) ++ ins b new l := by
  by_cases h : x = b
  · subst h; rw [ins_cons_self]; simp
  · rw [ins_cons_ne _ _ h]; simp [h]

theorem realSuper_insert {st : St} (w : Heap st) {b c r : Nat} (hr : r < st.nodes.length) :
    realSuper (insertAfter st b c) r = realSuper st r := by
  have hp := w.chain hr
  obtain ⟨t, ht⟩ := hp.head
  rw [ht] at hp
  rw [hp.realSuper, (hp.insert b c).realSuper, tail_ins, List.tail_cons]
  have htl : ∀ x ∈ t, x < st.nodes.length := fun x hx => hp.lt x (by simp [hx])
  have hnew : (insertAfter st b c).isIclass st.nodes.length = true := by
    unfold St.isIclass; rw [node_insert_new]; rfl
  rw [List.find?_append, find_ins htl]
  split
  · rw [List.find?_cons, hnew]; simp
  · simp

theorem Grow.realSuper {a b : St} (g : Grow a b) (w : Heap a) {r : Nat}
    (hr : r < a.nodes.length) : Classes.realSuper b r = Classes.realSuper a r := by
  induction g with
  | refl => rfl
  | step g x y hx hy ih =>
    rw [realSuper_insert (g.heap w) (Nat.lt_of_lt_of_le hr g.le), ih]

theorem realSuper_lt {st : St} (w : Heap st) {r s : Nat} (hr : r < st.nodes.length)
    (h : realSuper st r = some s) : s < st.nodes.length ∧ (st.node s).kind ≠ .icls ∧
      s ∈ (st.chain r).tail := by
  unfold realSuper at h
  have hm := List.mem_of_find?_eq_some h
  have hp := List.find?_some h
  refine ⟨(w.chain hr).lt s (List.mem_of_mem_tail hm), ?_, hm⟩
  simpa [St.isIclass] using hp

theorem Grow.superclass {a b : St} (g : Grow a b) (w : Heap a) {c : Nat}
    (hc : c < a.classes.length) : Classes.superclass b c = Classes.superclass a c := by
  have hl := w.obj_lt c hc
  unfold Classes.superclass
  rw [g.obj, g.realSuper w hl]
  cases h : Classes.realSuper a (a.obj c) with
  | none => rfl
  | some s =>
    have := (realSuper_lt w hl h).1
    simp only [Option.map_some, Option.some.injEq]
    exact (g.node s this).1

theorem superclass_makeOrigin {st : St} (w : Heap st) {self c : Nat}
    (hs : self < st.nodes.length) (hc : c < st.classes.length) :
    superclass (makeOrigin st self) c = superclass st c := by
  cases ho : st.hasOrigin self with
  | true => rw [makeOrigin_has ho]
  | false =>
    rw [makeOrigin_eq ho]
    have hi : self < (insertAfter st self (st.cid self)).nodes.length := by
      rw [nodes_insert]; omega
    have g : Grow st (insertAfter st self (st.cid self)) :=
      .step (.refl _) _ _ hs (w.cid_lt self hs)
    rw [← g.superclass w hc]
    have wi := g.heap w
    have hp := wi.chain (wi.obj_lt c (by rw [g.classes]; exact hc))
    have hic : ∀ x, (setOrigin (insertAfter st self (st.cid self)) self st.nodes.length).isIclass x =
        (insertAfter st self (st.cid self)).isIclass x := by
      intro x; unfold St.isIclass; rw [kind_setOrigin hi]
    unfold superclass
    have hobj : (setOrigin (insertAfter st self (st.cid self)) self st.nodes.length).obj c =
        (insertAfter st self (st.cid self)).obj c := rfl
    rw [hobj, hp.realSuper, (hp.setOrigin (o := st.nodes.length) hi).realSuper]
    simp only [hic]
    cases List.find? _ _ with
    | none => rfl
    | some s => simp only [Option.map_some]; rw [cid_setOrigin hi]

theorem superclass_new {st : St} (w : Heap st) {s : Option Nat} {k : Kind} {sg : Bool} {c : Nat}
    (hc : c < st.classes.length) : superclass (newModuleObj st s k sg) c = superclass st c := by
  have hp := w.chain (w.obj_lt c hc)
  unfold superclass
  rw [obj_new_old hc, hp.realSuper, (hp.new (sup := s) (k := k) (sg := sg)).realSuper]
  have hl : ∀ x ∈ (st.chain (st.obj c)).tail, x < st.nodes.length :=
    fun x hx => hp.lt x (List.mem_of_mem_tail hx)
  revert hl
  generalize (st.chain (st.obj c)).tail = t
  intro hl
  induction t with
  | nil => rfl
  | cons x t ih =>
    have hx := node_new_old (sup := s) (k := k) (sg := sg) (hl x (by simp))
    rw [List.find?_cons, List.find?_cons]
    have hi : (newModuleObj st s k sg).isIclass x = st.isIclass x := by
      unfold St.isIclass; rw [hx]
    rw [hi]
    split
    · simp only [Option.map_some]; unfold St.cid; rw [hx]
    · exact ih (fun y hy => hl y (by simp [hy]))

/-- Nothing the class table or the method tables hold matters to `superclass`. -/
theorem superclass_congr {st st' : St} (hn : st'.nodes = st.nodes)
    (ho : ∀ c, st'.obj c = st.obj c) (c : Nat) : superclass st' c = superclass st c := by
  have hnd : ∀ x, st'.node x = st.node x := by intro x; simp [St.node, hn]
  unfold superclass realSuper
  rw [ho, chain_congr hn]
  have : (fun s => !st'.isIclass s) = fun s => !st.isIclass s := by
    funext s; unfold St.isIclass; rw [hnd]
  rw [this]
  have : st'.cid = st.cid := by funext s; unfold St.cid; rw [hnd]
  rw [this]

theorem changeVisibility_same (st : St) (c name : Nat) (v : Vis) :
    (changeVisibility st c name v).1.nodes = st.nodes ∧
      (∀ x, (changeVisibility st c name v).1.obj x = st.obj x) ∧
      (changeVisibility st c name v).1.classes.length = st.classes.length := by
  obtain ⟨h1, h2, h3⟩ := lookupCached_nodes st c name
  unfold changeVisibility
  rcases hq : lookupCached st c name with ⟨st1, e⟩
  rw [hq] at h1 h2 h3
  dsimp only at h1 h2 h3 ⊢
  have hobj : ∀ x, st1.obj x = st.obj x := by intro x; unfold St.obj; rw [h2]
  cases e with
  | none => exact ⟨h1, hobj, by rw [h2]⟩
  | some found =>
    dsimp only
    cases found.func with
    | none => exact ⟨h1, hobj, by rw [h2]⟩
    | some fid =>
      dsimp only
      cases st1.entry c name with
      | some e =>
        refine ⟨h1, fun x => ?_, by simp [bump, setEntry, h2]⟩
        exact (obj_setEntry st1 c name _ x).trans (hobj x)
      | none =>
        dsimp only
        split
        · exact ⟨h1, hobj, by rw [h2]⟩
        · refine ⟨h1, fun x => ?_, by simp [insertMethod, bump, setEntry, h2]⟩
          exact (obj_setEntry (bump st1) c name _ x).trans (hobj x)

theorem removeMethod_same (st : St) (c name : Nat) :
    (removeMethod st c name).1.nodes = st.nodes ∧
      (∀ x, (removeMethod st c name).1.obj x = st.obj x) ∧
      (removeMethod st c name).1.classes.length = st.classes.length := by
  unfold removeMethod
  dsimp only
  split
  · exact ⟨rfl, fun _ => rfl, rfl⟩
  · exact ⟨rfl, fun x => obj_set_methods (bump st) c _ x, by simp [bump]⟩

/-! ### The ancestors of the superclass -/

/-- A class's ancestors end in its superclass's. -/
theorem Heap.superclass_tail {st : St} (w : Heap st) {c s : Nat} (hc : c < st.classes.length)
    (hk : (st.node (st.obj c)).kind = .cls) (h : superclass st c = some s) :
    s < st.classes.length ∧ (st.node (st.obj s)).kind = .cls ∧ st.obj s ∈ st.chain (st.obj c) ∧
      ∃ pre, ancestors st c = pre ++ ancestors st s := by
  have hl := w.obj_lt c hc
  unfold superclass at h
  cases hr : realSuper st (st.obj c) with
  | none => rw [hr] at h; cases h
  | some r =>
    rw [hr] at h
    simp only [Option.map_some, Option.some.injEq] at h
    obtain ⟨h1, h2, h3⟩ := realSuper_lt w hl hr
    have hs : s < st.classes.length := by rw [← h]; exact w.cid_lt r h1
    have hobj : st.obj s = r := by rw [← h]; exact w.cid_obj r h1 h2
    have hp := w.chain hl
    have hkr : (st.node r).kind = .cls := by
      obtain ⟨t, ht⟩ := hp.head
      rw [ht] at hp
      have hrt : r ∈ t := by rw [ht] at h3; exact h3
      rcases hp.pred r (by simp [hrt]) with e | ⟨y, hy, hys⟩
      · have hn := hp.nodup
        subst e
        simp [hrt] at hn
      · have := w.supKind y r (hp.lt y hy) hys
        cases hk' : (st.node r).kind with
        | cls => rfl
        | mod => exact absurd hk' this
        | icls => exact absurd hk' h2
    have hmem : r ∈ st.chain (st.obj c) := List.mem_of_mem_tail h3
    refine ⟨hs, by rw [hobj]; exact hkr, by rw [hobj]; exact hmem, ?_⟩
    rw [w.ancestors_class hc hk, w.ancestors_class hs (by rw [hobj]; exact hkr), hobj]
    obtain ⟨pre, post, hl', hq⟩ := hp.drop r hmem
    refine ⟨view st pre, ?_⟩
    conv_lhs => rw [hl']
    rw [view_append, hq.chain]

/-- `d` is `c` or a descendant of `c`, going by `superclass`. -/
inductive Below (st : St) : Nat → Nat → Prop
  | refl (c : Nat) : Below st c c
  | step {d e c : Nat} (h : superclass st d = some e) (hb : Below st e c) : Below st d c

theorem Heap.below_tail {st : St} (w : Heap st) {d c : Nat} (hb : Below st d c)
    (hd : d < st.classes.length) (hk : (st.node (st.obj d)).kind = .cls) :
    ∃ pre, ancestors st d = pre ++ ancestors st c := by
  induction hb with
  | refl => exact ⟨[], rfl⟩
  | step h hb ih =>
    obtain ⟨h1, h2, _, pre, hpre⟩ := w.superclass_tail hd hk h
    obtain ⟨pre', hpre'⟩ := ih h1 h2
    exact ⟨pre ++ pre', by rw [hpre, hpre', List.append_assoc]⟩

/-! ### The cyclic check -/

/-- The origin of a rendered cell is rendered. -/
theorem Heap.origin_mem_seg {st : St} (w : Heap st) {r : Nat} (hl : r < st.nodes.length)
    {x o : Nat} (hx : x ∈ st.seg r) (hxl : x < st.nodes.length)
    (ho : (st.node x).origin = some o) : o ∈ st.seg r := by
  obtain ⟨h1, h2, h3, h4, h5⟩ := w.origin x o hxl ho
  -- walk from `x` to its origin inside the segment
  obtain ⟨pre, post, hpath, hpre⟩ := h5 _ (w.chain hxl)
  have hall : ∀ y ∈ pre ++ [o], y ∈ st.seg r := by
    have hp := w.chain hxl
    rw [hpath] at hp
    have hi : ∀ y ∈ pre ++ [o], st.isIclass y = true := by
      intro y hy
      rcases List.mem_append.1 hy with hy | hy
      · simp [St.isIclass, hpre y hy]
      · simp at hy; subst hy; simp [St.isIclass, h3]
    have hp' : Path st x (x :: (pre ++ [o]) ++ post) := by simpa using hp
    clear hp hpre hpath h5 h4 h2 h3 h1 ho
    generalize pre ++ [o] = q at hp' hi ⊢
    induction q generalizing x with
    | nil => intro y hy; cases hy
    | cons z q ih =>
      simp only [List.cons_append] at hp'
      cases hp' with
      | cons _ hs hq =>
        obtain ⟨t, ht⟩ := hq.head
        simp at ht
        obtain ⟨rfl, -⟩ := ht
        have hz := w.seg_step hl hx hs (hi z (by simp))
        intro y hy
        rcases List.mem_cons.1 hy with rfl | hy
        · exact hz
        · exact ih hz (hq.lt z (by simp)) (by simpa using hq)
            (fun y hy => hi y (by simp [hy])) y hy
  exact hall o (by simp)

theorem Heap.seg_lt {st : St} (w : Heap st) {r x : Nat} (hl : r < st.nodes.length)
    (hx : x ∈ st.seg r) : x < st.nodes.length := by
  unfold St.seg at hx
  split at hx
  · exact (w.chain hl).lt x hx
  · rcases List.mem_cons.1 hx with rfl | hx
    · exact hl
    · exact (w.chain hl).lt x (List.mem_of_mem_tail ((List.takeWhile_sublist _).subset hx))

/-- The ids met in the cells `ancestors` renders. -/
theorem Heap.mem_seg {st : St} (w : Heap st) {m : Nat} (hm : m < st.classes.length) (c : Nat) :
    c ∈ ancestors st m ↔ ∃ x ∈ st.seg (st.obj m), st.cid x = c := by
  have hl := w.obj_lt m hm
  rw [w.ancestors_eq hm, mem_view]
  constructor
  · rintro ⟨x, hx, _, he⟩; exact ⟨x, hx, he⟩
  · rintro ⟨x, hx, he⟩
    cases ho : (st.node x).origin with
    | none => exact ⟨x, hx, by simp [St.hasOrigin, ho], he⟩
    | some o =>
      have hxl := w.seg_lt hl hx
      obtain ⟨h1, h2, h3, h4, h5⟩ := w.origin x o hxl ho
      have hom := w.origin_mem_seg hl hx hxl ho
      exact ⟨o, hom, w.iclass_no_origin (w.seg_lt hl hom) h3, by rw [h4]; exact he⟩

/-- The cyclic check asks whether the receiver is among the module's ancestors. -/
theorem Heap.checkCyclic_iff {st : St} (w : Heap st) {c m : Nat} (hc : c < st.classes.length)
    (hm : m < st.classes.length) (hk : (st.node (st.obj m)).kind = .mod) :
    checkCyclic st (st.obj c) (st.obj m) = true ↔ c ∈ ancestors st m := by
  rw [w.mem_seg hm]
  unfold checkCyclic St.seg
  rw [w.obj_cid c hc, w.obj_cid m hm, if_neg (by rw [hk]; simp)]
  simp only [Bool.or_eq_true, beq_iff_eq, List.any_eq_true]
  constructor
  · rintro (h | ⟨x, hx, he⟩)
    · exact ⟨st.obj m, by simp, by rw [w.obj_cid m hm]; exact h⟩
    · exact ⟨x, by simp [hx], he⟩
  · rintro ⟨x, hx, he⟩
    rcases List.mem_cons.1 hx with rfl | hx
    · left; rw [w.obj_cid m hm] at he; exact he
    · exact Or.inr ⟨x, hx, he⟩

end Verif.Classes
