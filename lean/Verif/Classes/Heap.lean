/-
Paths through the superclass pointers, and what inserting a cell does to them.
-/
import Verif.Classes.Model
import Mathlib.Data.List.Perm.Subperm
import Mathlib.Data.List.Nodup
import Mathlib.Tactic.Tauto

namespace Verif.Classes

/-- `l` is the whole list of cells met from `r` on. -/
inductive Path (st : St) : Nat → List Nat → Prop
  | last {r : Nat} (h : r < st.nodes.length) (hs : st.sup r = none) : Path st r [r]
  | cons {r s : Nat} {l : List Nat} (h : r < st.nodes.length) (hs : st.sup r = some s)
      (hp : Path st s l) : Path st r (r :: l)

theorem Path.head {st : St} {r : Nat} {l : List Nat} (h : Path st r l) :
    ∃ t, l = r :: t := by
  cases h <;> exact ⟨_, rfl⟩

theorem Path.ne_nil {st : St} {r : Nat} {l : List Nat} (h : Path st r l) : l ≠ [] := by
  cases h <;> simp

theorem Path.unique {st : St} {r : Nat} {l l' : List Nat} (h : Path st r l)
    (h' : Path st r l') : l = l' := by
  induction h generalizing l' with
  | last hr hs =>
    cases h' with
    | last => rfl
    | cons _ hs' _ => rw [hs] at hs'; cases hs'
  | cons hr hs _ ih =>
    cases h' with
    | last _ hs' => rw [hs] at hs'; cases hs'
    | cons _ hs' hp => rw [hs] at hs'; cases hs'; rw [ih hp]

theorem Path.lt {st : St} {r : Nat} {l : List Nat} (h : Path st r l) :
    ∀ x ∈ l, x < st.nodes.length := by
  induction h with
  | last hr _ => intro x hx; simp at hx; omega
  | cons hr _ _ ih =>
    intro x hx
    rcases List.mem_cons.1 hx with rfl | hx
    · exact hr
    · exact ih x hx

/-- From every cell of a path the rest of the path goes on. -/
theorem Path.drop {st : St} {r : Nat} {l : List Nat} (h : Path st r l) :
    ∀ x ∈ l, ∃ pre post, l = pre ++ post ∧ Path st x post := by
  induction h with
  | last hr hs =>
    intro x hx
    simp at hx
    subst hx
    exact ⟨[], _, rfl, .last hr hs⟩
  | @cons r s l hr hs hp ih =>
    intro x hx
    rcases List.mem_cons.1 hx with rfl | hx
    · exact ⟨[], _, rfl, .cons hr hs hp⟩
    · obtain ⟨pre, post, hl, hq⟩ := ih x hx
      exact ⟨r :: pre, post, by rw [hl]; rfl, hq⟩

theorem Path.nodup {st : St} {r : Nat} {l : List Nat} (h : Path st r l) : l.Nodup := by
  induction h with
  | last => simp
  | @cons r s l hr hs hp ih =>
    refine List.nodup_cons.2 ⟨?_, ih⟩
    intro hx
    obtain ⟨pre, post, hl, hq⟩ := hp.drop r hx
    have := hq.unique (.cons hr hs hp)
    have hlen := congrArg List.length this
    rw [hl] at hlen
    simp at hlen
    omega

theorem Path.length_le {st : St} {r : Nat} {l : List Nat} (h : Path st r l) :
    l.length ≤ st.nodes.length := by
  have hs : l ⊆ List.range st.nodes.length := fun x hx => List.mem_range.2 (h.lt x hx)
  have := (List.subperm_of_subset h.nodup hs).length_le
  simpa using this

theorem Path.chainF {st : St} {r : Nat} {l : List Nat} (h : Path st r l) :
    ∀ n, l.length ≤ n → st.chainF n r = l := by
  induction h with
  | last hr hs =>
    intro n hn
    cases n with
    | zero => simp at hn
    | succ n => simp [St.chainF, hs]
  | cons hr hs hp ih =>
    intro n hn
    cases n with
    | zero => simp at hn
    | succ n =>
      simp only [St.chainF, hs]
      rw [ih n (by simpa using hn)]

/-- The modelled walk is the whole path. -/
theorem Path.chain {st : St} {r : Nat} {l : List Nat} (h : Path st r l) : st.chain r = l :=
  h.chainF _ h.length_le

/-- A path splits at any of its cells. -/
theorem Path.split {st : St} {r x : Nat} {pre post : List Nat}
    (h : Path st r (pre ++ x :: post)) : Path st x (x :: post) := by
  obtain ⟨pre', post', hl, hq⟩ := h.drop x (by simp)
  obtain ⟨t, rfl⟩ := hq.head
  have hn := h.nodup
  have : pre = pre' ∧ post = t := by
    clear hq h
    induction pre generalizing pre' with
    | nil =>
      cases pre' with
      | nil => simp at hl; exact ⟨rfl, hl⟩
      | cons a pre' =>
        simp at hl
        obtain ⟨rfl, rfl⟩ := hl
        simp at hn
    | cons a pre ih =>
      cases pre' with
      | nil =>
        simp at hl
        obtain ⟨rfl, rfl⟩ := hl
        simp at hn
      | cons b pre' =>
        simp at hl
        obtain ⟨rfl, hl⟩ := hl
        have := ih pre' hl (by simp at hn ⊢; tauto)
        exact ⟨by rw [this.1], this.2⟩
  rw [this.2]
  exact hq

/-- The superclass pointer along a path. -/
theorem Path.sup_split {st : St} {r x : Nat} {pre post : List Nat}
    (h : Path st r (pre ++ x :: post)) : st.sup x = post.head? := by
  have hp := h.split
  cases hp with
  | last _ hs => simp [hs]
  | cons _ hs hp =>
    obtain ⟨t, ht⟩ := hp.head
    simp [hs, ht]

/-! ### Cells after an insertion -/

theorem node_insert_new (st : St) (b c : Nat) :
    (insertAfter st b c).node st.nodes.length =
      { cid := c, sup := st.sup b, origin := none, kind := .icls, singleton := false } := by
  simp [St.node, insertAfter]

theorem node_insert_base {st : St} {b : Nat} (c : Nat) (h : b < st.nodes.length) :
    (insertAfter st b c).node b = { st.node b with sup := some st.nodes.length } := by
  simp only [St.node, insertAfter]
  rw [List.getD_eq_getElem?_getD, List.getElem?_append_left (by simpa using h),
    List.getElem?_set_self h]
  rfl

theorem node_insert_other {st : St} {b c x : Nat} (hx : x < st.nodes.length) (hb : x ≠ b) :
    (insertAfter st b c).node x = st.node x := by
  simp only [St.node, insertAfter]
  rw [List.getD_eq_getElem?_getD, List.getElem?_append_left (by simpa using hx),
    List.getElem?_set_ne (Ne.symm hb), List.getD_eq_getElem?_getD]

theorem nodes_insert (st : St) (b c : Nat) :
    (insertAfter st b c).nodes.length = st.nodes.length + 1 := by
  simp [insertAfter]

theorem cid_insert {st : St} {b c x : Nat} (hx : x < st.nodes.length) :
    (insertAfter st b c).cid x = st.cid x := by
  unfold St.cid
  by_cases hb : x = b
  · subst hb; rw [node_insert_base _ hx]
  · rw [node_insert_other hx hb]

theorem kind_insert {st : St} {b c x : Nat} (hx : x < st.nodes.length) :
    ((insertAfter st b c).node x).kind = (st.node x).kind := by
  by_cases hb : x = b
  · subst hb; rw [node_insert_base _ hx]
  · rw [node_insert_other hx hb]

theorem origin_insert {st : St} {b c x : Nat} (hx : x < st.nodes.length) :
    ((insertAfter st b c).node x).origin = (st.node x).origin := by
  by_cases hb : x = b
  · subst hb; rw [node_insert_base _ hx]
  · rw [node_insert_other hx hb]

theorem singleton_insert {st : St} {b c x : Nat} (hx : x < st.nodes.length) :
    ((insertAfter st b c).node x).singleton = (st.node x).singleton := by
  by_cases hb : x = b
  · subst hb; rw [node_insert_base _ hx]
  · rw [node_insert_other hx hb]

theorem sup_insert_base {st : St} {b c : Nat} (h : b < st.nodes.length) :
    (insertAfter st b c).sup b = some st.nodes.length := by
  unfold St.sup; rw [node_insert_base _ h]

theorem sup_insert_other {st : St} {b c x : Nat} (hx : x < st.nodes.length) (hb : x ≠ b) :
    (insertAfter st b c).sup x = st.sup x := by
  unfold St.sup; rw [node_insert_other hx hb]

theorem sup_insert_new (st : St) (b c : Nat) :
    (insertAfter st b c).sup st.nodes.length = st.sup b := by
  unfold St.sup; rw [node_insert_new]; rfl

/-- A path with the cell `new` put behind every `b`. -/
def ins (b new : Nat) (l : List Nat) : List Nat :=
  l.flatMap fun x => if x = b then [b, new] else [x]

theorem ins_cons_self (b new : Nat) (l : List Nat) :
    ins b new (b :: l) = b :: new :: ins b new l := by simp [ins]

theorem ins_cons_ne {b x : Nat} (new : Nat) (l : List Nat) (h : x ≠ b) :
    ins b new (x :: l) = x :: ins b new l := by simp [ins, h]

theorem ins_of_not_mem {b : Nat} (new : Nat) : ∀ {l : List Nat}, b ∉ l → ins b new l = l
  | [], _ => rfl
  | x :: l, h => by
    have hx : x ≠ b := fun hx => h (by simp [hx])
    rw [ins_cons_ne new l hx, ins_of_not_mem new (fun hl => h (by simp [hl]))]

theorem ins_append (b new : Nat) (l l' : List Nat) :
    ins b new (l ++ l') = ins b new l ++ ins b new l' := by simp [ins]

theorem mem_ins {b new x : Nat} {l : List Nat} (h : x ∈ l) : x ∈ ins b new l := by
  simp only [ins, List.mem_flatMap]
  refine ⟨x, h, ?_⟩
  by_cases hx : x = b <;> simp [hx]

theorem mem_ins_iff {b new x : Nat} {l : List Nat} :
    x ∈ ins b new l ↔ x ∈ l ∨ (x = new ∧ b ∈ l) := by
  simp only [ins, List.mem_flatMap]
  constructor
  · rintro ⟨y, hy, hx⟩
    by_cases hb : y = b
    · subst hb
      simp at hx
      rcases hx with rfl | rfl
      · exact Or.inl hy
      · exact Or.inr ⟨rfl, hy⟩
    · simp [hb] at hx
      subst hx
      exact Or.inl hy
  · rintro (h | ⟨rfl, h⟩)
    · exact ⟨x, h, by by_cases hx : x = b <;> simp [hx]⟩
    · exact ⟨b, h, by simp⟩

/-- Inserting behind `b` puts the new cell into exactly the paths through `b`. -/
theorem Path.insert {st : St} {r : Nat} {l : List Nat} (h : Path st r l) (b c : Nat) :
    Path (insertAfter st b c) r (ins b st.nodes.length l) := by
  induction h with
  | @last r hr hs =>
    by_cases hb : r = b
    · subst hb
      rw [ins_cons_self]
      refine .cons (by rw [nodes_insert]; omega) (sup_insert_base hr) ?_
      refine .last (by rw [nodes_insert]; omega) ?_
      rw [sup_insert_new, hs]
    · rw [ins_cons_ne _ _ hb]
      exact .last (by rw [nodes_insert]; omega) (by rw [sup_insert_other hr hb, hs])
  | @cons r s l hr hs hp ih =>
    by_cases hb : r = b
    · subst hb
      rw [ins_cons_self]
      refine .cons (by rw [nodes_insert]; omega) (sup_insert_base hr) ?_
      exact .cons (by rw [nodes_insert]; omega) (by rw [sup_insert_new, hs]) ih
    · rw [ins_cons_ne _ _ hb]
      exact .cons (by rw [nodes_insert]; omega) (by rw [sup_insert_other hr hb, hs]) ih

/-! ### Well-formed heaps -/

/-- Only iclasses lie between `r` and the later cell `o` of the path `l`. -/
def Ahead (st : St) (r o : Nat) (l : List Nat) : Prop :=
  ∃ pre post, l = r :: (pre ++ o :: post) ∧ ∀ x ∈ pre, (st.node x).kind = .icls

theorem Ahead.mem {st : St} {r o : Nat} {l : List Nat} (h : Ahead st r o l) : o ∈ l := by
  obtain ⟨pre, post, rfl, _⟩ := h
  simp

theorem ins_icls {st : St} {b c : Nat} {l : List Nat} (hl : ∀ x ∈ l, x < st.nodes.length)
    (hk : ∀ x ∈ l, (st.node x).kind = .icls) :
    ∀ x ∈ ins b st.nodes.length l, ((insertAfter st b c).node x).kind = .icls := by
  intro x hx
  rcases mem_ins_iff.1 hx with h | ⟨rfl, _⟩
  · rw [kind_insert (hl x h)]; exact hk x h
  · rw [node_insert_new]

theorem Ahead.insert {st : St} {r o : Nat} {l : List Nat} (b c : Nat)
    (hl : ∀ x ∈ l, x < st.nodes.length) (h : Ahead st r o l) :
    Ahead (insertAfter st b c) r o (ins b st.nodes.length l) := by
  obtain ⟨pre, post, rfl, hk⟩ := h
  have hpre : ∀ x ∈ pre, x < st.nodes.length := fun x hx => hl x (by simp [hx])
  have key : ∀ t : List Nat, ∃ post', ins b st.nodes.length (o :: t) = o :: post' := by
    intro t
    by_cases hob : o = b
    · subst hob; exact ⟨_, ins_cons_self _ _ _⟩
    · exact ⟨_, ins_cons_ne _ _ hob⟩
  obtain ⟨post', hpost'⟩ := key post
  by_cases hrb : r = b
  · subst hrb
    refine ⟨st.nodes.length :: ins r st.nodes.length pre, post', ?_, ?_⟩
    · rw [ins_cons_self, ins_append, hpost']; rfl
    · intro x hx
      rcases List.mem_cons.1 hx with rfl | hx
      · rw [node_insert_new]
      · exact ins_icls hpre hk x hx
  · refine ⟨ins b st.nodes.length pre, post', ?_, ins_icls hpre hk⟩
    rw [ins_cons_ne _ _ hrb, ins_append, hpost']

/-- What holds of the heap in every reachable state. -/
structure Heap (st : St) : Prop where
  /-- every cell starts a finite path -/
  path : ∀ r, r < st.nodes.length → ∃ l, Path st r l
  /-- a superclass pointer never leads to the object of a module -/
  supKind : ∀ r s, r < st.nodes.length → st.sup r = some s → (st.node s).kind ≠ .mod
  /-- an iclass belongs to one chain -/
  pred : ∀ a b i, a < st.nodes.length → b < st.nodes.length → st.sup a = some i →
    st.sup b = some i → (st.node i).kind = .icls → a = b
  /-- the class table and the heap name each other -/
  obj_lt : ∀ c, c < st.classes.length → st.obj c < st.nodes.length
  obj_cid : ∀ c, c < st.classes.length → st.cid (st.obj c) = c
  obj_kind : ∀ c, c < st.classes.length → (st.node (st.obj c)).kind ≠ .icls
  cid_lt : ∀ r, r < st.nodes.length → st.cid r < st.classes.length
  cid_obj : ∀ r, r < st.nodes.length → (st.node r).kind ≠ .icls → st.obj (st.cid r) = r
  /-- an origin is an iclass of the same class on the class's own chain -/
  origin : ∀ r o, r < st.nodes.length → (st.node r).origin = some o →
    (st.node r).kind ≠ .icls ∧ o ≠ r ∧ (st.node o).kind = .icls ∧ st.cid o = st.cid r ∧
      ∀ l, Path st r l → Ahead st r o l
  /-- the classes themselves end in one cell without a superclass -/
  objClass : OBJECT < st.classes.length ∧ (st.node (st.obj OBJECT)).kind = .cls

theorem Heap.sup_lt {st : St} (w : Heap st) {r s : Nat} (hr : r < st.nodes.length)
    (hs : st.sup r = some s) : s < st.nodes.length := by
  obtain ⟨l, hl⟩ := w.path r hr
  cases hl with
  | last _ h => rw [hs] at h; cases h
  | cons _ h hp =>
    rw [hs] at h; cases h
    obtain ⟨t, ht⟩ := hp.head
    exact hp.lt _ (by simp [ht])

theorem Heap.chain {st : St} (w : Heap st) {r : Nat} (hr : r < st.nodes.length) :
    Path st r (st.chain r) := by
  obtain ⟨l, hl⟩ := w.path r hr
  rw [hl.chain]; exact hl

/-- Inserting a cell keeps the heap well formed. -/
theorem Heap.insert {st : St} (w : Heap st) {b c : Nat} (hb : b < st.nodes.length)
    (hc : c < st.classes.length) : Heap (insertAfter st b c) := by
  have hlen := nodes_insert st b c
  have hobj : ∀ c', (insertAfter st b c).obj c' = st.obj c' := fun _ => rfl
  have hcls : (insertAfter st b c).classes = st.classes := rfl
  have hnew := node_insert_new st b c
  have split : ∀ x, x < (insertAfter st b c).nodes.length → x < st.nodes.length ∨ x = st.nodes.length := by
    intro x hx; omega
  refine ⟨?_, ?_, ?_, ?_, ?_, ?_, ?_, ?_, ?_, ?_⟩
  · intro r hr
    rcases split r hr with hr | rfl
    · obtain ⟨l, hl⟩ := w.path r hr
      exact ⟨_, hl.insert b c⟩
    · obtain ⟨l, hl⟩ := w.path b hb
      have := hl.insert b c
      obtain ⟨t, rfl⟩ := hl.head
      rw [ins_cons_self] at this
      exact ⟨_, Path.split (pre := [b]) this⟩
  · intro r s hr hs
    rcases split r hr with hr | rfl
    · by_cases hrb : r = b
      · subst hrb
        rw [sup_insert_base hb] at hs
        cases hs
        rw [hnew]; simp
      · rw [sup_insert_other hr hrb] at hs
        rw [kind_insert (w.sup_lt hr hs)]
        exact w.supKind r s hr hs
    · rw [sup_insert_new] at hs
      rw [kind_insert (w.sup_lt hb hs)]
      exact w.supKind b s hb hs
  · -- the predecessor in the old heap of the target of `x`
    have key : ∀ x i, x < (insertAfter st b c).nodes.length → (insertAfter st b c).sup x = some i →
        (i = st.nodes.length ∧ x = b) ∨
        (i < st.nodes.length ∧ ∃ y, y < st.nodes.length ∧ st.sup y = some i ∧
          x = if y = b then st.nodes.length else y) := by
      intro x i hx hs
      rcases split x hx with hx | rfl
      · by_cases hxb : x = b
        · subst hxb
          rw [sup_insert_base hb] at hs
          cases hs
          exact Or.inl ⟨rfl, rfl⟩
        · rw [sup_insert_other hx hxb] at hs
          exact Or.inr ⟨w.sup_lt hx hs, x, hx, hs, by simp [hxb]⟩
      · rw [sup_insert_new] at hs
        exact Or.inr ⟨w.sup_lt hb hs, b, hb, hs, by simp⟩
    intro x y i hx hy hsx hsy hk
    rcases key x i hx hsx with ⟨h1, rfl⟩ | ⟨h1, x', hx', hsx', rfl⟩ <;>
      rcases key y i hy hsy with ⟨h2, rfl⟩ | ⟨h2, y', hy', hsy', rfl⟩
    · rfl
    · omega
    · omega
    · rw [kind_insert h1] at hk
      rw [w.pred x' y' i hx' hy' hsx' hsy' hk]
  · intro c' hc'
    rw [hobj, hlen]
    have := w.obj_lt c' hc'
    omega
  · intro c' hc'
    rw [hobj, cid_insert (w.obj_lt c' hc')]
    exact w.obj_cid c' hc'
  · intro c' hc'
    rw [hobj, kind_insert (w.obj_lt c' hc')]
    exact w.obj_kind c' hc'
  · intro r hr
    rcases split r hr with hr | rfl
    · rw [cid_insert hr]; exact w.cid_lt r hr
    · unfold St.cid; rw [hnew]; exact hc
  · intro r hr hk
    rcases split r hr with hr | rfl
    · rw [cid_insert hr, hobj]
      rw [kind_insert hr] at hk
      exact w.cid_obj r hr hk
    · rw [hnew] at hk; simp at hk
  · intro r o hr ho
    rcases split r hr with hr | rfl
    · rw [origin_insert hr] at ho
      obtain ⟨h1, h2, h3, h4, h5⟩ := w.origin r o hr ho
      obtain ⟨l, hl⟩ := w.path r hr
      have hol : o < st.nodes.length := hl.lt o (h5 l hl).mem
      refine ⟨by rw [kind_insert hr]; exact h1, h2, by rw [kind_insert hol]; exact h3,
        by rw [cid_insert hol, cid_insert hr]; exact h4, ?_⟩
      intro l' hl'
      rw [hl'.unique (hl.insert b c)]
      exact (h5 l hl).insert b c hl.lt
    · rw [hnew] at ho; simp at ho
  · refine ⟨w.objClass.1, ?_⟩
    rw [hobj, kind_insert (w.obj_lt _ w.objClass.1)]
    exact w.objClass.2

end Verif.Classes
