/-
`ancestors`, `is_a?` and lookup in terms of one list of class ids.
-/
import Verif.Classes.Build

namespace Verif.Classes

/-- The class ids a list of cells stands for: a cell with an origin stands for nothing,
its origin iclass does. -/
def view (st : St) (l : List Nat) : List Nat :=
  (l.filter fun r => !st.hasOrigin r).map st.cid

theorem view_nil (st : St) : view st [] = [] := rfl

theorem view_cons (st : St) (r : Nat) (l : List Nat) :
    view st (r :: l) = if st.hasOrigin r then view st l else st.cid r :: view st l := by
  unfold view
  cases h : st.hasOrigin r <;> simp [h]

theorem view_append (st : St) (l l' : List Nat) : view st (l ++ l') = view st l ++ view st l' := by
  simp [view]

theorem Heap.iclass_no_origin {st : St} (w : Heap st) {r : Nat} (hr : r < st.nodes.length)
    (hk : (st.node r).kind = .icls) : st.hasOrigin r = false := by
  unfold St.hasOrigin
  cases ho : (st.node r).origin with
  | none => rfl
  | some o => exact absurd hk (w.origin r o hr ho).1

/-- The cells `ancestors` renders for a module: the module object and its iclasses. -/
def St.seg (st : St) (r : Nat) : List Nat :=
  if (st.node r).kind = .cls then st.chain r
  else r :: (st.chain r).tail.takeWhile fun s => (st.node s).kind != .cls

theorem Heap.ancestors_eq {st : St} (w : Heap st) {c : Nat} (hc : c < st.classes.length) :
    ancestors st c = view st (st.seg (st.obj c)) := by
  have hl := w.obj_lt c hc
  have hp := w.chain hl
  obtain ⟨t, ht⟩ := hp.head
  have key : ∀ l : List Nat, (∀ x ∈ l, x < st.nodes.length) →
      (l.filter fun s => st.isIclass s || !st.hasOrigin s) = l.filter fun s => !st.hasOrigin s := by
    intro l hl
    apply List.filter_congr
    intro x hx
    unfold St.isIclass
    by_cases hk : (st.node x).kind = .icls
    · simp [hk, w.iclass_no_origin (hl x hx) hk]
    · simp [hk]
  unfold ancestors St.seg
  dsimp only
  rw [ht]
  simp only [List.tail_cons]
  have htl : ∀ x ∈ t, x < st.nodes.length := fun x hx => hp.lt x (by rw [ht]; simp [hx])
  by_cases hk : (st.node (st.obj c)).kind = .cls
  · rw [if_pos hk, if_pos hk, key t htl, view_cons]
    cases st.hasOrigin (st.obj c) <;> rfl
  · rw [if_neg hk, if_neg hk, key _ (fun x hx => htl x ((List.takeWhile_sublist _).subset hx)), view_cons]
    cases st.hasOrigin (st.obj c) <;> rfl

theorem Heap.ancestors_class {st : St} (w : Heap st) {c : Nat} (hc : c < st.classes.length)
    (hk : (st.node (st.obj c)).kind = .cls) : ancestors st c = view st (st.chain (st.obj c)) := by
  rw [w.ancestors_eq hc, St.seg, if_pos hk]

theorem mem_view {st : St} {l : List Nat} {c : Nat} :
    c ∈ view st l ↔ ∃ r ∈ l, st.hasOrigin r = false ∧ st.cid r = c := by
  simp [view, and_assoc]

/-- The ids met along a whole path are those of the view. -/
theorem Heap.mem_view_path {st : St} (w : Heap st) {r : Nat} {l : List Nat} (hp : Path st r l)
    (c : Nat) : (∃ x ∈ l, st.cid x = c) ↔ c ∈ view st l := by
  rw [mem_view]
  constructor
  · rintro ⟨x, hx, hc⟩
    cases ho : (st.node x).origin with
    | none => exact ⟨x, hx, by simp [St.hasOrigin, ho], hc⟩
    | some o =>
      have hxl := hp.lt x hx
      obtain ⟨h1, h2, h3, h4, h5⟩ := w.origin x o hxl ho
      obtain ⟨pre, post, hl, hq⟩ := hp.drop x hx
      have hom := (h5 _ hq).mem
      refine ⟨o, by rw [hl]; simp [hom], ?_, by rw [h4]; exact hc⟩
      exact w.iclass_no_origin (hp.lt o (by rw [hl]; simp [hom])) h3
  · rintro ⟨x, hx, _, hc⟩
    exact ⟨x, hx, hc⟩

/-- `is_a?` agrees with `ancestors`. -/
theorem Heap.isKindOf_iff {st : St} (w : Heap st) {c m : Nat} (hc : c < st.classes.length)
    (hk : (st.node (st.obj c)).kind = .cls) : isKindOf st c m = true ↔ m ∈ ancestors st c := by
  rw [w.ancestors_class hc hk, ← w.mem_view_path (w.chain (w.obj_lt c hc))]
  simp [isKindOf]

/-! ### Lookup over the ancestors -/

/-- `searchLoop` on class ids. -/
def searchIds (tbl : Nat → Option Entry) : Option Vis → Option Entry → List Nat → Option Entry
  | visi, shadow, [] =>
    match shadow with
    | none => none
    | some s => some { s with vis := visi.getD s.vis }
  | visi, shadow, a :: rest =>
    match tbl a with
    | none => searchIds tbl visi shadow rest
    | some e =>
      if e.shadow then
        searchIds tbl (some (visi.getD e.vis)) (some (shadow.getD e)) rest
      else
        match e.func with
        | some _ =>
          match shadow with
          | some s => some { e with owner := s.owner, vis := visi.getD e.vis }
          | none => some { e with vis := visi.getD e.vis }
        | none =>
          if e.vis = .undef then none
          else searchIds tbl (some (visi.getD e.vis)) shadow rest

theorem searchLoop_eq (st : St) (name : Nat) : ∀ (l : List Nat) (v : Option Vis) (s : Option Entry),
    searchLoop st name v s l = searchIds (fun a => st.entry a name) v s (view st l)
  | [], v, s => by cases s <;> rfl
  | r :: l, v, s => by
    rw [searchLoop, view_cons]
    cases ho : st.hasOrigin r with
    | true => simp only [if_true]; exact searchLoop_eq st name l v s
    | false =>
      simp only [Bool.false_eq_true, if_false]
      rw [searchIds]
      cases st.entry (st.cid r) name with
      | none => exact searchLoop_eq st name l v s
      | some e =>
        dsimp only
        split
        · exact searchLoop_eq st name l _ _
        · cases e.func with
          | some f => cases s <;> rfl
          | none =>
            dsimp only
            split
            · rfl
            · exact searchLoop_eq st name l _ _

theorem searchMethod_eq (st : St) (r name : Nat) :
    searchMethod st r name = searchIds (fun a => st.entry a name) none none (view st (st.chain r)) :=
  searchLoop_eq st name _ _ _

/-- An entry that decides a lookup: a definition or an `undef`. -/
def Entry.decisive (e : Entry) : Prop := e.shadow = false ∧ (e.func.isSome ∨ e.vis = .undef)

/-- Nothing in these modules decides a lookup. -/
def NoneDecisive (tbl : Nat → Option Entry) (l : List Nat) : Prop :=
  ∀ a ∈ l, ∀ e, tbl a = some e → ¬ e.decisive

/-- The first entry in these modules. -/
def firstEntry (tbl : Nat → Option Entry) (l : List Nat) : Option Entry := l.findSome? tbl

/-- The first visibility declaration that is not a definition. -/
def firstShadow (tbl : Nat → Option Entry) (l : List Nat) : Option Entry :=
  l.findSome? fun a => (tbl a).filter (·.shadow)

/-- What the loop returns once the walk passed `pre` without a decision. -/
theorem searchIds_pre {tbl : Nat → Option Entry} : ∀ {pre : List Nat} (rest : List Nat)
    (v : Option Vis) (s : Option Entry), NoneDecisive tbl pre →
    searchIds tbl v s (pre ++ rest) =
      searchIds tbl (v.or ((firstEntry tbl pre).map (·.vis))) (s.or (firstShadow tbl pre)) rest
  | [], rest, v, s, _ => by simp [firstEntry, firstShadow]
  | a :: pre, rest, v, s, h => by
    have hpre : NoneDecisive tbl pre := fun b hb e he => h b (by simp [hb]) e he
    rw [List.cons_append, searchIds]
    cases ha : tbl a with
    | none =>
      dsimp only
      rw [searchIds_pre rest v s hpre]
      simp [firstEntry, firstShadow, List.findSome?_cons, ha]
    | some e =>
      dsimp only
      have hnd := h a (by simp) e ha
      by_cases hsh : e.shadow = true
      · rw [if_pos hsh, searchIds_pre rest _ _ hpre]
        simp only [firstEntry, firstShadow, List.findSome?_cons, ha, Option.filter, hsh, if_true]
        congr 1
        · cases v <;> rfl
        · cases s <;> rfl
      · rw [if_neg hsh]
        have hf : e.func = none := by
          cases hf : e.func with
          | none => rfl
          | some f => exact absurd ⟨by simpa using hsh, Or.inl (by simp [hf])⟩ hnd
        have hv : e.vis ≠ .undef := fun hv => hnd ⟨by simpa using hsh, Or.inr hv⟩
        rw [hf]
        dsimp only
        rw [if_neg hv, searchIds_pre rest _ _ hpre]
        simp only [firstEntry, firstShadow, List.findSome?_cons, ha, Option.filter, hsh]
        congr 1
        · cases v <;> rfl

theorem noneDecisive_or (tbl : Nat → Option Entry) : ∀ l : List Nat,
    NoneDecisive tbl l ∨ ∃ pre a post e, l = pre ++ a :: post ∧ NoneDecisive tbl pre ∧
      tbl a = some e ∧ e.decisive
  | [] => Or.inl (by intro a ha; cases ha)
  | a :: l => by
    classical
    by_cases h : ∃ e, tbl a = some e ∧ e.decisive
    · obtain ⟨e, he, hd⟩ := h
      exact Or.inr ⟨[], a, l, e, rfl, by intro b hb; (cases hb), he, hd⟩
    · rcases noneDecisive_or tbl l with hl | ⟨pre, b, post, e, rfl, hp, he, hd⟩
      · refine Or.inl ?_
        intro b hb e he hd
        rcases List.mem_cons.1 hb with rfl | hb
        · exact h ⟨e, he, hd⟩
        · exact hl b hb e he hd
      · refine Or.inr ⟨a :: pre, b, post, e, rfl, ?_, he, hd⟩
        intro x hx e' he' hd'
        rcases List.mem_cons.1 hx with rfl | hx
        · exact h ⟨e', he', hd'⟩
        · exact hp x hx e' he' hd'

/-- The answer when a definition decides. -/
theorem searchIds_def {tbl : Nat → Option Entry} {pre post : List Nat} {a f : Nat} {e : Entry}
    (hp : NoneDecisive tbl pre) (he : tbl a = some e) (hs : e.shadow = false)
    (hf : e.func = some f) :
    ∃ r, searchIds tbl none none (pre ++ a :: post) = some r ∧ r.func = some f ∧
      some r.vis = (firstEntry tbl (pre ++ [a])).map (·.vis) := by
  rw [searchIds_pre (a :: post) none none hp, searchIds, he]
  dsimp only
  rw [hs, hf]
  simp only [Option.none_or, Bool.false_eq_true, if_false]
  have hfe : firstEntry tbl (pre ++ [a]) = (firstEntry tbl pre).or (some e) := by
    simp [firstEntry, List.findSome?_append, he]
  cases hsh : firstShadow tbl pre with
  | none =>
    refine ⟨_, rfl, rfl, ?_⟩
    rw [hfe]
    cases firstEntry tbl pre <;> rfl
  | some s =>
    refine ⟨_, rfl, rfl, ?_⟩
    rw [hfe]
    cases firstEntry tbl pre <;> rfl

/-- The answer when an `undef` decides. -/
theorem searchIds_undef {tbl : Nat → Option Entry} {pre post : List Nat} {a : Nat} {e : Entry}
    (hp : NoneDecisive tbl pre) (he : tbl a = some e) (hs : e.shadow = false)
    (hf : e.func = none) (hv : e.vis = .undef) :
    searchIds tbl none none (pre ++ a :: post) = none := by
  rw [searchIds_pre (a :: post) none none hp, searchIds, he]
  dsimp only
  rw [hs, hf]
  simp [hv]

/-- The answer when nothing decides. -/
theorem searchIds_none {tbl : Nat → Option Entry} {l : List Nat} (hp : NoneDecisive tbl l) :
    searchIds tbl none none l = (firstShadow tbl l).map
      fun s => { s with vis := ((firstEntry tbl l).map (·.vis)).getD s.vis } := by
  have := searchIds_pre [] none none hp
  rw [List.append_nil] at this
  rw [this]
  simp only [Option.none_or]
  cases firstShadow tbl l <;> rfl

end Verif.Classes
