/-
The loop of include and prepend as an operation on the list of the module's ancestors.
-/
import Verif.Classes.View

namespace Verif.Classes

/-- The cells the loop visits from the module cell `m` on: `m` and the iclasses behind it. -/
inductive Run (st : St) : Nat → List Nat → Prop
  | last {m : Nat} (h : m < st.nodes.length)
      (hs : ∀ s, st.sup m = some s → st.isIclass s = false) : Run st m [m]
  | cons {m s : Nat} {l : List Nat} (h : m < st.nodes.length) (hs : st.sup m = some s)
      (hk : st.isIclass s = true) (hr : Run st s l) : Run st m (m :: l)

theorem Run.lt {st : St} {m : Nat} {l : List Nat} (h : Run st m l) :
    ∀ x ∈ l, x < st.nodes.length := by
  induction h with
  | last h _ => intro x hx; simp at hx; omega
  | cons h _ _ _ ih =>
    intro x hx
    rcases List.mem_cons.1 hx with rfl | hx
    · exact h
    · exact ih x hx

theorem Run.head {st : St} {m : Nat} {l : List Nat} (h : Run st m l) : ∃ t, l = m :: t := by
  cases h <;> exact ⟨_, rfl⟩

theorem isIclass_insert {st : St} {b c x : Nat} (hx : x < st.nodes.length) :
    (insertAfter st b c).isIclass x = st.isIclass x := by
  unfold St.isIclass; rw [kind_insert hx]

theorem Run.insert {st : St} (w : Heap st) {m b c : Nat} {l : List Nat} (h : Run st m l)
    (hb : b ∉ l) : Run (insertAfter st b c) m l := by
  induction h with
  | @last m h hs =>
    have hm : m ≠ b := fun e => hb (by simp [e])
    refine .last (by rw [nodes_insert]; omega) ?_
    intro s hss
    rw [sup_insert_other h hm] at hss
    rw [isIclass_insert (w.sup_lt h hss)]
    exact hs s hss
  | @cons m s l h hs hk hr ih =>
    have hm : m ≠ b := fun e => hb (by simp [e])
    refine .cons (by rw [nodes_insert]; omega) (by rw [sup_insert_other h hm]; exact hs) ?_
      (ih (fun e => hb (by simp [e])))
    rw [isIclass_insert (w.sup_lt h hs)]; exact hk

/-- Every path has its run in front. -/
theorem Path.run {st : St} {r : Nat} {l : List Nat} (h : Path st r l) :
    Run st r (r :: l.tail.takeWhile fun s => st.isIclass s) := by
  induction h with
  | last hr hs => exact .last hr (by intro s h; rw [hs] at h; cases h)
  | @cons r s l hr hs hp ih =>
    obtain ⟨t, rfl⟩ := hp.head
    simp only [List.tail_cons] at ih ⊢
    rw [List.takeWhile_cons]
    cases hk : st.isIclass s with
    | true => exact .cons hr hs hk ih
    | false => exact .last hr (by intro x hx; rw [hs] at hx; cases hx; exact hk)

theorem Run.unique {st : St} {r : Nat} {l l' : List Nat} (h : Run st r l)
    (h' : Run st r l') : l = l' := by
  induction h generalizing l' with
  | last hr hs =>
    cases h' with
    | last => rfl
    | cons _ hs' hk _ => rw [hs _ hs'] at hk; cases hk
  | cons hr hs hk _ ih =>
    cases h' with
    | last _ hs' => rw [hs' _ hs] at hk; cases hk
    | cons _ hs' _ hp => rw [hs] at hs'; cases hs'; rw [ih hp]

theorem Run.length_le {st : St} (w : Heap st) {r : Nat} {l : List Nat} (h : Run st r l) :
    l.length ≤ st.nodes.length := by
  obtain ⟨t, rfl⟩ := h.head
  obtain ⟨p, hp⟩ := w.path r (h.lt r (by simp))
  have := h.unique hp.run
  rw [this]
  have h1 := hp.length_le
  have h2 : (p.tail.takeWhile fun s => st.isIclass s).length ≤ p.tail.length :=
    (List.takeWhile_sublist _).length_le
  obtain ⟨t', rfl⟩ := hp.head
  simp at h1 h2 ⊢
  omega

/-- A path meets a cell only at its start or through a superclass pointer of the path. -/
theorem Path.pred {st : St} {r : Nat} {l : List Nat} (h : Path st r l) :
    ∀ x ∈ l, x = r ∨ ∃ y ∈ l, st.sup y = some x := by
  induction h with
  | last => intro x hx; simp at hx; exact Or.inl hx
  | @cons r s l hr hs hp ih =>
    intro x hx
    rcases List.mem_cons.1 hx with rfl | hx
    · exact Or.inl rfl
    · rcases ih x hx with rfl | ⟨y, hy, hyx⟩
      · exact Or.inr ⟨r, by simp, hs⟩
      · exact Or.inr ⟨y, by simp [hy], hyx⟩

/-- The iclasses of a module lie on no other chain. -/
theorem Run.disjoint {st : St} (w : Heap st) {m self : Nat} {l p : List Nat} (h : Run st m l)
    (hp : Path st self p) (hself : (st.node self).kind ≠ .icls) (hm : m ∉ p) :
    ∀ x ∈ l, x ∉ p := by
  induction h with
  | last => intro x hx; simp at hx; subst hx; exact hm
  | @cons m s l h hs hk hr ih =>
    intro x hx
    rcases List.mem_cons.1 hx with rfl | hx
    · exact hm
    · refine ih ?_ x hx
      intro hsp
      rcases hp.pred s hsp with rfl | ⟨y, hy, hys⟩
      · unfold St.isIclass at hk; simp at hk; exact hself hk
      · have hki : (st.node s).kind = .icls := by simpa [St.isIclass] using hk
        have := w.pred m y s h (hp.lt y hy) hs hys hki
        subst this
        exact hm hy

/-- A module object is on no chain but its own. -/
theorem Heap.mod_not_mem {st : St} (w : Heap st) {m self : Nat} {p : List Nat}
    (hp : Path st self p) (hk : (st.node m).kind = .mod) (hne : m ≠ self) : m ∉ p := by
  intro hm
  rcases hp.pred m hm with h | ⟨y, hy, hys⟩
  · exact hne h
  · exact w.supKind y m (hp.lt y hy) hys hk

/-! ### The loop over class ids -/

/-- Whether the loop leaves class id `c` out. -/
def present (st : St) (self : Nat) (fp : Bool) (c : Nat) : Bool :=
  if fp then isAncestorBeforeOrigin st c self else isAncestorOf st c self

/-- The loop over the class ids of the module's ancestors. -/
def mixList (self : Nat) (fp : Bool) : St → Nat → List Nat → Res
  | st, _, [] => .ok st
  | st, base, c :: cs =>
    let st := if present st self fp c then st else insertAfter st base c
    match st.sup base with
    | none => .panic
    | some b => mixList self fp st b cs

/-- The state after one round. -/
def mixOne (st : St) (self : Nat) (fp : Bool) (base c : Nat) : St :=
  if present st self fp c then st else insertAfter st base c

theorem mixLoop_eq {self : Nat} {fp : Bool} : ∀ (n : Nat) {st : St} {base m : Nat}
    {l p : List Nat}, Heap st → Run st m l → l.length ≤ n → Path st self p → base ∈ p →
    (∀ x ∈ l, x ∉ p) →
    mixLoop self fp n st base m = mixList self fp st base (l.map st.cid)
  | 0, st, base, m, l, p, _, hr, hn, _, _, _ => by
    obtain ⟨t, rfl⟩ := hr.head
    simp at hn
  | n + 1, st, base, m, l, p, w, hr, hn, hp, hb, hd => by
    obtain ⟨t, rfl⟩ := hr.head
    have hm : m < st.nodes.length := hr.lt m (by simp)
    rw [List.map_cons, mixLoop, mixList]
    change (match (mixOne st self fp base (st.cid m)).sup base with
      | none => Res.panic
      | some b => match (mixOne st self fp base (st.cid m)).sup m with
        | some s => if (mixOne st self fp base (st.cid m)).isIclass s = true then
            mixLoop self fp n (mixOne st self fp base (st.cid m)) b s
          else .ok (mixOne st self fp base (st.cid m))
        | none => .ok (mixOne st self fp base (st.cid m))) =
      (match (mixOne st self fp base (st.cid m)).sup base with
      | none => Res.panic
      | some b => mixList self fp (mixOne st self fp base (st.cid m)) b (t.map st.cid))
    generalize hst1 : mixOne st self fp base (st.cid m) = st1
    have hbl := hp.lt base hb
    have hbn : base ∉ m :: t := fun h => hd base h hb
    -- what the round leaves alone
    have keep : Heap st1 ∧ Run st1 m (m :: t) ∧ (∃ p1, Path st1 self p1 ∧ base ∈ p1 ∧
        (∀ x ∈ m :: t, x ∉ p1)) ∧ (∀ x, x < st.nodes.length → st1.cid x = st.cid x) := by
      subst hst1
      unfold mixOne
      split
      · exact ⟨w, hr, ⟨p, hp, hb, hd⟩, fun _ _ => rfl⟩
      · refine ⟨w.insert hbl (w.cid_lt m hm), hr.insert w hbn,
          ⟨_, hp.insert base _, mem_ins hb, ?_⟩, fun x hx => cid_insert hx⟩
        intro x hx hx'
        rcases mem_ins_iff.1 hx' with h | ⟨rfl, _⟩
        · exact hd x hx h
        · have := hr.lt _ hx; omega
    obtain ⟨w1, hr1, ⟨p1, hp1, hb1, hd1⟩, hcid⟩ := keep
    cases hsb : st1.sup base with
    | none => rfl
    | some b =>
      dsimp only
      have hbp : b ∈ p1 := by
        obtain ⟨pre, post, hpp, hq⟩ := hp1.drop base hb1
        cases hq with
        | last _ h => rw [hsb] at h; cases h
        | cons _ h hq' =>
          rw [hsb] at h; cases h
          obtain ⟨t', rfl⟩ := hq'.head
          rw [hpp]; simp
      cases hr1 with
      | last h hs =>
        cases hsm : st1.sup m with
        | none => rfl
        | some s =>
          dsimp only
          rw [hs s hsm]
          rfl
      | @cons _ s _ h hs hk hr' =>
        rw [hs]
        dsimp only
        rw [if_pos hk, mixLoop_eq n w1 hr' (by simpa using hn) hp1 hbp
          (fun x hx => hd1 x (by simp [hx]))]
        congr 1
        apply List.map_congr_left
        intro x hx
        exact hcid x (hr.lt x (by simp [hx]))

/-- The class ids the loop goes through are the ancestors of the module. -/
theorem Heap.ancestors_mod {st : St} (w : Heap st) {m : Nat} (hm : m < st.classes.length)
    (hk : (st.node (st.obj m)).kind = .mod) :
    ∃ r l, Run st r l ∧ ancestors st m = l.map st.cid ∧
      (st.hasOrigin (st.obj m) = false → r = st.obj m) ∧
      (st.hasOrigin (st.obj m) = true → st.sup (st.obj m) = some r ∧ st.isIclass r = true) := by
  have hlt := w.obj_lt m hm
  have hp := w.chain hlt
  obtain ⟨t, ht⟩ := hp.head
  have hseg : st.seg (st.obj m) = st.obj m :: t.takeWhile fun s => st.isIclass s := by
    rw [St.seg, if_neg (by rw [hk]; simp), ht, List.tail_cons]
    congr 1
    -- behind a module there are iclasses and classes
    have hk' : ∀ x ∈ t, (st.node x).kind ≠ .mod := by
      intro x hx
      rcases hp.pred x (by rw [ht]; simp [hx]) with h | ⟨y, hy, hys⟩
      · exfalso
        have hn := hp.nodup
        rw [ht] at hn
        subst h
        simp [hx] at hn
      · exact w.supKind y x (hp.lt y hy) hys
    clear hp ht
    induction t with
    | nil => rfl
    | cons a t ih =>
      rw [List.takeWhile_cons, List.takeWhile_cons, ih (fun x hx => hk' x (by simp [hx]))]
      have := hk' a (by simp)
      unfold St.isIclass
      cases hka : (st.node a).kind <;> simp_all
  have hrun := hp.run
  rw [ht, List.tail_cons] at hrun
  have hview : ∀ l : List Nat, (∀ x ∈ l, st.isIclass x = true ∧ x < st.nodes.length) →
      view st l = l.map st.cid := by
    intro l hl
    unfold view
    congr 1
    apply List.filter_eq_self.2
    intro x hx
    rw [w.iclass_no_origin (hl x hx).2 (by simpa [St.isIclass] using (hl x hx).1)]
    rfl
  have htw : ∀ x ∈ t.takeWhile fun s => st.isIclass s, st.isIclass x = true ∧ x < st.nodes.length := by
    intro x hx
    refine ⟨?_, hrun.lt x (by simp [hx])⟩
    have : ∀ (t : List Nat), x ∈ t.takeWhile (fun s => st.isIclass s) → st.isIclass x = true := by
      intro t
      induction t with
      | nil => intro h; cases h
      | cons a t ih =>
        rw [List.takeWhile_cons]
        split
        · rename_i ha
          intro h
          rcases List.mem_cons.1 h with rfl | h
          · exact ha
          · exact ih h
        · intro h; cases h
    exact this t hx
  rw [w.ancestors_eq hm, hseg, view_cons]
  cases ho : st.hasOrigin (st.obj m) with
  | false =>
    simp only [Bool.false_eq_true, if_false]
    exact ⟨_, _, hrun, by rw [hview _ htw]; rfl, fun _ => rfl, by simp⟩
  | true =>
    simp only [if_true]
    obtain ⟨o, hoo⟩ : ∃ o, (st.node (st.obj m)).origin = some o := by
      unfold St.hasOrigin at ho
      exact Option.isSome_iff_exists.1 ho
    obtain ⟨_, _, hoi, _, h5⟩ := w.origin _ o hlt hoo
    obtain ⟨pre, post, hpo, hpk⟩ := h5 _ hp
    rw [ht] at hpo
    simp at hpo
    subst hpo
    generalize htt : pre ++ o :: post = t at *
    cases t with
    | nil => simp at htt
    | cons s t =>
      have hsk : st.isIclass s = true := by
        cases pre with
        | nil => simp at htt; rw [← htt.1]; simp [St.isIclass, hoi]
        | cons a pre =>
          simp at htt
          rw [← htt.1]
          simp [St.isIclass, hpk a (by simp)]
      have hsup : st.sup (st.obj m) = some s := by
        rw [ht] at hp
        exact hp.sup_split (pre := [])
      rw [List.takeWhile_cons, if_pos hsk] at hrun htw ⊢
      cases hrun with
      | cons _ hs hk' hr' =>
        rw [hsup] at hs
        cases hs
        exact ⟨s, _, hr', hview _ htw, by simp, fun _ => ⟨hsup, hsk⟩⟩

/-- `include` and `prepend` go through the module's ancestors. -/
theorem includeOrPrepend_eq {st : St} (w : Heap st) {self m : Nat} {fp : Bool}
    (hs : self < st.nodes.length) (hsk : (st.node self).kind ≠ .icls)
    (hm : m < st.classes.length) (hk : (st.node (st.obj m)).kind = .mod)
    (hcy : checkCyclic st self (st.obj m) = false) :
    includeOrPrepend st self (st.obj m) fp =
      mixList self fp (bump st) self (ancestors st m) := by
  obtain ⟨r, l, hrun, hanc, h1, h2⟩ := w.ancestors_mod hm hk
  have hmlt := w.obj_lt m hm
  have hne : st.obj m ≠ self := by
    intro h
    unfold checkCyclic at hcy
    rw [h] at hcy
    simp at hcy
  obtain ⟨p, hp⟩ := w.path self hs
  have hpn := hp.head
  have hnm := w.mod_not_mem hp hk hne
  have wb := w.bump
  have hpb : Path (bump st) self p := Path.congr (st := st) rfl hp
  have runb : ∀ {x l}, Run st x l → Run (bump st) x l := by
    intro x l h
    induction h with
    | last a b => exact .last a b
    | cons a b c _ ih => exact .cons a b c ih
  have hself : self ∈ p := by obtain ⟨t, rfl⟩ := hpn; simp
  unfold includeOrPrepend
  rw [hcy]
  simp only [Bool.false_eq_true, if_false]
  have hbo : (bump st).hasOrigin (st.obj m) = st.hasOrigin (st.obj m) := rfl
  rw [hbo, hanc]
  cases ho : st.hasOrigin (st.obj m) with
  | false =>
    simp only [Bool.false_eq_true, if_false]
    have := h1 ho
    subst this
    exact mixLoop_eq _ wb (runb hrun) (hrun.length_le w) hpb hself
      (hrun.disjoint w hp hsk hnm)
  | true =>
    simp only [if_true]
    obtain ⟨hsup, hki⟩ := h2 ho
    have hsb : (bump st).sup (st.obj m) = some r := hsup
    rw [hsb]
    dsimp only
    have hkb : (bump st).isIclass r = true := hki
    rw [if_pos hkb]
    have hfull : Run st (st.obj m) (st.obj m :: l) := .cons hmlt hsup hki hrun
    exact mixLoop_eq _ wb (runb hrun) (hrun.length_le w) hpb hself
      (fun x hx => hfull.disjoint w hp hsk hnm x (by simp [hx]))

end Verif.Classes
