/-
What the loop does to the receiver's chain.
-/
import Verif.Classes.Mix

namespace Verif.Classes

/-- The cells `present` looks at: everything behind the receiver for `include`, the cells
up to the receiver's origin for `prepend`. -/
structure Zone (st : St) (me : Nat) (fp : Bool) (z rest : List Nat) : Prop where
  path : Path st me (me :: (z ++ rest))
  stop : if fp then ∃ o rest', rest = o :: rest' ∧ (st.node me).origin = some o
    else rest = []

theorem Zone.lt {st : St} {self : Nat} {fp : Bool} {z rest : List Nat}
    (h : Zone st self fp z rest) : ∀ x ∈ self :: z, x < st.nodes.length := by
  intro x hx
  apply h.path.lt
  rw [← List.cons_append]
  exact List.mem_append_left _ hx

theorem Zone.present {st : St} {self : Nat} {fp : Bool} {z rest : List Nat}
    (h : Zone st self fp z rest) (c : Nat) :
    present st self fp c = true ↔ ∃ x ∈ z, st.cid x = c := by
  have hc := h.path.chain
  have hs := h.stop
  unfold Classes.present
  cases fp with
  | false =>
    simp only [Bool.false_eq_true, if_false] at hs ⊢
    subst hs
    unfold isAncestorOf
    rw [hc]
    simp
  | true =>
    simp only [if_true] at hs ⊢
    obtain ⟨o, rest', rfl, ho⟩ := hs
    unfold isAncestorBeforeOrigin
    rw [hc, ho, List.tail_cons]
    have hn := h.path.nodup
    have : (z ++ o :: rest').takeWhile (fun r => some o != some r) = z := by
      have hoz : o ∉ z := by
        intro hz
        have := List.disjoint_of_nodup_append (List.nodup_cons.1 hn).2 hz
        simp at this
      rw [List.takeWhile_append_of_pos]
      · simp
      · intro a ha
        have : o ≠ a := fun e => hoz (e ▸ ha)
        simp [this]
    rw [this]
    simp

theorem Zone.sup {st : St} {self : Nat} {fp : Bool} {z rest pre post : List Nat} {base : Nat}
    (h : Zone st self fp z rest) (hz : self :: z = pre ++ base :: post) :
    st.sup base = (post ++ rest).head? := by
  have hp := h.path
  rw [← List.cons_append, hz, List.append_assoc, List.cons_append] at hp
  exact hp.sup_split

theorem Zone.insert {st : St} {self : Nat} {fp : Bool} {z rest pre post : List Nat} {base : Nat}
    (h : Zone st self fp z rest) (hz : self :: z = pre ++ base :: post) (c : Nat) :
    ∃ z', self :: z' = pre ++ base :: st.nodes.length :: post ∧
      Zone (insertAfter st base c) self fp z' rest := by
  have hp := h.path
  have hn := hp.nodup
  rw [← List.cons_append, hz, List.append_assoc, List.cons_append] at hp hn
  have hpre : base ∉ pre := by
    intro hb
    have := List.disjoint_of_nodup_append hn hb
    simp at this
  have hpost : base ∉ post ++ rest := by
    have := (List.nodup_append.1 hn).2.1
    exact (List.nodup_cons.1 this).1
  have hi := hp.insert base c
  rw [ins_append, ins_cons_self, ins_of_not_mem _ hpre, ins_of_not_mem _ hpost] at hi
  have hex : ∃ z', self :: z' = pre ++ base :: st.nodes.length :: post := by
    cases pre with
    | nil =>
      simp at hz
      exact ⟨st.nodes.length :: post, by simp [hz.1]⟩
    | cons a pre =>
      simp at hz
      exact ⟨pre ++ base :: st.nodes.length :: post, by simp [hz.1]⟩
  obtain ⟨z', hz'⟩ := hex
  refine ⟨z', hz', ⟨?_, ?_⟩⟩
  · rw [← List.cons_append, hz', List.append_assoc]
    exact hi
  · have hself : self < st.nodes.length := h.lt self (by simp)
    have := h.stop
    rw [origin_insert hself]
    exact this

/-- A list of cells carrying distinct ids is at least as long as any list of such ids. -/
theorem ids_length {st : St} {z done : List Nat} (hd : done.Nodup)
    (h : ∀ d ∈ done, ∃ x ∈ z, st.cid x = d) : done.length ≤ z.length := by
  have hs : done ⊆ z.map st.cid := by
    intro d hd
    obtain ⟨x, hx, he⟩ := h d hd
    exact List.mem_map.2 ⟨x, hx, he⟩
  have := (List.subperm_of_subset hd hs).length_le
  simpa using this

theorem sublist_of_insert {self base new : Nat} {z z' pre post : List Nat}
    (hz : self :: z = pre ++ base :: post) (hz' : self :: z' = pre ++ base :: new :: post) :
    z.Sublist z' := by
  have : (self :: z).Sublist (self :: z') := by
    rw [hz, hz']
    exact (List.Sublist.refl pre).append (((List.Sublist.refl post).cons new).cons₂ base)
  simpa using this

/-- With distinct ids the loop never runs off the chain, and every id ends up in the zone. -/
theorem mixList_zone {self : Nat} {fp : Bool} : ∀ (cs : List Nat) {st : St} {base : Nat}
    {z rest pre post done : List Nat}, Heap st → Zone st self fp z rest →
    self :: z = pre ++ base :: post → (∀ c ∈ cs, c < st.classes.length) →
    done.length = pre.length → (done ++ cs).Nodup → (∀ d ∈ done, ∃ x ∈ z, st.cid x = d) →
    ∃ st', mixList self fp st base cs = .ok st' ∧ Grow st st' ∧
      ∃ z', Zone st' self fp z' rest ∧ z.Sublist z' ∧ ∀ c ∈ cs, ∃ x ∈ z', st'.cid x = c
  | [], st, base, z, rest, pre, post, done, _, hzn, _, _, _, _, _ =>
    ⟨st, rfl, .refl _, z, hzn, List.Sublist.refl _, by intro c hc; cases hc⟩
  | c :: cs, st, base, z, rest, pre, post, done, w, hzn, hz, hcs, hk, hnd, hdone => by
    have hbl : base < st.nodes.length := hzn.lt base (by rw [hz]; simp)
    -- the round
    have round : ∃ z1 post1, self :: z1 = pre ++ base :: post1 ∧
        Zone (mixOne st self fp base c) self fp z1 rest ∧ z.Sublist z1 ∧
        (∃ x ∈ z1, (mixOne st self fp base c).cid x = c) ∧ Grow st (mixOne st self fp base c) := by
      unfold mixOne
      cases hp : Classes.present st self fp c with
      | true =>
        simp only [if_true]
        exact ⟨z, post, hz, hzn, List.Sublist.refl _, (hzn.present c).1 hp, .refl _⟩
      | false =>
        simp only [Bool.false_eq_true, if_false]
        obtain ⟨z1, hz1, hzn1⟩ := hzn.insert hz c
        refine ⟨z1, st.nodes.length :: post, hz1, hzn1, sublist_of_insert hz hz1,
          ⟨st.nodes.length, ?_, ?_⟩, .step (.refl _) _ _ hbl (hcs c (by simp))⟩
        · have : st.nodes.length ∈ self :: z1 := by rw [hz1]; simp
          rcases List.mem_cons.1 this with h | h
          · have := hzn.lt self (by simp); omega
          · exact h
        · unfold St.cid; rw [node_insert_new]
    obtain ⟨z1, post1, hz1, hzn1, hsub, hc1, g⟩ := round
    have w1 := g.heap w
    have hdone1 : ∀ d ∈ done ++ [c], ∃ x ∈ z1, (mixOne st self fp base c).cid x = d := by
      intro d hd
      rcases List.mem_append.1 hd with hd | hd
      · obtain ⟨x, hx, he⟩ := hdone d hd
        refine ⟨x, hsub.subset hx, ?_⟩
        have := (g.node x (hzn.lt x (by simp [hx]))).1
        unfold St.cid at he ⊢
        rw [this]; exact he
      · simp at hd
        subst hd
        exact hc1
    have hnd1 : (done ++ [c]).Nodup := by
      have : (done ++ [c]).Sublist (done ++ c :: cs) :=
        (List.Sublist.refl done).append (by simp)
      exact this.nodup hnd
    have hlen := ids_length hnd1 hdone1
    -- a cell follows `base` in the zone
    have hpost : post1 ≠ [] := by
      intro h
      have := congrArg List.length hz1
      rw [h] at this
      simp at this hlen
      omega
    obtain ⟨b, post2, rfl⟩ := List.exists_cons_of_ne_nil hpost
    have hsup : (mixOne st self fp base c).sup base = some b := by
      rw [hzn1.sup hz1]; rfl
    obtain ⟨st', hok, g', z', hzn', hsub', hcs'⟩ := mixList_zone cs (base := b) (pre := pre ++ [base])
      (post := post2) (done := done ++ [c]) w1 hzn1 (by rw [hz1]; simp)
      (by intro x hx; rw [g.classes]; exact hcs x (by simp [hx]))
      (by simp [hk]) (by simpa using hnd) hdone1
    refine ⟨st', ?_, g.trans g', z', hzn', hsub.trans hsub', ?_⟩
    · rw [mixList]
      show (match (mixOne st self fp base c).sup base with
        | none => Res.panic
        | some b => mixList self fp (mixOne st self fp base c) b cs) = _
      rw [hsup]
      exact hok
    · intro x hx
      rcases List.mem_cons.1 hx with rfl | hx
      · obtain ⟨y, hy, he⟩ := hc1
        refine ⟨y, hsub'.subset hy, ?_⟩
        have := (g'.node y (hzn1.lt y (by simp [hy]))).1
        unfold St.cid at he ⊢
        rw [this]; exact he
      · exact hcs' x hx

/-- When every id is there already, nothing is inserted. -/
theorem mixList_all_present {self : Nat} {fp : Bool} : ∀ (cs : List Nat) {st : St} {base : Nat},
    (∀ c ∈ cs, present st self fp c = true) →
    mixList self fp st base cs = .ok st ∨ mixList self fp st base cs = .panic
  | [], st, base, _ => Or.inl rfl
  | c :: cs, st, base, h => by
    rw [mixList]
    rw [h c (by simp)]
    simp only [if_true]
    cases st.sup base with
    | none => exact Or.inr rfl
    | some b => exact mixList_all_present cs (fun x hx => h x (by simp [hx]))

/-- When no id is there yet, they are inserted in order behind the receiver, and only the
chains through the receiver change. -/
theorem mixList_fresh {self : Nat} {fp : Bool} : ∀ (cs : List Nat) {st : St} {base : Nat}
    {z rest pre post : List Nat}, Heap st → Zone st self fp z rest →
    self :: z = pre ++ base :: post → (∀ c ∈ cs, c < st.classes.length) → cs.Nodup →
    (∀ c ∈ cs, ∀ x ∈ z, st.cid x ≠ c) →
    ∃ st' news, mixList self fp st base cs = .ok st' ∧ Grow st st' ∧
      (∃ z', self :: z' = pre ++ base :: (news ++ post) ∧ Zone st' self fp z' rest) ∧
      news.map st'.cid = cs ∧ (∀ x ∈ news, st'.isIclass x = true ∧ st.nodes.length ≤ x) ∧
      (∀ d l, Path st d l → base ∉ l → Path st' d l)
  | [], st, base, z, rest, pre, post, _, hzn, hz, _, _, _ =>
    ⟨st, [], rfl, .refl _, ⟨z, hz, hzn⟩, rfl, by intro x hx; (cases hx), fun d l hp _ => hp⟩
  | c :: cs, st, base, z, rest, pre, post, w, hzn, hz, hcs, hnd, hfresh => by
    have hbl : base < st.nodes.length := hzn.lt base (by rw [hz]; simp)
    have hp : Classes.present st self fp c = false := by
      cases hp : Classes.present st self fp c with
      | false => rfl
      | true =>
        obtain ⟨x, hx, he⟩ := (hzn.present c).1 hp
        exact absurd he (hfresh c (by simp) x hx)
    obtain ⟨z1, hz1, hzn1⟩ := hzn.insert hz c
    have g : Grow st (insertAfter st base c) := .step (.refl _) _ _ hbl (hcs c (by simp))
    have w1 := g.heap w
    have hsup : (insertAfter st base c).sup base = some st.nodes.length := sup_insert_base hbl
    have hnewcid : (insertAfter st base c).cid st.nodes.length = c := by
      unfold St.cid; rw [node_insert_new]
    have hmem1 : ∀ x ∈ z1, x ∈ z ∨ x = st.nodes.length := by
      intro x hx
      have : x ∈ self :: z1 := by simp [hx]
      rw [hz1] at this
      have hx' : x ∈ self :: z ∨ x = st.nodes.length := by
        rw [hz]
        simp at this ⊢
        tauto
      rcases hx' with h | h
      · rcases List.mem_cons.1 h with rfl | h
        · exfalso
          have := hzn1.path.nodup
          simp [hx] at this
        · exact Or.inl h
      · exact Or.inr h
    obtain ⟨st', news, hok, g', ⟨z', hz', hzn'⟩, hmap, hicl, hother⟩ :=
      mixList_fresh cs (base := st.nodes.length) (pre := pre ++ [base]) (post := post) w1 hzn1
        (by rw [hz1]; simp) (by intro x hx; exact hcs x (by simp [hx])) (List.nodup_cons.1 hnd).2
        (by
          intro d hd x hx
          rcases hmem1 x hx with hx | rfl
          · rw [cid_insert (hzn.lt x (by simp [hx]))]
            exact hfresh d (by simp [hd]) x hx
          · rw [hnewcid]
            intro e
            subst e
            exact (List.nodup_cons.1 hnd).1 hd)
    have hnl : st.nodes.length < (insertAfter st base c).nodes.length := by
      rw [nodes_insert]; omega
    refine ⟨st', st.nodes.length :: news, ?_, g.trans g', ⟨z', ?_, hzn'⟩, ?_, ?_, ?_⟩
    · rw [mixList, hp]
      simp only [Bool.false_eq_true, if_false]
      rw [hsup]
      exact hok
    · rw [hz']; simp
    · rw [List.map_cons, hmap]
      congr 1
      have := (g'.node _ hnl).1
      unfold St.cid at hnewcid ⊢
      rw [this]; exact hnewcid
    · intro x hx
      rcases List.mem_cons.1 hx with rfl | hx
      · refine ⟨?_, Nat.le_refl _⟩
        have := (g'.node _ hnl).2.1
        unfold St.isIclass
        rw [this, node_insert_new]
        rfl
      · have := hicl x hx
        rw [nodes_insert] at this
        exact ⟨this.1, by omega⟩
    · intro d l hp hb
      have := hp.insert base c
      rw [ins_of_not_mem _ hb] at this
      refine hother d l this ?_
      intro h
      have := hp.lt _ h
      omega

/-- A successful `include` puts every id on the chain, distinct or not. -/
theorem mixList_include {self : Nat} : ∀ (cs : List Nat) {st st' : St} {base : Nat}
    {p : List Nat}, Heap st → Path st self p → base ∈ p → (∀ c ∈ cs, c < st.classes.length) →
    mixList self false st base cs = .ok st' →
    Grow st st' ∧ ∃ p', Path st' self p' ∧ p.Sublist p' ∧ ∀ c ∈ cs, ∃ x ∈ p', st'.cid x = c
  | [], st, st', base, p, _, hp, _, _, h => by
    cases h
    exact ⟨.refl _, p, hp, List.Sublist.refl _, by intro c hc; cases hc⟩
  | c :: cs, st, st', base, p, w, hp, hb, hcs, h => by
    have hbl := hp.lt base hb
    have round : ∃ p1, Path (mixOne st self false base c) self p1 ∧ p.Sublist p1 ∧
        (∃ x ∈ p1, (mixOne st self false base c).cid x = c) ∧
        Grow st (mixOne st self false base c) := by
      unfold mixOne
      cases hpr : Classes.present st self false c with
      | true =>
        simp only [if_true]
        refine ⟨p, hp, List.Sublist.refl _, ?_, .refl _⟩
        unfold Classes.present isAncestorOf at hpr
        rw [hp.chain] at hpr
        simp at hpr
        obtain ⟨x, hx, he⟩ := hpr
        exact ⟨x, List.mem_of_mem_tail hx, he⟩
      | false =>
        simp only [Bool.false_eq_true, if_false]
        have g : Grow st (insertAfter st base c) := .step (.refl _) _ _ hbl (hcs c (by simp))
        obtain ⟨l', hl', hs'⟩ := g.path hp
        refine ⟨l', hl', hs', ⟨st.nodes.length, ?_, ?_⟩, g⟩
        · rw [hl'.unique (hp.insert base c)]
          exact mem_ins_iff.2 (Or.inr ⟨rfl, hb⟩)
        · unfold St.cid; rw [node_insert_new]
    obtain ⟨p1, hp1, hsub, ⟨y, hy, hyc⟩, g⟩ := round
    have h' : (match (mixOne st self false base c).sup base with
        | none => Res.panic
        | some b => mixList self false (mixOne st self false base c) b cs) = .ok st' := h
    cases hsb : (mixOne st self false base c).sup base with
    | none => rw [hsb] at h'; cases h'
    | some b =>
      rw [hsb] at h'
      have hbp : b ∈ p1 := by
        obtain ⟨pre, post, hpp, hq⟩ := hp1.drop base (hsub.subset hb)
        cases hq with
        | last _ h => rw [hsb] at h; cases h
        | cons _ h hq' =>
          rw [hsb] at h; cases h
          obtain ⟨t', rfl⟩ := hq'.head
          rw [hpp]; simp
      obtain ⟨g', p', hp', hsub', hall⟩ := mixList_include cs (g.heap w) hp1 hbp
        (by intro x hx; rw [g.classes]; exact hcs x (by simp [hx])) h'
      refine ⟨g.trans g', p', hp', hsub.trans hsub', ?_⟩
      intro x hx
      rcases List.mem_cons.1 hx with rfl | hx
      · refine ⟨y, hsub'.subset hy, ?_⟩
        have := (g'.node y (hp1.lt y hy)).1
        unfold St.cid at hyc ⊢
        rw [this]; exact hyc
      · exact hall x hx

/-! ### The zones at the start -/

theorem Heap.zone_include {st : St} (w : Heap st) {self : Nat} (hs : self < st.nodes.length) :
    ∃ z, Zone st self false z [] := by
  obtain ⟨l, hl⟩ := w.path self hs
  obtain ⟨t, rfl⟩ := hl.head
  exact ⟨t, ⟨by simpa using hl, by simp⟩⟩

theorem Heap.zone_prepend {st : St} (w : Heap st) {self : Nat} (hs : self < st.nodes.length)
    (ho : st.hasOrigin self = true) :
    ∃ z rest, Zone st self true z rest ∧ ∀ x ∈ z, st.isIclass x = true := by
  obtain ⟨o, ho⟩ := Option.isSome_iff_exists.1 ho
  obtain ⟨l, hl⟩ := w.path self hs
  obtain ⟨_, _, _, _, h5⟩ := w.origin self o hs ho
  obtain ⟨pre, post, rfl, hk⟩ := h5 l hl
  exact ⟨pre, o :: post, ⟨hl, by simp; exact ho⟩,
    fun x hx => by simp [St.isIclass, hk x hx]⟩

end Verif.Classes
