/-
The origin of a prepend, and its propagation to the classes that mix the receiver in.
-/
import Verif.Classes.Zone

namespace Verif.Classes

/-! ### Creating the origin changes nothing a program sees -/

section
variable {st : St} {self : Nat}

theorem hasOrigin_makeOrigin_self (w : Heap st) (hs : self < st.nodes.length) :
    (makeOrigin st self).hasOrigin self = true := by
  cases ho : st.hasOrigin self with
  | true => rw [makeOrigin_has ho]; exact ho
  | false =>
    rw [makeOrigin_eq ho]
    unfold St.hasOrigin
    rw [node_setOrigin_self _ (by rw [nodes_insert]; omega)]
    rfl

theorem makeOrigin_cid (hs : self < st.nodes.length) {x : Nat} (hx : x < st.nodes.length) :
    (makeOrigin st self).cid x = st.cid x := by
  cases ho : st.hasOrigin self with
  | true => rw [makeOrigin_has ho]
  | false =>
    rw [makeOrigin_eq ho, cid_setOrigin (by rw [nodes_insert]; omega), cid_insert hx]

theorem makeOrigin_kind (hs : self < st.nodes.length) {x : Nat} (hx : x < st.nodes.length) :
    ((makeOrigin st self).node x).kind = (st.node x).kind := by
  cases ho : st.hasOrigin self with
  | true => rw [makeOrigin_has ho]
  | false =>
    rw [makeOrigin_eq ho, kind_setOrigin (by rw [nodes_insert]; omega), kind_insert hx]

theorem makeOrigin_singleton (hs : self < st.nodes.length) {x : Nat} (hx : x < st.nodes.length) :
    ((makeOrigin st self).node x).singleton = (st.node x).singleton := by
  cases ho : st.hasOrigin self with
  | true => rw [makeOrigin_has ho]
  | false =>
    rw [makeOrigin_eq ho, singleton_setOrigin (by rw [nodes_insert]; omega), singleton_insert hx]

theorem makeOrigin_origin (hs : self < st.nodes.length) {x : Nat} (hx : x < st.nodes.length)
    (hne : x ≠ self) : ((makeOrigin st self).node x).origin = (st.node x).origin := by
  cases ho : st.hasOrigin self with
  | true => rw [makeOrigin_has ho]
  | false =>
    rw [makeOrigin_eq ho, node_setOrigin_other hne, origin_insert hx]

theorem Path.makeOrigin (hs : self < st.nodes.length) (ho : st.hasOrigin self = false) {r : Nat}
    {l : List Nat} (h : Path st r l) :
    Path (makeOrigin st self) r (ins self st.nodes.length l) := by
  rw [makeOrigin_eq ho]
  exact (h.insert self _).setOrigin (by rw [nodes_insert]; omega)

/-- The rendered ids stay the same when the origin is made. -/
theorem view_makeOrigin (hs : self < st.nodes.length) (ho : st.hasOrigin self = false) :
    ∀ l : List Nat, (∀ x ∈ l, x < st.nodes.length) →
      view (makeOrigin st self) (ins self st.nodes.length l) = view st l
  | [], _ => rfl
  | x :: l, hl => by
    have ih := view_makeOrigin hs ho l (fun y hy => hl y (by simp [hy]))
    have hx := hl x (by simp)
    have e := makeOrigin_eq ho
    by_cases hxs : x = self
    · subst hxs
      rw [ins_cons_self, view_cons, view_cons, view_cons, ih, ho]
      have h1 : (Classes.makeOrigin st x).hasOrigin x = true := by
        rw [e]; unfold St.hasOrigin
        rw [node_setOrigin_self _ (by rw [nodes_insert]; omega)]; rfl
      have h2 : (Classes.makeOrigin st x).hasOrigin st.nodes.length = false := by
        rw [e]; unfold St.hasOrigin
        rw [node_setOrigin_other (by omega), node_insert_new]; rfl
      have h3 : (Classes.makeOrigin st x).cid st.nodes.length = st.cid x := by
        rw [e]; unfold St.cid
        rw [node_setOrigin_other (by omega), node_insert_new]
      rw [h1, h2, h3]
      simp
    · rw [ins_cons_ne _ _ hxs, view_cons, view_cons, ih]
      have h1 : (Classes.makeOrigin st self).hasOrigin x = st.hasOrigin x := by
        unfold St.hasOrigin; rw [makeOrigin_origin hs hx hxs]
      rw [h1, makeOrigin_cid hs hx]

/-- Lookup is the same when the origin is made. -/
theorem searchMethod_makeOrigin (w : Heap st) (hs : self < st.nodes.length) {r name : Nat}
    (hr : r < st.nodes.length) :
    searchMethod (makeOrigin st self) r name = searchMethod st r name := by
  cases ho : st.hasOrigin self with
  | true => rw [makeOrigin_has ho]
  | false =>
    have hp := w.chain hr
    rw [searchMethod_eq, searchMethod_eq, (hp.makeOrigin hs ho).chain,
      view_makeOrigin hs ho _ hp.lt]
    congr 1
    funext a
    unfold St.entry
    rw [(makeOrigin_rest st self).1]

/-- `ancestors` is the same when the origin is made. -/
theorem ancestors_makeOrigin (w : Heap st) (hs : self < st.nodes.length)
    (hsk : (st.node self).kind ≠ .icls) {d : Nat} (hd : d < st.classes.length) :
    ancestors (makeOrigin st self) d = ancestors st d := by
  cases ho : st.hasOrigin self with
  | true => rw [makeOrigin_has ho]
  | false =>
    have wo := w.makeOrigin hs hsk
    have hcls := (makeOrigin_rest st self).1
    have hobj : (makeOrigin st self).obj d = st.obj d := by unfold St.obj; rw [hcls]
    have hdl := w.obj_lt d hd
    rw [wo.ancestors_eq (by rw [hcls]; exact hd), w.ancestors_eq hd, hobj]
    have hp := w.chain hdl
    have hp' := (hp.makeOrigin hs ho).chain
    unfold St.seg
    rw [makeOrigin_kind hs hdl, hp']
    by_cases hk : (st.node (st.obj d)).kind = .cls
    · rw [if_pos hk, if_pos hk, view_makeOrigin hs ho _ hp.lt]
    · rw [if_neg hk, if_neg hk]
      obtain ⟨t, ht⟩ := hp.head
      have htl : ∀ x ∈ t, x < st.nodes.length := fun x hx => hp.lt x (by rw [ht]; simp [hx])
      rw [ht]
      have hnd := hp.nodup
      rw [ht] at hnd
      -- the cut behind the first class
      have cut : ∀ t : List Nat, (∀ x ∈ t, x < st.nodes.length) → (self ∉ t ∨ (st.node self).kind = .cls) →
          (ins self st.nodes.length t).takeWhile (fun s => ((makeOrigin st self).node s).kind != .cls) =
            t.takeWhile (fun s => (st.node s).kind != .cls) := by
        intro t
        induction t with
        | nil => intro _ _; rfl
        | cons a t ih =>
          intro hl hs'
          by_cases ha : a = self
          · subst ha
            have hk' : (st.node a).kind = .cls := by
              rcases hs' with h | h
              · simp at h
              · exact h
            rw [ins_cons_self, List.takeWhile_cons, List.takeWhile_cons (l := t),
              makeOrigin_kind hs hs, hk']
            rfl
          · rw [ins_cons_ne _ _ ha, List.takeWhile_cons, List.takeWhile_cons,
              makeOrigin_kind hs (hl a (by simp)), ih (fun x hx => hl x (by simp [hx]))]
            rcases hs' with h | h
            · exact Or.inl (fun e => h (by simp [e]))
            · exact Or.inr h
      have notin : (st.node self).kind ≠ .cls → self ∉ t := by
        intro hkc hst
        have hkm : (st.node self).kind = .mod := by
          cases h : (st.node self).kind with
          | cls => exact absurd h hkc
          | mod => rfl
          | icls => exact absurd h hsk
        rcases hp.pred self (by rw [ht]; simp [hst]) with h | ⟨y, hy, hys⟩
        · subst h; simp [hst] at hnd
        · exact w.supKind y self (hp.lt y hy) hys hkm
      have hcut : self ∉ t ∨ (st.node self).kind = .cls := by
        by_cases hkc : (st.node self).kind = .cls
        · exact Or.inr hkc
        · exact Or.inl (notin hkc)
      rw [List.tail_cons (as := t)]
      generalize htw : t.takeWhile (fun s => (st.node s).kind != .cls) = tw
      have htwl : ∀ x ∈ tw, x < st.nodes.length := by
        intro x hx; rw [← htw] at hx; exact htl x ((List.takeWhile_sublist _).subset hx)
      have hstw : self ∉ tw := by
        intro hx
        rw [← htw] at hx
        by_cases hkc : (st.node self).kind = .cls
        · have : ∀ t : List Nat, self ∈ t.takeWhile (fun s => (st.node s).kind != .cls) → False := by
            intro t
            induction t with
            | nil => intro h; cases h
            | cons a t ih =>
              rw [List.takeWhile_cons]
              split
              · rename_i ha
                intro h
                rcases List.mem_cons.1 h with rfl | h
                · rw [hkc] at ha; simp at ha
                · exact ih h
              · intro h; cases h
          exact this t hx
        · exact notin hkc ((List.takeWhile_sublist _).subset hx)
      by_cases hds : st.obj d = self
      · rw [← view_makeOrigin hs ho (st.obj d :: tw)
          (by
            intro x hx
            rcases List.mem_cons.1 hx with rfl | hx
            · exact hdl
            · exact htwl x hx)]
        subst hds
        rw [ins_cons_self, ins_cons_self, List.tail_cons, List.takeWhile_cons]
        have hnk : ((makeOrigin st (st.obj d)).node st.nodes.length).kind = .icls := by
          rw [makeOrigin_eq ho, node_setOrigin_other (by omega), node_insert_new]
        rw [hnk]
        rw [cut t htl hcut, htw, ins_of_not_mem _ hstw]
        rfl
      · rw [ins_cons_ne _ _ hds, List.tail_cons, cut t htl hcut, htw]
        rw [← view_makeOrigin hs ho (st.obj d :: tw)
          (by
            intro x hx
            rcases List.mem_cons.1 hx with rfl | hx
            · exact hdl
            · exact htwl x hx)]
        rw [ins_cons_ne _ _ hds, ins_of_not_mem _ hstw]

end

/-! ### Propagation -/

theorem findSplice_spec {st : St} {a b : Nat} {o : Option Nat} {p : Nat} :
    ∀ {l : List Nat} {prev : Nat} {seen : Bool}, findSplice st a b o prev seen l = some p →
      seen = false ∧ ∃ l1 i l2, l = l1 ++ i :: l2 ∧ st.isIclass i = true ∧ st.cid i = a ∧
        (∃ f, prev :: l1 = f ++ [p]) ∧
        (∀ x ∈ l1, ¬ (st.isIclass x = true ∧ st.cid x = b)) ∧
        (∀ x ∈ l1, ¬ (st.isIclass x = true ∧ st.cid x = a))
  | [], prev, seen, h => by simp [findSplice] at h
  | x :: l, prev, seen, h => by
    rw [findSplice] at h
    split at h
    · rename_i hx
      simp at hx
      split at h
      · cases h
      · rename_i hs
        cases h
        simp at hs
        exact ⟨hs.1, [], x, l, rfl, hx.1, hx.2, ⟨[], rfl⟩, by simp, by simp⟩
    · rename_i hx
      split at h
      · cases h
      · obtain ⟨hs, l1, i, l2, rfl, h1, h2, ⟨f, hf⟩, h4, h5⟩ := findSplice_spec h
        simp at hs hx
        refine ⟨hs.1, x :: l1, i, l2, rfl, h1, h2, ⟨prev :: f, by rw [hf]; rfl⟩, ?_, ?_⟩
        · intro y hy
          rcases List.mem_cons.1 hy with rfl | hy
          · intro hc; exact hs.2 hc.1 hc.2
          · exact h4 y hy
        · intro y hy
          rcases List.mem_cons.1 hy with rfl | hy
          · intro hc; exact hx hc.1 hc.2
          · exact h5 y hy

theorem findSplice_none {st : St} {a b : Nat} :
    ∀ {l : List Nat} {prev : Nat} {seen : Bool}, findSplice st a b none prev seen l = none →
      ∀ l1 i l2, l = l1 ++ i :: l2 → st.isIclass i = true → st.cid i = a →
        (∀ x ∈ l1, ¬ (st.isIclass x = true ∧ st.cid x = a)) →
        seen = true ∨ ∃ x ∈ l1 ++ [i], st.isIclass x = true ∧ st.cid x = b
  | [], prev, seen, _, l1, i, l2, hl, _, _, _ => by simp at hl
  | x :: l, prev, seen, h, l1, i, l2, hl, hi, hc, hno => by
    rw [findSplice] at h
    cases l1 with
    | nil =>
      simp at hl
      obtain ⟨rfl, rfl⟩ := hl
      rw [hi, hc] at h
      simp at h
      by_cases hs : seen = true
      · exact Or.inl hs
      · exact Or.inr ⟨x, by simp, hi, by
          have := h (by simpa using hs)
          omega⟩
    | cons y l1 =>
      simp at hl
      obtain ⟨rfl, rfl⟩ := hl
      have hx := hno x (by simp)
      have hx' : (st.isIclass x && st.cid x == a) = false := by
        cases h1 : st.isIclass x with
        | false => rfl
        | true =>
          cases h2 : (st.cid x == a) with
          | false => rfl
          | true => exact absurd ⟨h1, by simpa using h2⟩ hx
      rw [hx'] at h
      simp only [Bool.false_eq_true, if_false] at h
      have := findSplice_none (by simpa using h) l1 i l2 rfl hi hc (fun z hz => hno z (by simp [hz]))
      rcases this with h | ⟨z, hz, h1, h2⟩
      · simp at h
        rcases h with h | h
        · exact Or.inl h
        · exact Or.inr ⟨x, by simp, h.1, h.2⟩
      · exact Or.inr ⟨z, by simp at hz ⊢; tauto, h1, h2⟩

/-- `b` stands in front of the first iclass of `a` on the chain of `d`. -/
def Fronted (st : St) (a b d : Nat) : Prop :=
  ∃ l1 i l2, Path st d (d :: (l1 ++ i :: l2)) ∧ st.isIclass i = true ∧ st.cid i = a ∧
    (∀ x ∈ l1, ¬ (st.isIclass x = true ∧ st.cid x = a)) ∧
    ∃ x ∈ l1, st.isIclass x = true ∧ st.cid x = b

theorem cons_ins (d b new : Nat) (l : List Nat) :
    ∃ h, ins b new (d :: l) = d :: (h ++ ins b new l) ∧ (h = [] ∨ (h = [new] ∧ d = b)) := by
  by_cases hd : d = b
  · subst hd; exact ⟨[new], by rw [ins_cons_self]; rfl, Or.inr ⟨rfl, rfl⟩⟩
  · exact ⟨[], by rw [ins_cons_ne _ _ hd]; rfl, Or.inl rfl⟩

/-- Inserting more iclasses of `b` keeps `b` in front. -/
theorem Fronted.insert {st : St} {a b d : Nat} (h : Fronted st a b d) (hab : b ≠ a) (p : Nat) :
    Fronted (insertAfter st p b) a b d := by
  obtain ⟨l1, i, l2, hp, hi, hc, hno, x, hx, hxi, hxb⟩ := h
  have hlt := hp.lt
  have hq := hp.insert p b
  have hnew : (insertAfter st p b).isIclass st.nodes.length = true ∧
      (insertAfter st p b).cid st.nodes.length = b := by
    unfold St.isIclass St.cid; rw [node_insert_new]; exact ⟨rfl, rfl⟩
  obtain ⟨g, hg, hgc⟩ := cons_ins d p st.nodes.length (l1 ++ i :: l2)
  rw [hg, ins_append] at hq
  have hil : i < st.nodes.length := hlt i (by simp)
  obtain ⟨g2, hg2, hg2c⟩ := cons_ins i p st.nodes.length l2
  rw [hg2] at hq
  refine ⟨g ++ ins p st.nodes.length l1, i, g2 ++ ins p st.nodes.length l2, ?_, ?_, ?_, ?_, ?_⟩
  · simpa using hq
  · rw [isIclass_insert hil]; exact hi
  · rw [cid_insert hil]; exact hc
  · intro y hy hcon
    have hyn : y = st.nodes.length ∨ y ∈ l1 := by
      rcases List.mem_append.1 hy with hy | hy
      · rcases hgc with rfl | ⟨rfl, _⟩
        · cases hy
        · simp at hy; exact Or.inl hy
      · rcases mem_ins_iff.1 hy with h | ⟨h, _⟩
        · exact Or.inr h
        · exact Or.inl h
    rcases hyn with rfl | hy1
    · rw [hnew.2] at hcon; exact hab hcon.2
    · have hyl : y < st.nodes.length := hlt y (by simp [hy1])
      rw [isIclass_insert hyl, cid_insert hyl] at hcon
      exact hno y hy1 hcon
  · have hxl : x < st.nodes.length := hlt x (by simp [hx])
    exact ⟨x, List.mem_append_right _ (mem_ins hx), by rw [isIclass_insert hxl]; exact hxi,
      by rw [cid_insert hxl]; exact hxb⟩

/-- After its turn, a candidate without an origin that mixes `a` in has `b` in front. -/
theorem propagateOne_fronted {st : St} (w : Heap st) {a b d : Nat} (hab : b ≠ a)
    (hd : d < st.nodes.length) (ho : (st.node d).origin = none)
    (hdk : (st.node d).kind ≠ .icls)
    (hex : ∃ l, Path st d l ∧ ∃ i ∈ l, st.isIclass i = true ∧ st.cid i = a) :
    Fronted (propagateOne a b st d) a b d := by
  obtain ⟨l, hl, i, hil, hii, hic⟩ := hex
  obtain ⟨t, rfl⟩ := hl.head
  have hit : i ∈ t := by
    rcases List.mem_cons.1 hil with rfl | h
    · simp [St.isIclass] at hii; exact absurd hii hdk
    · exact h
  -- the first iclass of `a`
  have first : ∃ l1 i l2, t = l1 ++ i :: l2 ∧ st.isIclass i = true ∧ st.cid i = a ∧
      ∀ x ∈ l1, ¬ (st.isIclass x = true ∧ st.cid x = a) := by
    clear hl hil
    induction t with
    | nil => cases hit
    | cons y t ih =>
      by_cases hy : st.isIclass y = true ∧ st.cid y = a
      · exact ⟨[], y, t, rfl, hy.1, hy.2, by simp⟩
      · rcases List.mem_cons.1 hit with rfl | hit
        · exact absurd ⟨hii, hic⟩ hy
        · obtain ⟨l1, j, l2, rfl, h1, h2, h3⟩ := ih hit
          refine ⟨y :: l1, j, l2, rfl, h1, h2, ?_⟩
          intro x hx
          rcases List.mem_cons.1 hx with rfl | hx
          · exact hy
          · exact h3 x hx
  clear hit hil hii hic
  obtain ⟨l1, i, l2, rfl, hii, hic, hno⟩ := first
  unfold propagateOne
  rw [ho, hl.chain, List.tail_cons]
  cases hf : findSplice st a b none d false (l1 ++ i :: l2) with
  | none =>
    have := findSplice_none hf l1 i l2 rfl hii hic hno
    rcases this with h | ⟨x, hx, h1, h2⟩
    · cases h
    · refine ⟨l1, i, l2, hl, hii, hic, hno, x, ?_, h1, h2⟩
      rcases List.mem_append.1 hx with hx | hx
      · exact hx
      · simp at hx
        subst hx
        exact absurd (h2.symm.trans hic) hab
  | some p =>
    dsimp only
    obtain ⟨_, l1', i', l2', he, hi', hc', ⟨f, hf'⟩, hnb, hno'⟩ := findSplice_spec hf
    clear hnb
    -- both splits are at the first iclass of `a`
    have same : l1 = l1' ∧ i = i' ∧ l2 = l2' := by
      clear hf hl hf'
      induction l1 generalizing l1' with
      | nil =>
        cases l1' with
        | nil => simp at he; exact ⟨rfl, he.1, he.2⟩
        | cons y l1' =>
          simp at he
          exact absurd ⟨by rw [← he.1]; exact hii, by rw [← he.1]; exact hic⟩ (hno' y (by simp))
      | cons z l1 ih =>
        cases l1' with
        | nil =>
          simp at he
          exact absurd ⟨by rw [he.1]; exact hi', by rw [he.1]; exact hc'⟩ (hno z (by simp))
        | cons y l1' =>
          simp at he
          obtain ⟨rfl, he⟩ := he
          obtain ⟨rfl, rfl, rfl⟩ := ih (fun x hx => hno x (by simp [hx])) l1' he
            (fun x hx => hno' x (by simp [hx]))
          exact ⟨rfl, rfl, rfl⟩
    obtain ⟨rfl, rfl, rfl⟩ := same
    have hlt := hl.lt
    have hpl : d :: (l1 ++ i :: l2) = f ++ p :: i :: l2 := by
      rw [← List.cons_append, hf']; simp
    have hq := hl.insert p b
    rw [hpl] at hq
    have hnd := hl.nodup
    rw [hpl] at hnd
    have hpf : p ∉ f := by
      intro hb
      have := List.disjoint_of_nodup_append hnd hb
      simp at this
    have hpt : p ∉ i :: l2 := (List.nodup_cons.1 (List.nodup_append.1 hnd).2.1).1
    rw [ins_append, ins_cons_self, ins_of_not_mem _ hpf, ins_of_not_mem _ hpt] at hq
    have hil : i < st.nodes.length := hlt i (by simp)
    refine ⟨l1 ++ [st.nodes.length], i, l2, ?_, by rw [isIclass_insert hil]; exact hii,
      by rw [cid_insert hil]; exact hic, ?_, ⟨st.nodes.length, by simp, ?_, ?_⟩⟩
    · have : d :: (l1 ++ [st.nodes.length] ++ i :: l2) = f ++ p :: st.nodes.length :: i :: l2 := by
        rw [← List.cons_append, ← List.cons_append, hf']; simp
      rw [this]; exact hq
    · intro x hx hcon
      rcases List.mem_append.1 hx with hx | hx
      · have hxl : x < st.nodes.length := hlt x (by simp [hx])
        rw [isIclass_insert hxl, cid_insert hxl] at hcon
        exact hno x hx hcon
      · simp at hx
        subst hx
        have h2 := hcon.2
        unfold St.cid at h2
        rw [node_insert_new] at h2
        exact hab h2
    · unfold St.isIclass; rw [node_insert_new]; rfl
    · unfold St.cid; rw [node_insert_new]

theorem propagateOne_keeps_fronted {st : St} {a b d cand : Nat} (hab : b ≠ a)
    (h : Fronted st a b d) : Fronted (propagateOne a b st cand) a b d := by
  unfold propagateOne
  split
  · exact h.insert hab _
  · exact h

theorem foldl_fronted {a b d : Nat} (hab : b ≠ a) : ∀ (cs : List Nat) {st : St}, Heap st →
    (∀ c ∈ cs, c < st.nodes.length) → b < st.classes.length →
    d < st.nodes.length → (st.node d).origin = none → (st.node d).kind ≠ .icls →
    (∃ l, Path st d l ∧ ∃ i ∈ l, st.isIclass i = true ∧ st.cid i = a) →
    (Fronted st a b d ∨ d ∈ cs) → Fronted (cs.foldl (propagateOne a b) st) a b d
  | [], st, _, _, _, _, _, _, _, h => by
    rcases h with h | h
    · exact h
    · cases h
  | c :: cs, st, w, hcs, hb, hd, ho, hk, hex, h => by
    have g := propagateOne_grow (a := a) (b := b) w (hcs c (by simp)) hb
    have hn := g.node d hd
    rw [List.foldl_cons]
    refine foldl_fronted hab cs (g.heap w)
      (fun x hx => Nat.lt_of_lt_of_le (hcs x (by simp [hx])) g.le) (by rw [g.classes]; exact hb)
      (Nat.lt_of_lt_of_le hd g.le) (by rw [hn.2.2.1]; exact ho) (by rw [hn.2.1]; exact hk) ?_ ?_
    · obtain ⟨l, hl, i, hi, h1, h2⟩ := hex
      obtain ⟨l', hl', hs'⟩ := g.path hl
      have hin := g.node i (hl.lt i hi)
      refine ⟨l', hl', i, hs'.subset hi, ?_, ?_⟩
      · unfold St.isIclass at h1 ⊢; rw [hin.2.1]; exact h1
      · unfold St.cid at h2 ⊢; rw [hin.1]; exact h2
    · rcases h with h | h
      · exact Or.inl (propagateOne_keeps_fronted hab h)
      · rcases List.mem_cons.1 h with rfl | h
        · exact Or.inl (propagateOne_fronted w hab hd ho hk hex)
        · exact Or.inr h

/-! ### The receiver's own ancestors are not touched by the propagation -/

/-- What the propagation meets: the receiver's prepended part with the module in it, and no
other iclass of the receiver among the cells `ancestors` renders. -/
structure Settled (st : St) (c a b : Nat) (S z : List Nat) (o : Nat) : Prop where
  heap : Heap st
  seg : st.seg c = S
  run : ∃ l, Run st c l ∧ o ∈ l
  path : ∃ rest, Path st c (c :: (z ++ o :: rest))
  kind : (st.node c).kind ≠ .icls
  inz : ∃ y ∈ z, st.isIclass y = true ∧ st.cid y = b
  only : ∀ i ∈ S, st.isIclass i = true → st.cid i = a → i = o

theorem split_unique {α : Type} {x : α} : ∀ {p q p' q' : List α}, (p ++ x :: q).Nodup →
    p ++ x :: q = p' ++ x :: q' → p = p' ∧ q = q'
  | [], q, [], q', _, h => by simp at h; exact ⟨rfl, h⟩
  | [], q, y :: p', q', hn, h => by
    simp at h
    obtain ⟨rfl, rfl⟩ := h
    simp at hn
  | y :: p, q, [], q', hn, h => by
    simp at h
    obtain ⟨rfl, rfl⟩ := h
    simp at hn
  | y :: p, q, y' :: p', q', hn, h => by
    simp at h
    obtain ⟨rfl, h⟩ := h
    obtain ⟨rfl, rfl⟩ := split_unique (List.nodup_cons.1 hn).2 h
    exact ⟨rfl, rfl⟩

/-- The segment is closed under steps to an iclass. -/
theorem Heap.seg_step {st : St} (w : Heap st) {c p i : Nat} (hc : c < st.nodes.length)
    (hp : p ∈ st.seg c) (hs : st.sup p = some i) (hi : st.isIclass i = true) : i ∈ st.seg c := by
  have hpath := w.chain hc
  obtain ⟨t, ht⟩ := hpath.head
  unfold St.seg at hp ⊢
  by_cases hk : (st.node c).kind = .cls
  · rw [if_pos hk] at hp ⊢
    obtain ⟨pre, post, hl, hq⟩ := hpath.drop p hp
    cases hq with
    | last _ h => rw [hs] at h; cases h
    | cons _ h hq' =>
      rw [hs] at h; cases h
      obtain ⟨t', rfl⟩ := hq'.head
      rw [hl]; simp
  · rw [if_neg hk] at hp ⊢
    rw [ht, List.tail_cons] at hp ⊢
    rw [ht] at hpath
    have hik : (st.node i).kind = .icls := by simpa [St.isIclass] using hi
    -- walk along the cut
    have key : ∀ (t : List Nat) (c : Nat), Path st c (c :: t) →
        p ∈ c :: t.takeWhile (fun s => (st.node s).kind != .cls) →
        i ∈ c :: t.takeWhile (fun s => (st.node s).kind != .cls) := by
      intro t
      induction t with
      | nil =>
        intro c hpath hp
        simp at hp
        subst hp
        cases hpath with
        | last _ h => rw [hs] at h; cases h
        | cons _ h hq => exact absurd rfl hq.ne_nil
      | cons a t ih =>
        intro c hpath hp
        cases hpath with
        | cons _ hca hq =>
          obtain ⟨t', ht'⟩ := hq.head
          simp at ht'
          obtain ⟨rfl, rfl⟩ := ht'
          rw [List.takeWhile_cons] at hp ⊢
          rcases List.mem_cons.1 hp with rfl | hp
          · rw [hs] at hca; cases hca
            rw [if_pos (by rw [hik]; rfl)]
            simp
          · split at hp
            · rename_i ha
              rw [if_pos ha]
              exact List.mem_cons_of_mem _ (ih a hq hp)
            · cases hp
    exact key t c hpath hp

theorem Settled.step {st : St} {c a b : Nat} {S z : List Nat} {o : Nat}
    (h : Settled st c a b S z o) {cand : Nat} (hcand : cand < st.nodes.length)
    (hb : b < st.classes.length) (hne : cand ≠ c) (hck : (st.node cand).kind ≠ .icls) :
    Settled (propagateOne a b st cand) c a b S z o := by
  obtain ⟨w, hseg, ⟨lr, hrun, horun⟩, ⟨rest, hpath⟩, hk, ⟨y, hyz, hyi, hyb⟩, honly⟩ := h
  unfold propagateOne
  split
  swap
  · exact ⟨w, hseg, ⟨lr, hrun, horun⟩, ⟨rest, hpath⟩, hk, ⟨y, hyz, hyi, hyb⟩, honly⟩
  rename_i p hfs
  have hpc := w.chain hcand
  obtain ⟨t, ht⟩ := hpc.head
  rw [ht, List.tail_cons] at hfs
  rw [ht] at hpc
  obtain ⟨_, l1, i, l2, rfl, hii, hia, ⟨f, hf⟩, hnob, _⟩ := findSplice_spec hfs
  have hcl : c < st.nodes.length := hpath.lt c (by simp)
  have hpsplit : cand :: (l1 ++ i :: l2) = f ++ p :: i :: l2 := by
    rw [← List.cons_append, hf]; simp
  have hsupp : st.sup p = some i := by
    rw [hpsplit] at hpc
    exact hpc.sup_split
  have hpS : p ∉ S := by
    intro hpS
    have hiS : i ∈ S := by
      rw [← hseg] at hpS ⊢
      exact w.seg_step hcl hpS hsupp hii
    have hio : i = o := honly i hiS hii hia
    subst hio
    have hcm : c ∈ cand :: (l1 ++ i :: l2) := by
      by_contra hc
      exact hrun.disjoint w hpc hck hc i horun (by simp)
    obtain ⟨pre, post, hl, hq⟩ := hpc.drop c hcm
    rw [hq.unique hpath] at hl
    have hn := hpc.nodup
    have : (cand :: l1) ++ i :: l2 = (pre ++ c :: z) ++ i :: rest := by
      rw [List.cons_append, hl]; simp
    have := (split_unique (by rw [List.cons_append]; exact hn) this).1
    have hyl : y ∈ cand :: l1 := by rw [this]; simp [hyz]
    rcases List.mem_cons.1 hyl with rfl | hyl
    · simp [St.isIclass] at hyi; exact hck hyi
    · exact hnob y hyl ⟨hyi, hyb⟩
  have hpl : p < st.nodes.length := hpc.lt p (by rw [hpsplit]; simp)
  have w' := w.insert hpl hb
  -- every cell of the prepended part is rendered
  have hzS : ∀ x ∈ c :: z, x ∈ S := by
    have hch := hpath.chain
    rw [← hseg]
    unfold St.seg
    by_cases hkc : (st.node c).kind = .cls
    · rw [if_pos hkc, hch]
      intro x hx
      rw [← List.cons_append]
      exact List.mem_append_left _ hx
    · rw [if_neg hkc, hch, List.tail_cons]
      have hri : ∀ x ∈ z ++ [o], (st.node x).kind ≠ .cls := by
        -- the run reaches the origin, so only iclasses lie in front of it
        have hr2 := hpath.run
        rw [List.tail_cons] at hr2
        have hlr := hrun.unique hr2
        rw [hlr] at horun
        have hoc : o ≠ c := by
          intro e
          subst e
          have := hpath.nodup
          simp at this
        have ho' : o ∈ (z ++ o :: rest).takeWhile (fun s => st.isIclass s) := by
          rcases List.mem_cons.1 horun with e | h
          · exact absurd e hoc
          · exact h
        have hnz : (z ++ o :: rest).Nodup := (List.nodup_cons.1 hpath.nodup).2
        clear hpath hrun hr2 hlr horun hseg honly hyz hpS hch
        induction z with
        | nil =>
          intro x hx
          simp at hx
          subst hx
          simp only [List.nil_append, List.takeWhile_cons] at ho'
          split at ho'
          · rename_i hio
            have : (st.node x).kind = .icls := by simpa [St.isIclass] using hio
            rw [this]; simp
          · cases ho'
        | cons q z ih =>
          rw [List.cons_append, List.takeWhile_cons] at ho'
          split at ho'
          · rename_i hqi
            have hqk : (st.node q).kind = .icls := by simpa [St.isIclass] using hqi
            rw [List.cons_append] at hnz
            rcases List.mem_cons.1 ho' with e | ho'
            · subst e; simp at hnz
            · intro x hx
              rcases List.mem_cons.1 hx with rfl | hx
              · rw [hqk]; simp
              · exact ih ho' (List.nodup_cons.1 hnz).2 x hx
          · cases ho'
      have : ∀ z : List Nat, (∀ x ∈ z, (st.node x).kind ≠ .cls) → ∀ tl : List Nat,
          ∀ x ∈ z, x ∈ (z ++ tl).takeWhile (fun s => (st.node s).kind != .cls) := by
        intro z hz tl x hx
        rw [List.takeWhile_append_of_pos (by intro a ha; simpa using hz a ha)]
        exact List.mem_append_left _ hx
      intro x hx
      rcases List.mem_cons.1 hx with rfl | hx
      · simp
      · exact List.mem_cons_of_mem _ (this z (fun x hx => hri x (by simp [hx])) _ x hx)
  have hpz : p ∉ c :: z := fun h => hpS (hzS p h)
  have hcS : ∀ x ∈ S, x < st.nodes.length := by
    intro x hx
    rw [← hseg] at hx
    unfold St.seg at hx
    split at hx
    · exact (w.chain hcl).lt x hx
    · rcases List.mem_cons.1 hx with rfl | hx
      · exact hcl
      · exact (w.chain hcl).lt x (List.mem_of_mem_tail ((List.takeWhile_sublist _).subset hx))
  refine ⟨w', ?_, ?_, ?_, by rw [kind_insert hcl]; exact hk, ?_, ?_⟩
  · -- the rendered cells are the same
    have hch := (hpath.insert p b).chain
    have hpcne : c ≠ p := fun e => hpz (by simp [e])
    rw [← hseg]
    unfold St.seg
    rw [kind_insert hcl, hch, hpath.chain]
    by_cases hkc : (st.node c).kind = .cls
    · rw [if_pos hkc, if_pos hkc]
      apply ins_of_not_mem
      intro hx
      apply hpS
      rw [← hseg]
      unfold St.seg
      rw [if_pos hkc, hpath.chain]
      exact hx
    · rw [if_neg hkc, if_neg hkc]
      have hSeq : S = c :: (z ++ o :: rest).takeWhile (fun s => (st.node s).kind != .cls) := by
        rw [← hseg]; unfold St.seg; rw [if_neg hkc, hpath.chain]; rfl
      rw [ins_cons_ne _ _ hpcne, List.tail_cons, List.tail_cons]
      congr 1
      have hpt : p ∉ (z ++ o :: rest).takeWhile (fun s => (st.node s).kind != .cls) := by
        intro h; apply hpS; rw [hSeq]; simp [h]
      have hlt : ∀ x ∈ z ++ o :: rest, x < st.nodes.length := fun x hx =>
        hpath.lt x (List.mem_cons_of_mem _ hx)
      generalize z ++ o :: rest = t at hpt hlt
      induction t with
      | nil => rfl
      | cons q t ih =>
        have hql := hlt q (by simp)
        by_cases hqk : (st.node q).kind = .cls
        · rw [List.takeWhile_cons, hqk]
          by_cases hqp : q = p
          · subst hqp
            rw [ins_cons_self, List.takeWhile_cons, kind_insert hql, hqk]
            rfl
          · rw [ins_cons_ne _ _ hqp, List.takeWhile_cons, kind_insert hql, hqk]
            rfl
        · rw [List.takeWhile_cons, if_pos (by simpa using hqk)] at hpt ⊢
          have hqp : q ≠ p := fun e => hpt (by simp [e])
          rw [ins_cons_ne _ _ hqp, List.takeWhile_cons, kind_insert hql, if_pos (by simpa using hqk)]
          rw [ih (fun h => hpt (by simp [h])) (fun x hx => hlt x (by simp [hx]))]
  · refine ⟨lr, hrun.insert w ?_, horun⟩
    intro hplr
    apply hpS
    -- the run is rendered
    have hr2 := hpath.run
    have hlr := hrun.unique hr2
    rw [hlr] at hplr
    rw [← hseg]
    unfold St.seg
    rw [hpath.chain]
    rcases List.mem_cons.1 hplr with rfl | h
    · split <;> simp
    · rw [List.tail_cons] at h
      split
      · exact List.mem_cons_of_mem _ ((List.takeWhile_sublist _).subset h)
      · refine List.mem_cons_of_mem _ ?_
        rw [List.tail_cons]
        revert h
        generalize z ++ o :: rest = t
        intro h
        induction t with
        | nil => cases h
        | cons q t ih =>
          rw [List.takeWhile_cons] at h ⊢
          split at h
          · rename_i hq
            have hqk : (st.node q).kind = .icls := by simpa [St.isIclass] using hq
            rw [if_pos (by rw [hqk]; rfl)]
            rcases List.mem_cons.1 h with rfl | h
            · simp
            · exact List.mem_cons_of_mem _ (ih h)
          · cases h
  · have hi := hpath.insert p b
    have e : c :: (z ++ o :: rest) = (c :: z) ++ (o :: rest) := rfl
    rw [e, ins_append, ins_of_not_mem _ hpz] at hi
    obtain ⟨g, hg, _⟩ := cons_ins o p st.nodes.length rest
    rw [hg] at hi
    exact ⟨_, hi⟩
  · have hyl : y < st.nodes.length := hcS y (hzS y (by simp [hyz]))
    exact ⟨y, hyz, by rw [isIclass_insert hyl]; exact hyi, by rw [cid_insert hyl]; exact hyb⟩
  · intro x hx h1 h2
    rw [isIclass_insert (hcS x hx)] at h1
    rw [cid_insert (hcS x hx)] at h2
    exact honly x hx h1 h2

theorem Settled.foldl {c a b o : Nat} {S z : List Nat} : ∀ (cs : List Nat) {st : St},
    Settled st c a b S z o → (∀ d ∈ cs, d < st.nodes.length ∧ d ≠ c ∧ (st.node d).kind ≠ .icls) →
    b < st.classes.length →
    Settled (cs.foldl (propagateOne a b) st) c a b S z o
  | [], st, h, _, _ => h
  | d :: cs, st, h, hcs, hb => by
    obtain ⟨h1, h2, h3⟩ := hcs d (by simp)
    have g := propagateOne_grow (a := a) (b := b) h.heap h1 hb
    rw [List.foldl_cons]
    refine Settled.foldl cs (h.step h1 hb h2 h3) ?_ (by rw [g.classes]; exact hb)
    intro e he
    obtain ⟨h1, h2, h3⟩ := hcs e (by simp [he])
    exact ⟨Nat.lt_of_lt_of_le h1 g.le, h2, by rw [(g.node e h1).2.1]; exact h3⟩

end Verif.Classes
