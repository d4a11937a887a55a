import Verif.SetAlg.Lemmas
import Mathlib.Data.Nat.Bitwise
import Mathlib.Data.List.Pairwise

/-!
# C137: Set

`V` are objects, `cls` their classes under `eql?`; `has s v` is `s.include?(v)`, `same cls i` is how a
set compares (by identity when `i`).
-/

namespace Verif.SetAlg

variable {V K : Type} [DecidableEq V] [DecidableEq K]

/-! ## one element at a time -/

/-- C137: `add` makes the value an element and changes nothing else; adding what is there leaves the
set as it is; `add?` says which of the two. -/
theorem C137_add (cls : V → K) (s : S V) (v w : V) :
    (has cls (ins cls s v) w = true ↔ has cls s w = true ∨ same cls s.ident v w = true) ∧
      (has cls s v = true → ins cls s v = s ∧ addQ cls s v = none) ∧
      (has cls s v = false → addQ cls s v = some (ins cls s v) ∧ (ins cls s v).elems = s.elems ++ [v]) := by
  refine ⟨by rw [has_ins, Bool.or_eq_true], fun h => ?_, fun h => ?_⟩
  · simp [ins, addQ, h]
  · simp [ins, addQ, h]

/-- C137: `delete` removes the value and nothing else; `delete?` does the same, and says whether
it was there. -/
theorem C137_delete (cls : V → K) (s : S V) (v w : V) :
    (has cls (del cls s v) w = true ↔ has cls s w = true ∧ same cls s.ident v w = false) ∧
      (deleteQ cls s v = none ↔ has cls s v = false) ∧ (has cls s v = false → del cls s v = s) ∧
      (has cls s v = true → deleteQ cls s v = some (del cls s v)) := by
  refine ⟨?_, ?_, ?_, fun h => by simp [deleteQ, h]⟩
  · have := has_filter (cls := cls) (s := s) (fun e => !same cls s.ident e v)
      (fun a b h => by rw [same_congr h]) w
    unfold del
    rw [this, Bool.and_eq_true, same_symm cls s.ident w v]
    simp
  · unfold deleteQ
    cases has cls s v <;> simp
  · intro h
    unfold del
    have : s.elems.filter (fun e => !same cls s.ident e v) = s.elems := by
      rw [List.filter_eq_self]
      intro e he
      cases hs : same cls s.ident e v with
      | false => rfl
      | true => rw [(has_iff cls s v).2 ⟨e, he, hs⟩] at h; cases h
    rw [this]

/-! ## the algebra -/

theorem probe (cls : V → K) (i : Bool) (vs : List V) (w : V) :
    has cls (insAll cls ⟨i, []⟩ vs) w = vs.any (same cls i · w) := by
  rw [has_insAll]; simp [has]

theorem any_congr_same {cls : V → K} {i : Bool} (vs : List V) (a b : V) (h : same cls i a b = true) :
    vs.any (same cls i · a) = vs.any (same cls i · b) := by
  congr 1
  funext e
  rw [same_symm, same_congr h, same_symm]

/-- C137: `a | b`, `a - b`, `a ^ b` have what is in either, in `a` only, in exactly one, by the
comparison of `a`, and compare as `a` does; so do `merge` and `subtract` in place. -/
theorem C137_algebra (cls : V → K) (s : S V) (hs : WF cls s) (a : Arg V) (w : V) :
    let inB := a.list.any (same cls s.ident · w)
    (has cls (union cls s a) w = (has cls s w || inB) ∧ (union cls s a).ident = s.ident) ∧
    (has cls (diff cls s a) w = (has cls s w && !inB) ∧ (diff cls s a).ident = s.ident) ∧
    (has cls (symdiff cls s a) w = (has cls s w ^^ inB) ∧ (symdiff cls s a).ident = s.ident) ∧
    has cls (merge cls s [a]) w = (has cls s w || inB) ∧
    subtract cls s a = diff cls s a := by
  have hdiff : diff cls s a =
      ⟨s.ident, s.elems.filter fun k => !has cls (insAll cls ⟨s.ident, []⟩ a.list) k⟩ := by
    unfold diff
    rw [insAll_append cls _ ⟨s.ident, []⟩ (by simpa using wf_filter hs _)]
    rfl
  have hdhas : has cls (diff cls s a) w = (has cls s w && !a.list.any (same cls s.ident · w)) := by
    rw [hdiff, has_filter (fun k => !has cls (insAll cls ⟨s.ident, []⟩ a.list) k)
      (fun x y h => by rw [probe, probe, any_congr_same a.list x y h])]
    rw [probe]
  have hbase : insAll cls ⟨s.ident, []⟩ s.elems = s := by
    rw [insAll_append cls _ ⟨s.ident, []⟩ (by simpa using hs)]
    rfl
  refine ⟨⟨?_, ?_⟩, ⟨hdhas, by rw [hdiff]⟩, ⟨?_, ?_⟩, ?_, ?_⟩
  · unfold union
    rw [hbase, has_insAll]
  · unfold union
    rw [insAll_ident, insAll_ident]
  · have hsd : symdiff cls s a = insAll cls (diff cls s a)
        ((insAll cls ⟨s.ident, []⟩ a.list).elems.filter fun k => !has cls s k) := rfl
    rw [hsd, has_insAll, hdhas]
    have hid : (diff cls s a).ident = s.ident := by rw [hdiff]
    have h2 := has_filter (cls := cls) (s := ⟨s.ident, (insAll cls ⟨s.ident, []⟩ a.list).elems⟩)
      (fun k => !has cls s k) (fun x y h => by rw [has_congr (s := s) h]) w
    have h3 : has cls ⟨s.ident, (insAll cls ⟨s.ident, []⟩ a.list).elems⟩ w = a.list.any (same cls s.ident · w) := by
      rw [← probe cls s.ident a.list w]
      unfold has
      rw [insAll_ident]
    rw [h3] at h2
    have h2' : (List.filter (fun k => !has cls s k) (insAll cls ⟨s.ident, []⟩ a.list).elems).any
        (same cls s.ident · w) = (a.list.any (same cls s.ident · w) && !has cls s w) := h2
    rw [hid, h2']
    cases has cls s w <;> cases a.list.any (same cls s.ident · w) <;> rfl
  · unfold symdiff
    simp only
    rw [insAll_ident, insAll_ident]
  · unfold merge
    rw [List.foldl_cons, List.foldl_nil, has_insAll]
  · unfold subtract
    rw [del_foldl, hdiff]
    congr 1
    apply List.filter_congr
    intro e _
    rw [probe]
    congr 2
    funext v
    rw [same_symm]

/-- C137: `a & b` has what is in both; by identity when `a` compares so, then without repeats under
`eql?`. -/
theorem C137_intersection (cls : V → K) (s : S V) (a : Arg V) :
    (∀ w, s.ident = false → has cls (inter cls s a) w = (has cls s w && a.list.any (same cls false · w))) ∧
    (∀ w, has cls (inter cls s a) w = true ↔
      ∃ e ∈ s.elems, (∃ x ∈ a.list, same cls s.ident x e = true) ∧ cls e = cls w) ∧
    (inter cls s a).ident = false ∧ WF cls (inter cls s a) := by
  have h2 : ∀ w, has cls (inter cls s a) w = true ↔
      ∃ e ∈ s.elems, (∃ x ∈ a.list, same cls s.ident x e = true) ∧ cls e = cls w := by
    intro w
    unfold inter
    simp only
    rw [probe, List.any_eq_true]
    simp only [List.mem_filter, probe, List.any_eq_true]
    constructor
    · rintro ⟨e, ⟨he, hx⟩, hs⟩
      exact ⟨e, he, hx, by simpa [same] using hs⟩
    · rintro ⟨e, he, hx, hc⟩
      exact ⟨e, ⟨he, hx⟩, by simpa [same] using hc⟩
  refine ⟨fun w hi => ?_, h2, by unfold inter; rw [insAll_ident], wf_insAll _ (wf_empty cls false)⟩
  rw [Bool.eq_iff_iff, h2, Bool.and_eq_true, has_iff, List.any_eq_true]
  simp only [hi, same_iff]
  constructor
  · rintro ⟨e, he, ⟨x, hx, hxe⟩, hc⟩
    exact ⟨⟨e, he, by simpa using hc⟩, x, hx, by simpa using (by simpa using hxe : cls x = cls e).trans hc⟩
  · rintro ⟨⟨e, he, hc⟩, x, hx, hxw⟩
    have hc' : cls e = cls w := by simpa using hc
    have hx' : cls x = cls w := by simpa using hxw
    exact ⟨e, he, ⟨x, hx, by simpa using hx'.trans hc'.symm⟩, hc'⟩

/-- C137: the order: union keeps the receiver's order and appends what is new, difference keeps the
receiver's order. -/
theorem C137_order (cls : V → K) (s : S V) (hs : WF cls s) (a : Arg V) :
    s.elems <+: (union cls s a).elems ∧ (diff cls s a).elems.Sublist s.elems := by
  constructor
  · unfold union
    rw [insAll_append cls _ ⟨s.ident, []⟩ (by simpa using hs)]
    have key : ∀ (vs : List V) (t : S V), t.elems <+: (insAll cls t vs).elems := by
      intro vs
      induction vs with
      | nil => intro t; exact List.prefix_rfl
      | cons x xs ih =>
        intro t
        refine List.IsPrefix.trans ?_ (ih (ins cls t x))
        unfold ins
        split_ifs
        · exact List.prefix_rfl
        · exact List.prefix_append _ _
    exact key a.list _
  · unfold diff
    simp only
    rw [insAll_append cls _ ⟨s.ident, []⟩ (by simpa using wf_filter hs _)]
    exact List.filter_sublist

/-- C137: no operation gives a set with an element twice. -/
theorem C137_no_repeats (cls : V → K) (s : S V) (hs : WF cls s) (v : V) (vs : List V) (a : Arg V)
    (p : V → Bool) (f : V → V) :
    WF cls (ins cls s v) ∧ WF cls (del cls s v) ∧ WF cls (ofList cls vs) ∧ WF cls (union cls s a) ∧
      WF cls (diff cls s a) ∧ WF cls (symdiff cls s a) ∧ WF cls (inter cls s a) ∧ WF cls (replace cls s a) ∧
      WF cls (deleteIf cls s p) ∧ WF cls (keepIf cls s p) ∧ WF cls (collectB cls s f) := by
  refine ⟨wf_ins hs v, wf_filter hs _, wf_insAll _ (wf_empty cls false), wf_insAll _ (wf_insAll _ (wf_empty cls _)),
    wf_insAll _ (wf_empty cls _), wf_insAll _ (wf_insAll _ (wf_empty cls _)), wf_insAll _ (wf_empty cls _), ?_, ?_, ?_,
    wf_insAll _ (wf_empty cls _)⟩
  · cases a <;> exact wf_insAll _ (wf_empty cls _)
  · unfold deleteIf; rw [del_foldl]; exact wf_filter hs _
  · unfold keepIf; rw [del_foldl]; exact wf_filter hs _

/-! ## comparison -/

/-- C137: `subset?`, `superset?`, the proper ones, `==` and `<=>` are what they say of the elements;
the short cuts by size change nothing. -/
theorem C137_compare (cls : V → K) (s t : S V) (hi : s.ident = t.ident) (hs : WF cls s) (ht : WF cls t) :
    (subset cls s t = true ↔ ∀ w, has cls s w = true → has cls t w = true) ∧
    (superset cls s t = true ↔ ∀ w, has cls t w = true → has cls s w = true) ∧
    (eq cls s t = true ↔ ∀ w, has cls s w = has cls t w) ∧
    (properSubset cls s t = true ↔ subset cls s t = true ∧ eq cls s t = false) ∧
    (properSuperset cls s t = true ↔ superset cls s t = true ∧ eq cls s t = false) ∧
    (cmp cls s t = some 0 ↔ eq cls s t = true) ∧
    (cmp cls s t = some (-1) ↔ properSubset cls s t = true) ∧
    (cmp cls s t = some 1 ↔ properSuperset cls s t = true) := by
  have hall : ∀ (a b : S V), a.ident = b.ident →
      ((∀ e ∈ a.elems, has cls b e = true) ↔ ∀ w, has cls a w = true → has cls b w = true) := by
    intro a b hab
    constructor
    · intro h w hw
      obtain ⟨e, he, hsm⟩ := (has_iff cls a w).1 hw
      rw [hab] at hsm
      rw [← has_congr (s := b) hsm]
      exact h e he
    · intro h e he
      exact h e ((has_iff cls a e).2 ⟨e, he, same_refl cls _ e⟩)
  -- the answers without the short cuts
  have hsub : subset cls s t = s.elems.all (has cls t) := by
    unfold subset
    split_ifs with h
    · symm
      rw [Bool.eq_false_iff]
      intro hc
      have := (card_le hi hs (by simpa using hc)).1
      omega
    · rfl
  have hsup : superset cls s t = t.elems.all (has cls s) := by
    unfold superset
    split_ifs with h
    · symm
      rw [Bool.eq_false_iff]
      intro hc
      have := (card_le hi.symm ht (by simpa using hc)).1
      omega
    · rfl
  have heq : eq cls s t = (s.elems.all (has cls t) && t.elems.all (has cls s)) := by
    rw [Bool.eq_iff_iff]
    unfold eq
    simp only [Bool.and_eq_true, decide_eq_true_eq, hi, true_and]
    constructor
    · rintro ⟨hl, ha⟩
      refine ⟨ha, ?_⟩
      simpa using (card_le hi hs (by simpa using ha)).2 hl
    · rintro ⟨ha, hb⟩
      have h1 := (card_le hi hs (by simpa using ha)).1
      have h2 := (card_le hi.symm ht (by simpa using hb)).1
      exact ⟨by omega, ha⟩
  have hps : properSubset cls s t = (s.elems.all (has cls t) && !t.elems.all (has cls s)) := by
    unfold properSubset
    split_ifs with h
    · symm
      rw [Bool.and_eq_false_iff]
      by_cases ha : s.elems.all (has cls t) = true
      · right
        have h1 := card_le hi hs (by simpa using ha)
        have := h1.2 (by omega)
        simpa using this
      · left; simpa using ha
    · by_cases hb : t.elems.all (has cls s) = true
      · have h2 := (card_le hi.symm ht (by simpa using hb)).1
        omega
      · simp [hb]
  have hpp : properSuperset cls s t = (t.elems.all (has cls s) && !s.elems.all (has cls t)) := by
    unfold properSuperset
    split_ifs with h
    · symm
      rw [Bool.and_eq_false_iff]
      by_cases ha : t.elems.all (has cls s) = true
      · right
        have h1 := card_le hi.symm ht (by simpa using ha)
        have := h1.2 (by omega)
        simpa using this
      · left; simpa using ha
    · by_cases hb : s.elems.all (has cls t) = true
      · have h2 := (card_le hi hs (by simpa using hb)).1
        omega
      · simp [hb]
  refine ⟨?_, ?_, ?_, ?_, ?_, ?_, ?_, ?_⟩
  · rw [hsub, List.all_eq_true]; exact hall s t hi
  · rw [hsup, List.all_eq_true]; exact hall t s hi.symm
  · rw [heq, Bool.and_eq_true, List.all_eq_true, List.all_eq_true]
    constructor
    · rintro ⟨h1, h2⟩ w
      rw [Bool.eq_iff_iff]
      exact ⟨(hall s t hi).1 h1 w, (hall t s hi.symm).1 h2 w⟩
    · intro h
      exact ⟨(hall s t hi).2 fun w hw => (h w) ▸ hw, (hall t s hi.symm).2 fun w hw => (h w).symm ▸ hw⟩
  · rw [hps, hsub, heq]
    cases s.elems.all (has cls t) <;> cases t.elems.all (has cls s) <;> simp
  · rw [hpp, hsup, heq]
    cases s.elems.all (has cls t) <;> cases t.elems.all (has cls s) <;> simp
  · rw [heq]; unfold cmp
    cases s.elems.all (has cls t) <;> cases t.elems.all (has cls s) <;> simp
  · rw [hps]; unfold cmp
    cases s.elems.all (has cls t) <;> cases t.elems.all (has cls s) <;> simp
  · rw [hpp]; unfold cmp
    cases s.elems.all (has cls t) <;> cases t.elems.all (has cls s) <;> simp

/-- C137: `disjoint?` and `intersect?` are opposite, and say whether there is a common element. -/
theorem C137_disjoint (cls : V → K) (s : S V) (a : Arg V) :
    disjoint cls s a = !intersect cls s a ∧
      ((∀ t, a = .set t → t.ident = s.ident) →
        (intersect cls s a = true ↔ ∃ w, has cls s w = true ∧ ∃ x ∈ a.list, same cls s.ident x w = true)) := by
  constructor
  · cases a with
    | set t => simp only [disjoint, intersect]; split_ifs <;> rfl
    | enum vs => rfl
  · intro hm
    have hx : ∀ vs : List V, vs.any (has cls s) = true ↔
        ∃ w, has cls s w = true ∧ ∃ x ∈ vs, same cls s.ident x w = true := by
      intro vs
      rw [List.any_eq_true]
      constructor
      · rintro ⟨x, hx, h⟩; exact ⟨x, h, x, hx, same_refl cls _ x⟩
      · rintro ⟨w, hw, x, hx, h⟩; exact ⟨x, hx, by rw [has_congr (s := s) h]; exact hw⟩
    cases a with
    | enum vs => exact hx vs
    | set t =>
      have hti := hm t rfl
      simp only [intersect, Arg.list]
      split_ifs with h
      · rw [List.any_eq_true]
        constructor
        · rintro ⟨e, he, ht⟩
          obtain ⟨x, hx, hsm⟩ := (has_iff cls t e).1 ht
          exact ⟨e, (has_iff cls s e).2 ⟨e, he, same_refl cls _ e⟩, x, hx, by rw [← hti]; exact hsm⟩
        · rintro ⟨w, hw, x, hx, hsm⟩
          obtain ⟨e, he, hew⟩ := (has_iff cls s w).1 hw
          refine ⟨e, he, (has_iff cls t e).2 ⟨x, hx, ?_⟩⟩
          rw [hti]
          exact same_trans hsm (by rw [same_symm]; exact hew)
      · exact hx t.elems

/-- C137: equal sets have equal hashes, whatever the order in which they were filled. -/
theorem C137_hash (cls : V → K) (h : V → Nat) (hh : ∀ a b, cls a = cls b → h a = h b) (s t : S V)
    (hs : WF cls s) (ht : WF cls t) (he : eq cls s t = true) : hash h s = hash h t := by
  have hi : s.ident = t.ident := by
    unfold eq at he
    simp only [Bool.and_eq_true, decide_eq_true_eq] at he
    exact he.1.1
  have heq := ((C137_compare cls s t hi hs ht).2.2.1).1 he
  -- the hashes of the elements are the same up to order
  have hperm : (s.elems.map h).Perm (t.elems.map h) := by
    let key : V → (V ⊕ K) := fun v => if s.ident then .inl v else .inr (cls v)
    have hkey : ∀ a b, key a = key b ↔ same cls s.ident a b = true := by
      intro a b
      rw [same_iff]
      show (if s.ident then Sum.inl a else Sum.inr (cls a)) = (if s.ident then Sum.inl b else Sum.inr (cls b)) ↔ _
      split_ifs <;> simp
    have hnd : ∀ u : S V, u.ident = s.ident → WF cls u → (u.elems.map key).Nodup := by
      intro u hu hw
      rw [List.Nodup, List.pairwise_map]
      refine List.Pairwise.imp ?_ hw
      intro a b hab hk
      rw [hu, (hkey a b).1 hk] at hab
      cases hab
    have hmem : ∀ k, k ∈ s.elems.map key ↔ k ∈ t.elems.map key := by
      intro k
      constructor
      · intro hk
        obtain ⟨e, hee, rfl⟩ := List.mem_map.1 hk
        have := (has_iff cls s e).2 ⟨e, hee, same_refl cls _ e⟩
        rw [heq e] at this
        obtain ⟨f, hf, hsm⟩ := (has_iff cls t e).1 this
        rw [← hi] at hsm
        rw [← (hkey f e).2 hsm]
        exact List.mem_map_of_mem hf
      · intro hk
        obtain ⟨e, hee, rfl⟩ := List.mem_map.1 hk
        have := (has_iff cls t e).2 ⟨e, hee, same_refl cls _ e⟩
        rw [← heq e] at this
        obtain ⟨f, hf, hsm⟩ := (has_iff cls s e).1 this
        rw [← (hkey f e).2 hsm]
        exact List.mem_map_of_mem hf
    have hp : (s.elems.map key).Perm (t.elems.map key) :=
      (List.perm_ext_iff_of_nodup (hnd s rfl hs) (hnd t hi.symm ht)).2 hmem
    -- the hash of an element depends only on its key
    have hg : ∃ g : V ⊕ K → Nat, ∀ v ∈ s.elems ++ t.elems, g (key v) = h v := by
      classical
      refine ⟨fun k => if hk : ∃ v, key v = k then h hk.choose else 0, fun v _ => ?_⟩
      have hk : ∃ w, key w = key v := ⟨v, rfl⟩
      simp only [dif_pos hk]
      have := (hkey _ _).1 hk.choose_spec
      rw [same_iff] at this
      split_ifs at this
      · rw [this]
      · exact hh _ _ this
    obtain ⟨g, hg⟩ := hg
    have e1 : s.elems.map h = (s.elems.map key).map g := by
      rw [List.map_map]
      apply List.map_congr_left
      intro v hv
      exact (hg v (by simp [hv])).symm
    have e2 : t.elems.map h = (t.elems.map key).map g := by
      rw [List.map_map]
      apply List.map_congr_left
      intro v hv
      exact (hg v (by simp [hv])).symm
    rw [e1, e2]
    exact hp.map g
  have hfold : ∀ u : S V, hash h u = (u.elems.map h).foldl (· ^^^ ·) 0x5e75e75e75e7 := by
    intro u
    unfold hash
    rw [List.foldl_map]
  rw [hfold, hfold]
  exact hperm.foldl_eq' (fun a _ b _ z => by rw [Nat.xor_assoc, Nat.xor_comm a b, ← Nat.xor_assoc]) _

/-! ## copies -/

/-- C137: the copy of a set that compares by `eql?` is the set. -/
theorem C137_dup_partial (cls : V → K) (s : S V) (hs : WF cls s) (hi : s.ident = false) : dup cls s = s := by
  obtain ⟨i, es⟩ := s
  simp only at hi
  subst hi
  unfold dup ofList
  rw [insAll_append cls _ ⟨false, []⟩ (by simpa using hs)]
  rfl

/-- C137: the copy of a set that compares by identity loses all but one of the elements that are
`eql?`: the copy of a set of two equal Strings has one. -/
theorem C137_dup_identity_fails :
    ∃ s : S Nat, WF (fun _ => ()) s ∧ s.elems.length = 2 ∧ (dup (fun _ => ()) s).elems.length = 1 :=
  ⟨⟨true, [1, 2]⟩, by unfold WF; decide, rfl, by decide⟩

/-- C137: `replace` by a set gives that set, by anything else its elements under the receiver's
comparison. -/
theorem C137_replace (cls : V → K) (s t : S V) (ht : WF cls t) (vs : List V) (w : V) :
    replace cls s (.set t) = t ∧
      has cls (replace cls s (.enum vs)) w = vs.any (same cls s.ident · w) := by
  constructor
  · show insAll cls ⟨t.ident, []⟩ t.elems = t
    rw [insAll_append cls _ ⟨t.ident, []⟩ (by simpa using ht)]
    rfl
  · unfold replace
    exact probe cls s.ident vs w

/-! ## with blocks -/

/-- C137: `delete_if` and `keep_if` keep in order exactly the elements the block is false, true of;
`reject!` and `select!` do the same and say `nil` exactly when nothing went. -/
theorem C137_filter (cls : V → K) (s : S V) (hs : WF cls s) (p : V → Bool) :
    deleteIf cls s p = ⟨s.ident, s.elems.filter fun v => !p v⟩ ∧
    keepIf cls s p = ⟨s.ident, s.elems.filter p⟩ ∧
    rejectB cls s p = (if s.elems.any p then some ⟨s.ident, s.elems.filter fun v => !p v⟩ else none) ∧
    selectB cls s p = (if s.elems.all p then none else some ⟨s.ident, s.elems.filter p⟩) := by
  have key : ∀ q : V → Bool, (s.elems.filter q).foldl (del cls) s = ⟨s.ident, s.elems.filter fun v => !q v⟩ := by
    intro q
    rw [del_foldl]
    congr 1
    apply List.filter_congr
    intro e he
    cases hq : q e with
    | true =>
      have : (s.elems.filter q).any (fun v => same cls s.ident e v) = true := by
        rw [List.any_eq_true]
        exact ⟨e, List.mem_filter.2 ⟨he, hq⟩, same_refl cls _ e⟩
      simp [this]
    | false =>
      have : (s.elems.filter q).any (fun v => same cls s.ident e v) = false := by
        rw [Bool.eq_false_iff]
        intro hc
        obtain ⟨x, hx, hsm⟩ := List.any_eq_true.1 hc
        obtain ⟨hxm, hqx⟩ := List.mem_filter.1 hx
        have hne : e ≠ x := by rintro rfl; rw [hq] at hqx; cases hqx
        haveI : Std.Symm fun a b => same cls s.ident a b = false := ⟨fun a b hab => by rw [same_symm]; exact hab⟩
        have := List.Pairwise.forall hs he hxm hne
        rw [hsm] at this
        cases this
      simp [this]
  have hd : deleteIf cls s p = ⟨s.ident, s.elems.filter fun v => !p v⟩ := key p
  have hk : keepIf cls s p = ⟨s.ident, s.elems.filter p⟩ := by
    unfold keepIf
    rw [key]
    simp
  refine ⟨hd, hk, ?_, ?_⟩
  · unfold rejectB
    rw [hd]
    by_cases h : s.elems.filter p = []
    · rw [if_pos h, if_neg]
      rw [List.filter_eq_nil_iff] at h
      simpa using h
    · rw [if_neg h, if_pos]
      rw [List.filter_eq_nil_iff] at h
      simpa using h
  · unfold selectB
    rw [hk]
    by_cases h : (s.elems.filter fun v => !p v) = []
    · rw [if_pos h, if_pos]
      rw [List.filter_eq_nil_iff] at h
      simpa using h
    · rw [if_neg h, if_neg]
      rw [List.filter_eq_nil_iff] at h
      simpa using h

/-- C137: `map!` has what the block gave for the elements. -/
theorem C137_map (cls : V → K) (s : S V) (f : V → V) (w : V) :
    has cls (collectB cls s f) w = true ↔ ∃ e ∈ s.elems, cls (f e) = cls w := by
  unfold collectB
  rw [probe, List.any_map, List.any_eq_true]
  simp [same]

theorem classify_inv {C : Type} [DecidableEq C] (cls : V → K) (f : V → C) (vs before : List V) (h : List (C × S V))
    (h1 : (h.map Prod.fst).Nodup) (h2 : ∀ c, c ∈ h.map Prod.fst ↔ c ∈ before.map f)
    (h3 : ∀ e ∈ h, e.2 = insAll cls ⟨false, []⟩ (before.filter fun v => f v = e.1)) :
    let r := vs.foldl (classifyStep cls f) h
    (r.map Prod.fst).Nodup ∧ (∀ c, c ∈ r.map Prod.fst ↔ c ∈ (before ++ vs).map f) ∧
      ∀ e ∈ r, e.2 = insAll cls ⟨false, []⟩ ((before ++ vs).filter fun v => f v = e.1) := by
  induction vs generalizing before h with
  | nil => rw [List.append_nil]; exact ⟨h1, h2, h3⟩
  | cons x xs ih =>
    have hassoc : before ++ x :: xs = (before ++ [x]) ++ xs := by simp
    simp only [List.foldl_cons, hassoc]
    apply ih
    all_goals unfold classifyStep
    · by_cases hc : h.any (fun e => decide (e.1 = f x)) = true
      · rw [if_pos hc]
        have : (h.map fun e => if e.1 = f x then (e.1, ins cls e.2 x) else e).map Prod.fst = h.map Prod.fst := by
          rw [List.map_map]
          apply List.map_congr_left
          intro e _
          simp only [Function.comp]
          split_ifs <;> rfl
        rw [this]; exact h1
      · rw [if_neg hc, List.map_append, List.nodup_append]
        refine ⟨h1, by simp, ?_⟩
        intro c hcm d hd
        simp only [List.map_cons, List.map_nil, List.mem_singleton] at hd
        rintro rfl
        apply hc
        obtain ⟨e, he, rfl⟩ := List.mem_map.1 hcm
        rw [List.any_eq_true]
        exact ⟨e, he, by simpa using hd⟩
    · intro c
      by_cases hc : h.any (fun e => decide (e.1 = f x)) = true
      · rw [if_pos hc]
        have : (h.map fun e => if e.1 = f x then (e.1, ins cls e.2 x) else e).map Prod.fst = h.map Prod.fst := by
          rw [List.map_map]
          apply List.map_congr_left
          intro e _
          simp only [Function.comp]
          split_ifs <;> rfl
        rw [this, h2, List.map_append, List.mem_append]
        constructor
        · exact Or.inl
        · rintro (h | h)
          · exact h
          · simp only [List.map_cons, List.map_nil, List.mem_singleton] at h
            subst h
            obtain ⟨e, he, hef⟩ := List.any_eq_true.1 hc
            rw [← h2]
            exact List.mem_map.2 ⟨e, he, by simpa using hef⟩
      · rw [if_neg hc, List.map_append, List.mem_append, h2, List.map_append, List.mem_append]
        rfl
    · intro e he
      by_cases hc : h.any (fun e => decide (e.1 = f x)) = true
      · rw [if_pos hc] at he
        obtain ⟨e0, he0, rfl⟩ := List.mem_map.1 he
        split_ifs with hf
        · simp only
          rw [h3 e0 he0, List.filter_append]
          simp [hf, insAll]
        · rw [h3 e0 he0, List.filter_append]
          have : f x ≠ e0.1 := fun h => hf h.symm
          simp [this]
      · rw [if_neg hc] at he
        rcases List.mem_append.1 he with he | he
        · rw [h3 e he, List.filter_append]
          have : f x ≠ e.1 := by
            intro hh
            apply hc
            rw [List.any_eq_true]
            exact ⟨e, he, by simp [hh]⟩
          simp [this]
        · simp only [List.mem_singleton] at he
          subst he
          simp only
          rw [List.filter_append]
          have : before.filter (fun v => decide (f v = f x)) = [] := by
            rw [List.filter_eq_nil_iff]
            intro v hv
            simp only [decide_eq_true_eq]
            intro hh
            apply hc
            have := (h2 (f v)).2 (List.mem_map_of_mem hv)
            obtain ⟨e, he, hef⟩ := List.mem_map.1 this
            rw [List.any_eq_true]
            exact ⟨e, he, by simp [hef, hh]⟩
          rw [this]
          simp [insAll]

/-- C137: `classify` has one set for each class the block gives, with exactly the elements of that
class. -/
theorem C137_classify {C : Type} [DecidableEq C] (cls : V → K) (f : V → C) (s : S V) :
    ((classify cls f s).map Prod.fst).Nodup ∧
    (∀ c, c ∈ (classify cls f s).map Prod.fst ↔ ∃ e ∈ s.elems, f e = c) ∧
    ∀ c t, (c, t) ∈ classify cls f s → t.ident = false ∧ WF cls t ∧
      ∀ w, has cls t w = true ↔ ∃ e ∈ s.elems, f e = c ∧ cls e = cls w := by
  obtain ⟨h1, h2, h3⟩ := classify_inv cls f s.elems [] [] (by simp) (by simp) (by simp)
  refine ⟨h1, ?_, ?_⟩
  · intro c
    have := h2 c
    rw [List.nil_append, List.mem_map (f := f)] at this
    exact this
  · intro c t ht
    have := h3 (c, t) ht
    simp only [List.nil_append] at this
    rw [this]
    refine ⟨insAll_ident _ _ _, wf_insAll _ (wf_empty cls false), fun w => ?_⟩
    rw [probe, List.any_eq_true]
    simp only [List.mem_filter, decide_eq_true_eq, same_iff]
    constructor
    · rintro ⟨e, ⟨he, hf⟩, hc⟩; exact ⟨e, he, hf, by simpa using hc⟩
    · rintro ⟨e, he, hf, hc⟩; exact ⟨e, ⟨he, hf⟩, by simpa using hc⟩

/-- C137: `divide` with a block of one parameter gives the groups when equal results of the block are
one object (`nil`, `true`, small Integers, Symbols). -/
theorem C137_divide_partial {C I : Type} [DecidableEq C] [DecidableEq I] (cls : V → K) (f : V → C) (ids : V → I)
    (s : S V) (hid : ∀ a b, f a = f b ↔ ids a = ids b) :
    ∀ e ∈ s.elems, ∃ t ∈ divide cls ids s, ∀ w, has cls t w = true ↔ ∃ x ∈ s.elems, f x = f e ∧ cls x = cls w := by
  intro e he
  obtain ⟨_, h2, h3⟩ := C137_classify cls ids s
  obtain ⟨⟨c, t⟩, hm, hc⟩ := List.mem_map.1 ((h2 (ids e)).2 ⟨e, he, rfl⟩)
  simp only at hc
  subst hc
  refine ⟨t, List.mem_map.2 ⟨_, hm, rfl⟩, fun w => ?_⟩
  rw [(h3 _ t hm).2.2 w]
  simp only [hid]

/-- C137: but equal results that are not one object, such as two Strings, put their elements into
different groups. -/
theorem C137_divide_fails : ∃ (s : S Nat) (f : Nat → Unit) (ids : Nat → Nat),
    WF id s ∧ (classify id f s).length = 1 ∧ (divide id ids s).length = 2 :=
  ⟨⟨false, [1, 2]⟩, fun _ => (), id, by unfold WF; decide, by decide, by decide⟩

/-! ## flatten -/

/-- the elements that are not sets, at any depth, in order -/
inductive Leaves (inner : V → Option (List V)) : List V → List V → Prop
  | nil : Leaves inner [] []
  | leaf {v vs ls} : inner v = none → Leaves inner vs ls → Leaves inner (v :: vs) (v :: ls)
  | set {v es vs l1 l2} : inner v = some es → Leaves inner es l1 → Leaves inner vs l2 → Leaves inner (v :: vs) (l1 ++ l2)

theorem insAll_append_list (cls : V → K) (s : S V) (xs ys : List V) :
    insAll cls s (xs ++ ys) = insAll cls (insAll cls s xs) ys := by
  unfold insAll; exact List.foldl_append

/-- C137: what `flatten` gives is the set of the elements that are not sets, at any depth. -/
theorem C137_flatten_sound (cls : V → K) (inner : V → Option (List V)) (n : Nat) (seen vs : List V) (acc r : S V)
    (h : flattenInto cls inner n seen acc vs = some r) :
    ∃ ls, Leaves inner vs ls ∧ r = insAll cls acc ls := by
  induction n generalizing seen vs acc r with
  | zero => simp [flattenInto] at h
  | succ n ih =>
    cases vs with
    | nil =>
      simp only [flattenInto, Option.some.injEq] at h
      subst h
      exact ⟨[], .nil, rfl⟩
    | cons v vs =>
      rw [flattenInto] at h
      cases hv : inner v with
      | none =>
        rw [hv] at h
        obtain ⟨ls, hl, hr⟩ := ih seen vs _ r h
        exact ⟨v :: ls, .leaf hv hl, hr⟩
      | some es =>
        rw [hv] at h
        simp only at h
        split_ifs at h with hsn
        cases h1 : flattenInto cls inner n (v :: seen) acc es with
        | none => rw [h1] at h; cases h
        | some acc' =>
          rw [h1] at h
          simp only [Option.bind_some] at h
          obtain ⟨l1, hl1, hr1⟩ := ih _ _ _ _ h1
          obtain ⟨l2, hl2, hr2⟩ := ih _ _ _ _ h
          refine ⟨l1 ++ l2, .set hv hl1 hl2, ?_⟩
          rw [insAll_append_list, ← hr1, hr2]

/-- C137: and it gives one for every set that does not contain itself: `rank` is a depth. -/
theorem C137_flatten_total (cls : V → K) (inner : V → Option (List V)) (rank : V → Nat)
    (hrank : ∀ v es, inner v = some es → ∀ e ∈ es, rank e < rank v) (R : Nat) (vs seen : List V)
    (hvs : ∀ v ∈ vs, rank v < R) (hseen : ∀ v ∈ seen, R ≤ rank v) :
    ∃ n, ∀ m, n ≤ m → ∀ acc, (flattenInto cls inner m seen acc vs).isSome = true := by
  induction R using Nat.strong_induction_on generalizing vs seen with
  | _ R ih =>
    induction vs generalizing seen with
    | nil => exact ⟨1, fun m hm acc => by cases m with | zero => omega | succ m => simp [flattenInto]⟩
    | cons v vs ihv =>
      obtain ⟨n2, hn2⟩ := ihv seen (fun x hx => hvs x (by simp [hx])) hseen
      have hrv := hvs v (by simp)
      cases hv : inner v with
      | none =>
        refine ⟨n2 + 1, fun m hm acc => ?_⟩
        cases m with
        | zero => omega
        | succ m =>
          rw [flattenInto, hv]
          exact hn2 m (by omega) _
      | some es =>
        obtain ⟨n1, hn1⟩ := ih (rank v) hrv es (v :: seen) (hrank v es hv) (by
          intro x hx
          rcases List.mem_cons.1 hx with rfl | hx
          · exact Nat.le_refl _
          · have := hseen x hx; omega)
        refine ⟨max n1 n2 + 1, fun m hm acc => ?_⟩
        cases m with
        | zero => omega
        | succ m =>
          rw [flattenInto, hv]
          simp only
          rw [if_neg (by intro hc; have := hseen v hc; omega)]
          have h1 := hn1 m (by omega) acc
          obtain ⟨a, ha⟩ := Option.isSome_iff_exists.1 h1
          rw [ha]
          exact hn2 m (by omega) a

/-- C137: a set that contains itself is refused, not walked for ever: the result is the error even
with all the fuel in the world. -/
theorem C137_flatten_recursive (cls : V → K) (v : V) (n : Nat) (acc : S V) :
    flattenInto cls (fun _ => some [v]) n [v] acc [v] = none := by
  cases n with
  | zero => rfl
  | succ n => simp [flattenInto]

/-! ## reset -/

/-- C137: an element that changed is not found after `reset`, though the set has it. -/
theorem C137_reset_fails : ∃ (s : Stored Nat) (before after : Nat → Nat),
    (∀ e ∈ s, e.2 = before e.1) ∧ (0 ∈ s.map Prod.fst) ∧ hasNow id before s (before 0) = true ∧
      hasNow id after (reset s) (after 0) = false :=
  ⟨[(0, 5)], fun _ => 5, fun _ => 6, by decide, by decide, by decide, by decide⟩

/-! ## cases -/

example : WF (· % 10) (⟨false, [1, 12, 3]⟩ : S Nat) ∧ has (· % 10) (⟨false, [1, 12, 3]⟩ : S Nat) 22 = true ∧
    (symdiff (· % 10) (⟨false, [1, 12, 3]⟩ : S Nat) (.enum [13, 4])).elems = [1, 12, 4] := by
  refine ⟨by unfold WF; decide, by decide, by decide⟩

example : eq (· % 10) (⟨false, [1, 2]⟩ : S Nat) ⟨false, [12, 11]⟩ = true ∧
    cmp (· % 10) (⟨false, [1]⟩ : S Nat) ⟨false, [12, 11]⟩ = some (-1) := by decide

example : (classify id (· % 2) (⟨false, [1, 2, 3]⟩ : S Nat)).map (fun e => (e.1, e.2.elems)) =
    [(1, [1, 3]), (0, [2])] := by decide

end Verif.SetAlg
