import Verif.SetAlg.Model
import Mathlib.Tactic.SplitIfs
import Mathlib.Data.List.Basic
import Mathlib.Data.List.Perm.Subperm

/-! # Lemmas on Sets -/

namespace Verif.SetAlg

variable {V K : Type} [DecidableEq V] [DecidableEq K]

theorem same_iff (cls : V → K) (i : Bool) (a b : V) : same cls i a b = true ↔ (if i then a = b else cls a = cls b) := by
  unfold same; split_ifs <;> simp

theorem same_refl (cls : V → K) (i : Bool) (a : V) : same cls i a a = true := by
  rw [same_iff]; split_ifs <;> rfl

theorem same_symm (cls : V → K) (i : Bool) (a b : V) : same cls i a b = same cls i b a := by
  rw [Bool.eq_iff_iff, same_iff, same_iff]
  split_ifs <;> exact ⟨Eq.symm, Eq.symm⟩

theorem same_trans {cls : V → K} {i : Bool} {a b c : V} (h1 : same cls i a b = true) (h2 : same cls i b c = true) :
    same cls i a c = true := by
  rw [same_iff] at *
  split_ifs at * <;> exact h1.trans h2

theorem same_congr {cls : V → K} {i : Bool} {a b : V} (h : same cls i a b = true) (c : V) :
    same cls i a c = same cls i b c := by
  rw [Bool.eq_iff_iff]
  exact ⟨fun h' => same_trans (by rw [same_symm]; exact h) h', fun h' => same_trans h h'⟩

theorem has_iff (cls : V → K) (s : S V) (v : V) : has cls s v = true ↔ ∃ e ∈ s.elems, same cls s.ident e v = true := by
  unfold has; exact List.any_eq_true

theorem has_congr {cls : V → K} {s : S V} {a b : V} (h : same cls s.ident a b = true) : has cls s a = has cls s b := by
  unfold has
  congr 1
  funext e
  rw [same_symm, same_congr h, same_symm]

/-- no element twice -/
def WF (cls : V → K) (s : S V) : Prop := s.elems.Pairwise fun a b => same cls s.ident a b = false

theorem ins_ident (cls : V → K) (s : S V) (v : V) : (ins cls s v).ident = s.ident := by
  unfold ins; split_ifs <;> rfl

theorem insAll_ident (cls : V → K) (vs : List V) (s : S V) : (insAll cls s vs).ident = s.ident := by
  unfold insAll
  induction vs generalizing s with
  | nil => rfl
  | cons x xs ih => rw [List.foldl_cons, ih, ins_ident]

theorem has_ins (cls : V → K) (s : S V) (v w : V) :
    has cls (ins cls s v) w = (has cls s w || same cls s.ident v w) := by
  unfold ins
  split_ifs with h
  · cases hv : same cls s.ident v w with
    | false => simp
    | true => rw [has_congr (s := s) hv] at h; simp [h]
  · simp [has]

theorem has_insAll (cls : V → K) (vs : List V) (s : S V) (w : V) :
    has cls (insAll cls s vs) w = (has cls s w || vs.any (same cls s.ident · w)) := by
  unfold insAll
  induction vs generalizing s with
  | nil => simp
  | cons x xs ih => rw [List.foldl_cons, ih, has_ins, ins_ident, List.any_cons, Bool.or_assoc]

theorem wf_ins {cls : V → K} {s : S V} (h : WF cls s) (v : V) : WF cls (ins cls s v) := by
  unfold ins
  split_ifs with hv
  · exact h
  · unfold WF at *
    simp only [List.pairwise_append]
    refine ⟨h, by simp, ?_⟩
    intro a ha b hb
    simp only [List.mem_singleton] at hb
    subst hb
    rw [Bool.eq_false_iff]
    intro hs
    exact hv ((has_iff cls s b).2 ⟨a, ha, hs⟩)

theorem wf_insAll {cls : V → K} (vs : List V) {s : S V} (h : WF cls s) : WF cls (insAll cls s vs) := by
  unfold insAll
  induction vs generalizing s with
  | nil => exact h
  | cons x xs ih => exact ih (wf_ins h x)

theorem wf_empty (cls : V → K) (i : Bool) : WF cls (⟨i, []⟩ : S V) := List.Pairwise.nil

/-- inserting what is not there and not repeated appends it -/
theorem insAll_append (cls : V → K) (vs : List V) (s : S V) (h : WF cls ⟨s.ident, s.elems ++ vs⟩) :
    insAll cls s vs = ⟨s.ident, s.elems ++ vs⟩ := by
  unfold insAll
  induction vs generalizing s with
  | nil => simp
  | cons x xs ih =>
    have hx : has cls s x = false := by
      rw [Bool.eq_false_iff]
      intro hh
      obtain ⟨e, he, hs⟩ := (has_iff cls s x).1 hh
      have := (List.pairwise_append.1 h).2.2 e he x (by simp)
      rw [hs] at this
      cases this
    have hi : ins cls s x = ⟨s.ident, s.elems ++ [x]⟩ := by unfold ins; rw [hx]; rfl
    rw [List.foldl_cons, hi, ih]
    · simp
    · simpa using h

theorem wf_filter {cls : V → K} {s : S V} (h : WF cls s) (p : V → Bool) : WF cls ⟨s.ident, s.elems.filter p⟩ :=
  h.filter p

theorem del_foldl (cls : V → K) (vs : List V) (s : S V) :
    vs.foldl (del cls) s = ⟨s.ident, s.elems.filter fun e => !vs.any fun v => same cls s.ident e v⟩ := by
  induction vs generalizing s with
  | nil => simp
  | cons x xs ih =>
    rw [List.foldl_cons, ih]
    simp only [del, List.filter_filter, List.any_cons]
    congr 1
    apply List.filter_congr
    intro e _
    cases same cls s.ident e x <;> simp

theorem has_filter {cls : V → K} {s : S V} (p : V → Bool)
    (hp : ∀ a b, same cls s.ident a b = true → p a = p b) (w : V) :
    has cls ⟨s.ident, s.elems.filter p⟩ w = (has cls s w && p w) := by
  rw [Bool.eq_iff_iff, Bool.and_eq_true, has_iff, has_iff]
  simp only [List.mem_filter]
  constructor
  · rintro ⟨e, ⟨he, hpe⟩, hs⟩
    exact ⟨⟨e, he, hs⟩, hp e w hs ▸ hpe⟩
  · rintro ⟨⟨e, he, hs⟩, hpw⟩
    exact ⟨e, ⟨he, (hp e w hs).trans hpw⟩, hs⟩

/-- a set of no more elements that are all in another is not larger, and has all of it when as large -/
theorem card_le {cls : V → K} {s t : S V} (hi : s.ident = t.ident) (hs : WF cls s) (h : ∀ e ∈ s.elems, has cls t e = true) :
    s.elems.length ≤ t.elems.length ∧
      (s.elems.length = t.elems.length → ∀ e ∈ t.elems, has cls s e = true) := by
  let key : V → (V ⊕ K) := fun v => if s.ident then .inl v else .inr (cls v)
  have hkey : ∀ a b, key a = key b ↔ same cls s.ident a b = true := by
    intro a b
    rw [same_iff]
    show (if s.ident then Sum.inl a else Sum.inr (cls a)) = (if s.ident then Sum.inl b else Sum.inr (cls b)) ↔ _
    split_ifs <;> simp
  have hnd : (s.elems.map key).Nodup := by
    rw [List.Nodup, List.pairwise_map]
    refine hs.imp ?_
    intro a b hab hk
    rw [(hkey a b).1 hk] at hab
    cases hab
  have hsub : s.elems.map key ⊆ t.elems.map key := by
    intro k hk
    obtain ⟨e, he, rfl⟩ := List.mem_map.1 hk
    obtain ⟨f, hf, hsm⟩ := (has_iff cls t e).1 (h e he)
    rw [← hi] at hsm
    rw [← (hkey f e).2 hsm]
    exact List.mem_map_of_mem hf
  have hp := hnd.subperm hsub
  refine ⟨by simpa using hp.length_le, ?_⟩
  intro hl e he
  have hperm := hp.perm_of_length_le (by simp [hl])
  have : key e ∈ s.elems.map key := hperm.symm.subset (List.mem_map_of_mem he)
  obtain ⟨f, hf, hk⟩ := List.mem_map.1 this
  exact (has_iff cls s e).2 ⟨f, hf, (hkey f e).1 hk⟩

end Verif.SetAlg
