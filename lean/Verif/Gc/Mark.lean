import Verif.Gc.Model

/-! # Marking -/

namespace Verif.Gc

/-- The objects of `T` exist and refer only to objects of `T`. -/
def ClosedIn (c : Addr → Cell) (T : Addr → Prop) : Prop :=
  ∀ a, T a → ∃ o, c a = .obj o ∧ ∀ k ∈ o.kids, T k

/-- What a piece of marking does. -/
structure MSpec (T : Addr → Prop) (C : List Addr) (h h' : Heap) : Prop where
  frame : h' = { h with mark := h'.mark, aging := h'.aging, queue := h'.queue }
  mono : ∀ a, h.mark a = true → h'.mark a = true
  new : ∀ a, h'.mark a = true → h.mark a = true ∨ T a
  closed : ∀ a o, h'.mark a = true → h.mark a = false → h.cells a = .obj o →
    a ∈ h'.queue ∨ ∀ k ∈ o.kids, h'.mark k = true
  queue : ∃ q, h'.queue = h.queue ++ q ∧ ∀ x ∈ q, T x
  aging : ∃ g, h'.aging = h.aging ++ g ∧ ∀ x ∈ g, T x ∧ h'.mark x = true ∧
    ∃ o, h.cells x = .obj o ∧ o.promotable = true
  size : h'.queue.length + C.countP (fun a => !h'.mark a) ≤
    h.queue.length + C.countP (fun a => !h.mark a)

variable {T : Addr → Prop} {C : List Addr}

theorem MSpec.cells {h h' : Heap} (m : MSpec T C h h') : h'.cells = h.cells := by
  rw [m.frame]

theorem MSpec.refl (h : Heap) : MSpec T C h h where
  frame := rfl
  mono _ h := h
  new _ h := Or.inl h
  closed a o h1 h2 := by rw [h1] at h2; cases h2
  queue := ⟨[], by simp, by simp⟩
  aging := ⟨[], by simp, by simp⟩
  size := Nat.le_refl _

theorem MSpec.trans {h h1 h2 : Heap} (a : MSpec T C h h1) (b : MSpec T C h1 h2) :
    MSpec T C h h2 where
  frame := by
    rw [b.frame, a.frame]
  mono x hx := b.mono x (a.mono x hx)
  new x hx := by
    rcases b.new x hx with h | h
    · exact a.new x h
    · exact Or.inr h
  closed x o h2m hm hc := by
    obtain ⟨q, hq, _⟩ := b.queue
    by_cases h1 : h1.mark x = true
    · rcases a.closed x o h1 hm hc with h | h
      · left; rw [hq]; exact List.mem_append_left _ h
      · right; intro k hk; exact b.mono k (h k hk)
    · exact b.closed x o h2m (by simpa using h1) (by rw [a.cells]; exact hc)
  queue := by
    obtain ⟨q1, e1, t1⟩ := a.queue
    obtain ⟨q2, e2, t2⟩ := b.queue
    refine ⟨q1 ++ q2, by rw [e2, e1, List.append_assoc], ?_⟩
    intro x hx
    rcases List.mem_append.1 hx with h | h
    · exact t1 x h
    · exact t2 x h
  aging := by
    obtain ⟨q1, e1, t1⟩ := a.aging
    obtain ⟨q2, e2, t2⟩ := b.aging
    refine ⟨q1 ++ q2, by rw [e2, e1, List.append_assoc], ?_⟩
    intro x hx
    rcases List.mem_append.1 hx with h | h
    · obtain ⟨u, v, w⟩ := t1 x h
      exact ⟨u, b.mono x v, w⟩
    · obtain ⟨u, v, w⟩ := t2 x h
      rw [a.cells] at w
      exact ⟨u, v, w⟩
  size := Nat.le_trans b.size a.size

theorem foldO_ok {f : Heap → Addr → Option Heap} {c : Addr → Cell}
    (hf : ∀ h a, h.cells = c → T a →
      ∃ h', f h a = some h' ∧ MSpec T C h h' ∧ h'.mark a = true) :
    ∀ (l : List Addr) (h : Heap), h.cells = c → (∀ a ∈ l, T a) →
      ∃ h', foldO f h l = some h' ∧ MSpec T C h h' ∧ ∀ a ∈ l, h'.mark a = true
  | [], h, _, _ => ⟨h, rfl, MSpec.refl h, by simp⟩
  | a :: l, h, hc, hl => by
    obtain ⟨h1, e1, m1, k1⟩ := hf h a hc (hl a (by simp))
    obtain ⟨h2, e2, m2, k2⟩ := foldO_ok hf l h1 (by rw [m1.cells, hc])
      (fun x hx => hl x (by simp [hx]))
    refine ⟨h2, by rw [foldO, e1]; exact e2, m1.trans m2, ?_⟩
    intro x hx
    rcases List.mem_cons.1 hx with rfl | hx
    · exact m2.mono _ k1
    · exact k2 x hx

theorem countP_mark {C : List Addr} {m : Addr → Bool} {a : Addr} (ha : a ∈ C) (hm : m a = false) :
    C.countP (fun x => !(Function.update m a true) x) + 1 ≤ C.countP (fun x => !m x) := by
  have mono : ∀ C : List Addr, C.countP (fun x => !(Function.update m a true) x) ≤
      C.countP (fun x => !m x) := by
    intro C
    apply List.countP_mono_left
    intro x _ hx
    by_cases hxa : x = a
    · subst hxa; simp at hx
    · simpa [Function.update_of_ne hxa] using hx
  induction C with
  | nil => cases ha
  | cons x C ih =>
    rw [List.countP_cons, List.countP_cons]
    by_cases hxa : x = a
    · subst hxa
      have := mono C
      simp [hm]
      omega
    · have ih := ih (by rcases List.mem_cons.1 ha with h | h; exact absurd h.symm hxa; exact h)
      rw [Function.update_of_ne hxa]
      omega

/-- Marking an object marks it and keeps the white-grey-black invariant; it never reaches a
dead cell. -/
theorem markObj_ok (major : Bool) {c : Addr → Cell} (hT : ClosedIn c T) (hC : ∀ a, T a → a ∈ C) :
    ∀ (n : Nat) (h : Heap) (a : Addr), h.cells = c → T a →
      ∃ h', markObj major n h a = some h' ∧ MSpec T C h h' ∧ h'.mark a = true := by
  intro n
  induction n with
  | zero =>
    intro h a hc ha
    obtain ⟨o, ho, hk⟩ := hT a ha
    rw [markObj, hc, ho]
    simp only []
    by_cases hm : h.mark a = true
    · rw [if_pos hm]
      exact ⟨h, rfl, MSpec.refl h, hm⟩
    · have hm' : h.mark a = false := by simpa using hm
      rw [if_neg hm]
      refine ⟨_, rfl, ?_, by simp [Heap.setMark]⟩
      exact
        { frame := rfl
          mono := by
            intro x hx
            by_cases hxa : x = a
            · subst hxa; simp [Heap.setMark]
            · simpa [Heap.setMark, Function.update_of_ne hxa] using hx
          new := by
            intro x hx
            by_cases hxa : x = a
            · subst hxa; exact Or.inr ha
            · left; simpa [Heap.setMark, Function.update_of_ne hxa] using hx
          closed := by
            intro x ox hx hx' _
            by_cases hxa : x = a
            · subst hxa; left; simp
            · simp [Heap.setMark, Function.update_of_ne hxa] at hx
              rw [hx] at hx'; cases hx'
          queue := ⟨[a], rfl, by simpa using ha⟩
          aging := by
            simp only [Heap.setMark]
            split
            · rename_i hp
              refine ⟨[a], rfl, ?_⟩
              intro x hx
              have := List.mem_singleton.1 hx
              subst this
              refine ⟨ha, by simp, o, by rw [hc]; exact ho, ?_⟩
              simp only [Bool.and_eq_true] at hp
              exact hp.1
            · exact ⟨[], by simp, by simp⟩
          size := by
            have := countP_mark (hC a ha) hm'
            simp only [Heap.setMark, List.length_append, List.length_singleton]
            omega }
  | succ n ih =>
    intro h a hc ha
    obtain ⟨o, ho, hk⟩ := hT a ha
    rw [markObj, hc, ho]
    simp only []
    by_cases hm : h.mark a = true
    · rw [if_pos hm]
      exact ⟨h, rfl, MSpec.refl h, hm⟩
    · have hm' : h.mark a = false := by simpa using hm
      rw [if_neg hm]
      obtain ⟨h2, e2, m2, k2⟩ := foldO_ok (f := markObj major n) (c := c) (T := T) (C := C) ih
        o.kids (h.setMark major a o) hc hk
      have hq : (h.setMark major a o).queue = h.queue := rfl
      refine ⟨h2, e2, ?_, m2.mono a (by simp [Heap.setMark])⟩
      exact
        { frame := by rw [m2.frame]; rfl
          mono := by
            intro x hx
            refine m2.mono x ?_
            by_cases hxa : x = a
            · subst hxa; simp [Heap.setMark]
            · simpa [Heap.setMark, Function.update_of_ne hxa] using hx
          new := by
            intro x hx
            by_cases hxa : x = a
            · subst hxa; exact Or.inr ha
            · rcases m2.new x hx with h | h
              · left; simpa [Heap.setMark, Function.update_of_ne hxa] using h
              · exact Or.inr h
          closed := by
            intro x ox hx hx' hcx
            by_cases hxa : x = a
            · subst hxa
              right
              rw [hc, ho] at hcx
              cases hcx
              exact k2
            · refine m2.closed x ox hx ?_ hcx
              simpa [Heap.setMark, Function.update_of_ne hxa] using hx'
          queue := m2.queue
          aging := by
            obtain ⟨g, e, t⟩ := m2.aging
            simp only [Heap.setMark] at e t
            split at e
            · rename_i hp
              refine ⟨a :: g, by rw [e, List.append_assoc]; rfl, ?_⟩
              intro x hx
              rcases List.mem_cons.1 hx with rfl | hx
              · refine ⟨ha, m2.mono _ (by simp [Heap.setMark]), o, by rw [hc]; exact ho, ?_⟩
                simp only [Bool.and_eq_true] at hp
                exact hp.1
              · exact t x hx
            · exact ⟨g, e, t⟩
          size := by
            have h1 := countP_mark (hC a ha) hm'
            have h2 := m2.size
            simp only [Heap.setMark] at h2
            omega }

/-- `mark_children` of an object of `T` -/
theorem scan_ok (major : Bool) {h : Heap} (hT : ClosedIn h.cells T) (hC : ∀ a, T a → a ∈ C)
    {a : Addr} (ha : T a) :
    ∃ h', scan major h a = some h' ∧ MSpec T C h h' ∧
      ∀ o, h.cells a = .obj o → ∀ k ∈ o.kids, h'.mark k = true := by
  obtain ⟨o, ho, hk⟩ := hT a ha
  rw [scan, ho]
  obtain ⟨h', e, m, k⟩ := foldO_ok (f := markObj major MARK_RECURSION_LIMIT) (c := h.cells)
    (markObj_ok major hT hC MARK_RECURSION_LIMIT) o.kids h rfl hk
  refine ⟨h', e, m, ?_⟩
  intro o' ho'
  cases ho'
  exact k

/-- What draining the queue does: `MSpec` with an empty queue at the end. -/
structure DSpec (T : Addr → Prop) (h h' : Heap) : Prop where
  frame : h' = { h with mark := h'.mark, aging := h'.aging, queue := [] }
  mono : ∀ a, h.mark a = true → h'.mark a = true
  new : ∀ a, h'.mark a = true → h.mark a = true ∨ T a
  closed : ∀ a o, h'.mark a = true → (h.mark a = false ∨ a ∈ h.queue) → h.cells a = .obj o →
    ∀ k ∈ o.kids, h'.mark k = true
  aging : ∃ g, h'.aging = h.aging ++ g ∧ ∀ x ∈ g, T x ∧ h'.mark x = true ∧
    ∃ o, h.cells x = .obj o ∧ o.promotable = true

/-- The queue is emptied within the given number of rounds. -/
theorem drain_ok (major : Bool) {c : Addr → Cell} (hT : ClosedIn c T) (hC : ∀ a, T a → a ∈ C) :
    ∀ (fuel : Nat) (h : Heap), h.cells = c → (∀ a ∈ h.queue, T a) →
      h.queue.length + C.countP (fun a => !h.mark a) ≤ fuel →
      ∃ h', drain major fuel h = some h' ∧ DSpec T h h' := by
  intro fuel
  induction fuel with
  | zero =>
    intro h hc hq hf
    have : h.queue = [] := List.length_eq_zero_iff.1 (by omega)
    rw [drain, this]
    refine ⟨h, rfl, ?_, fun _ h => h, fun _ h => Or.inl h, ?_, ⟨[], by simp, by simp⟩⟩
    · rw [← this]
    · intro a o h1 h2
      rw [this] at h2
      rcases h2 with h2 | h2
      · rw [h1] at h2; cases h2
      · cases h2
  | succ fuel ih =>
    intro h hc hq hf
    rw [drain]
    cases e : h.queue with
    | nil =>
      refine ⟨h, rfl, ?_, fun _ h => h, fun _ h => Or.inl h, ?_, ⟨[], by simp, by simp⟩⟩
      · rw [← e]
      · intro a o h1 h2
        rw [e] at h2
        rcases h2 with h2 | h2
        · rw [h1] at h2; cases h2
        · cases h2
    | cons a q =>
      simp only []
      have ha : T a := hq a (by rw [e]; simp)
      obtain ⟨h1, e1, m1, k1⟩ := scan_ok major (h := { h with queue := q }) (C := C)
        (by rw [← hc] at hT; exact hT) hC ha
      rw [e1]
      simp only []
      obtain ⟨q', eq', tq'⟩ := m1.queue
      have hc1 : h1.cells = c := by rw [m1.cells]; exact hc
      obtain ⟨h2, e2, d2⟩ := ih h1 hc1 (by
          intro x hx
          rw [eq'] at hx
          rcases List.mem_append.1 hx with hx | hx
          · exact hq x (by rw [e]; simp only at hx; simp [hx])
          · exact tq' x hx) (by
          have := m1.size
          rw [e] at hf
          simp only [List.length_cons] at hf this
          omega)
      refine ⟨h2, e2, ?_⟩
      exact
        { frame := by rw [d2.frame, m1.frame]
          mono := fun x hx => d2.mono x (m1.mono x hx)
          new := by
            intro x hx
            rcases d2.new x hx with h | h
            · exact m1.new x h
            · exact Or.inr h
          closed := by
            intro x o hx hx' hcx
            have hcx1 : h1.cells x = .obj o := by rw [m1.cells]; exact hcx
            by_cases hxa : x = a
            · subst hxa
              intro k hk
              exact d2.mono k (k1 o hcx k hk)
            · by_cases hxq : x ∈ h1.queue
              · exact d2.closed x o hx (Or.inr hxq) hcx1
              · by_cases hx1 : h1.mark x = true
                · rcases hx' with hx' | hx'
                  · rcases m1.closed x o hx1 hx' hcx with h | h
                    · exact absurd h hxq
                    · exact fun k hk => d2.mono k (h k hk)
                  · exfalso
                    apply hxq
                    rw [eq']
                    rw [e] at hx'
                    rcases List.mem_cons.1 hx' with h | h
                    · exact absurd h hxa
                    · exact List.mem_append_left _ h
                · exact d2.closed x o hx (Or.inl (by simpa using hx1)) hcx1
          aging := by
            obtain ⟨g1, f1, t1⟩ := m1.aging
            obtain ⟨g2, f2, t2⟩ := d2.aging
            refine ⟨g1 ++ g2, by rw [f2, f1, List.append_assoc], ?_⟩
            intro x hx
            rcases List.mem_append.1 hx with hx | hx
            · obtain ⟨u, v, w⟩ := t1 x hx
              exact ⟨u, d2.mono x v, w⟩
            · obtain ⟨u, v, w⟩ := t2 x hx
              rw [m1.cells] at w
              exact ⟨u, v, w⟩ }

end Verif.Gc
