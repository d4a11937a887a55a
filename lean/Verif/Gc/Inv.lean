import Verif.Gc.Sweep
import Mathlib.Data.List.Nodup
import Mathlib.Data.List.Perm.Basic
import Mathlib.Tactic.ByContra

/-! # The heap invariant and the collection -/

namespace Verif.Gc

/-- What the program can reach from the roots. -/
inductive Reach (c : Addr → Cell) (rs : List Addr) : Addr → Prop
  | root {r : Addr} : r ∈ rs → Reach c rs r
  | kid {a k : Addr} {o : Obj} : Reach c rs a → c a = .obj o → k ∈ o.kids → Reach c rs k

/-- a cell of a page in service, used or not -/
def Heap.onPage (h : Heap) (a : Addr) : Prop := (a.1 = h.current ∨ a.1 ∈ h.pages) ∧ a.2 < DATA_LEN

theorem mem_inService {h : Heap} {a : Addr} :
    a ∈ h.inService ↔ (a.1 ∈ h.pages ∧ a.2 < DATA_LEN) ∨ (a.1 = h.current ∧ a.2 < h.used) := by
  unfold Heap.inService
  simp only [List.mem_append, List.mem_flatMap, List.mem_map, List.mem_range]
  constructor
  · rintro (⟨p, hp, i, hi, rfl⟩ | ⟨i, hi, rfl⟩)
    · exact Or.inl ⟨hp, hi⟩
    · exact Or.inr ⟨rfl, hi⟩
  · rintro (⟨hp, hi⟩ | ⟨hp, hi⟩)
    · exact Or.inl ⟨a.1, hp, a.2, hi, rfl⟩
    · exact Or.inr ⟨a.2, hi, by rw [← hp]⟩

theorem inService_onPage {h : Heap} (hu : h.used ≤ DATA_LEN) {a : Addr} (ha : a ∈ h.inService) :
    h.onPage a := by
  rcases mem_inService.1 ha with ⟨p, i⟩ | ⟨p, i⟩
  · exact ⟨Or.inr p, i⟩
  · exact ⟨Or.inl p, by omega⟩

theorem nodup_pageCells (p n : Nat) : ((List.range n).map (fun i => (p, i))).Nodup := by
  refine List.Nodup.map ?_ List.nodup_range
  intro a b e
  exact (Prod.mk.inj e).2

theorem nodup_flat : ∀ {ps : List Nat}, ps.Nodup →
    (ps.flatMap (fun p => (List.range DATA_LEN).map (fun i => (p, i)))).Nodup
  | [], _ => by simp
  | p :: ps, h => by
    rw [List.flatMap_cons, List.nodup_append]
    refine ⟨nodup_pageCells p _, nodup_flat (List.nodup_cons.1 h).2, ?_⟩
    intro a ha b hb e
    subst e
    simp only [List.mem_flatMap, List.mem_map, List.mem_range] at ha hb
    obtain ⟨i, _, rfl⟩ := ha
    obtain ⟨q, hq, j, _, e⟩ := hb
    cases e
    exact (List.nodup_cons.1 h).1 hq

theorem nodup_inService {h : Heap} (hp : h.pages.Nodup) (hc : h.current ∉ h.pages) :
    h.inService.Nodup := by
  unfold Heap.inService
  rw [List.nodup_append]
  refine ⟨nodup_flat hp, nodup_pageCells _ _, ?_⟩
  intro a ha b hb e
  subst e
  simp only [List.mem_flatMap, List.mem_map, List.mem_range] at ha hb
  obtain ⟨i, _, rfl⟩ := hb
  obtain ⟨q, hq, j, _, e⟩ := ha
  cases e
  exact hc hq

/-- The invariant between the steps of a program. -/
structure Inv (h : Heap) : Prop where
  nodup : (h.current :: (h.pages ++ h.freePages)).Nodup
  bound : ∀ p ∈ h.current :: (h.pages ++ h.freePages), p ≤ h.head
  used : h.used ≤ DATA_LEN
  objIn : ∀ a o, h.cells a = .obj o → a ∈ h.inService
  chain : ∃ L, Chain h.cells h.free L ∧ L.Nodup ∧ h.freeCount = L.length ∧
    ∀ a, a ∈ L ↔ a ∈ h.inService ∧ ∀ o, h.cells a ≠ .obj o
  oldObj : ∀ a, h.onPage a → h.oldb a = true → ∃ o, h.cells a = .obj o
  gen : Gen (fun _ => True) h []
  closed : ∀ a o, h.cells a = .obj o → ∀ k ∈ o.kids, ∃ o', h.cells k = .obj o'
  roots : ∀ r ∈ h.roots, ∃ o, h.cells r = .obj o
  queue : h.queue = []
  aging : h.aging = []

theorem Static.inService {h h' : Heap} (s : Static h h') : h'.inService = h.inService := by
  unfold Heap.inService
  rw [s.pages, s.used, s.current]

theorem Inv.reachObj {h : Heap} (I : Inv h) {a : Addr} (r : Reach h.cells h.roots a) :
    ∃ o, h.cells a = .obj o := by
  cases r with
  | root hr => exact I.roots a hr
  | kid _ ho hk => exact I.closed _ _ ho a hk

/-- The state after marking. -/
structure PM (T : Addr → Prop) (major : Bool) (h h' : Heap) : Prop where
  sim : SimL (fun _ => True) h.cells h'.cells
  static : Static h h'
  oldb : h'.oldb = h.oldb
  queue : h'.queue = []
  gen : Gen (fun _ => True) h' []
  aging : ∀ x ∈ h'.aging, ∃ o, h'.cells x = .obj o ∧ o.promotable = true
  closed : ∀ a o, h.cells a = .obj o → h'.mark a = true → ∀ k ∈ o.kids, h'.mark k = true
  roots : ∀ r ∈ h.roots, h'.mark r = true
  marks : ∀ a, h.onPage a → h'.mark a = true → T a ∨ (major = false ∧ h.oldb a = true)

theorem DSpec.cells {T : Addr → Prop} {h h' : Heap} (d : DSpec T h h') : h'.cells = h.cells := by
  rw [d.frame]

/-- Marking succeeds and marks a closed set containing the roots. -/
theorem markPhase_ok {h : Heap} (I : Inv h) (major : Bool) {T : Addr → Prop}
    (hT : ClosedIn h.cells T) (hr : ∀ r ∈ h.roots, T r)
    (hrem : major = false → ∀ r ∈ h.remembered, T r) :
    ∃ h', markPhase major h = some h' ∧ PM T major h h' := by
  have hC : ∀ a, T a → a ∈ h.inService := by
    intro a ha
    obtain ⟨o, ho, _⟩ := hT a ha
    exact I.objIn a o ho
  have hon : ∀ a o, h.cells a = .obj o → h.onPage a :=
    fun a o ho => inService_onPage I.used (I.objIn a o ho)
  have hpm : ∀ a, h.onPage a → (prepare major h).mark a = if major then false else h.oldb a := by
    intro a ha
    unfold prepare
    simp only
    exact if_pos ha
  obtain ⟨h1, e1, m1, k1⟩ := foldO_ok (f := markObj major MARK_RECURSION_LIMIT) (c := h.cells)
    (C := h.inService) (markObj_ok major hT hC MARK_RECURSION_LIMIT) h.roots (prepare major h) rfl hr
  have st1 : Static h h1 := by
    have := m1.static
    exact ⟨this.1, this.2, this.3, this.4, this.5, this.6⟩
  have c1 : h1.cells = h.cells := m1.cells
  have fuel_ok : ∀ g : Heap, Static h g →
      g.queue.length + h.inService.countP (fun a => !g.mark a) ≤ g.fuel := by
    intro g sg
    unfold Heap.fuel
    rw [sg.inService]
    have := List.countP_le_length (p := fun a => !g.mark a) (l := h.inService)
    omega
  have q1 : ∀ a ∈ h1.queue, T a := by
    obtain ⟨q, eq, tq⟩ := m1.queue
    intro a ha
    rw [eq] at ha
    have : (prepare major h).queue = [] := I.queue
    rw [this] at ha
    exact tq a (by simpa using ha)
  obtain ⟨h2, e2, d2⟩ := drain_ok major hT hC h1.fuel h1 c1 q1 (fuel_ok h1 st1)
  have st2 : Static h h2 := st1.trans d2.static
  have c2 : h2.cells = h.cells := by rw [d2.cells, c1]
  have g2 : Gen (fun _ => True) h2 [] := d2.gen (m1.gen (h := prepare major h)
    ⟨I.gen.1, I.gen.2, I.gen.3, I.gen.4, I.gen.5⟩)
  have o2 : h2.oldb = h.oldb := by rw [d2.frame, m1.frame]; rfl
  have r2 : h2.remembered = h.remembered := by rw [d2.frame, m1.frame]; rfl
  have ag2 : ∀ x ∈ h2.aging, ∃ o, h.cells x = .obj o ∧ o.promotable = true := by
    obtain ⟨ga, ea, ta⟩ := m1.aging
    obtain ⟨gb, eb, tb⟩ := d2.aging
    intro x hx
    rw [eb, ea] at hx
    have : (prepare major h).aging = [] := I.aging
    rw [this, List.nil_append] at hx
    rcases List.mem_append.1 hx with hx | hx
    · exact (ta x hx).2.2
    · have := (tb x hx).2.2
      rwa [c1] at this
  have cl2 : ∀ a o, h.cells a = .obj o → h2.mark a = true → (prepare major h).mark a = false →
      ∀ k ∈ o.kids, h2.mark k = true := by
    intro a o ho hm h0
    by_cases hm1 : h1.mark a = true
    · rcases m1.closed a o hm1 h0 ho with h | h
      · exact d2.closed a o hm (Or.inr h) (by rw [c1]; exact ho)
      · exact fun k hk => d2.mono k (h k hk)
    · exact d2.closed a o hm (Or.inl (by simpa using hm1)) (by rw [c1]; exact ho)
  have new2 : ∀ a, h2.mark a = true → (prepare major h).mark a = true ∨ T a := by
    intro a ha
    rcases d2.new a ha with h | h
    · exact m1.new a h
    · exact Or.inr h
  have mono2 : ∀ a, (prepare major h).mark a = true → h2.mark a = true :=
    fun a ha => d2.mono a (m1.mono a ha)
  have roots2 : ∀ r ∈ h.roots, h2.mark r = true := fun r h => d2.mono r (k1 r h)
  rw [markPhase, e1]
  simp only []
  rw [e2]
  simp only []
  cases major with
  | true =>
    simp only [if_true]
    refine ⟨h2, rfl, ?_⟩
    exact
      { sim := by rw [c2]; exact .refl _
        static := st2
        oldb := o2
        queue := by rw [d2.frame]
        gen := g2
        aging := by rw [c2]; exact ag2
        closed := fun a o ho hm => cl2 a o ho hm (by rw [hpm a (hon a o ho)]; rfl)
        roots := roots2
        marks := by
          intro a ha hm
          rcases new2 a hm with h | h
          · rw [hpm a ha] at h; cases h
          · exact Or.inl h }
  | false =>
    simp only [Bool.false_eq_true, if_false]
    obtain ⟨h3, e3, r3, g3, k3⟩ := markRemembered_ok (T := T) (C := h.inService) hC (h := h2)
      (by rw [c2]; exact hT) (by rw [r2]; exact hrem rfl) g2
    rw [e3]
    simp only []
    have st3 : Static h h3 := st2.trans r3.static
    have sim3 : SimL (fun _ => True) h.cells h3.cells := by rw [← c2]; exact r3.sim
    have q3 : ∀ a ∈ h3.queue, T a := by
      obtain ⟨q, eq, tq⟩ := r3.queue
      intro a ha
      rw [eq, d2.frame] at ha
      exact tq a (by simpa using ha)
    obtain ⟨h4, e4, d4⟩ := drain_ok false (hT.sim sim3) hC h3.fuel h3 rfl q3 (fuel_ok h3 st3)
    refine ⟨h4, e4, ?_⟩
    have mono4 : ∀ a, h2.mark a = true → h4.mark a = true :=
      fun a ha => d4.mono a (r3.mono a ha)
    exact
      { sim := by rw [d4.cells]; exact sim3
        static := st3.trans d4.static
        oldb := by
          have : h4.oldb = h3.oldb := by rw [d4.frame]
          rw [this, r3.oldb, o2]
        queue := by rw [d4.frame]
        gen := d4.gen g3
        aging := by
          obtain ⟨ga, ea, ta⟩ := r3.aging
          obtain ⟨gb, eb, tb⟩ := d4.aging
          intro x hx
          rw [d4.cells]
          rw [eb, ea] at hx
          have aux : (∃ o, h.cells x = .obj o ∧ o.promotable = true) →
              ∃ o, h3.cells x = .obj o ∧ o.promotable = true := by
            rintro ⟨o, ho, hp⟩
            obtain ⟨o', ho', hs⟩ := sim3.fwd x o trivial ho
            exact ⟨o', ho', by rw [hs.2.2]; exact hp⟩
          rcases List.mem_append.1 hx with hx | hx
          · rcases List.mem_append.1 hx with hx | hx
            · exact aux (ag2 x hx)
            · have := (ta x hx).2.2
              rw [c2] at this
              exact aux this
          · exact (tb x hx).2.2
        closed := by
          intro a o ho hm
          have hpa := hpm a (hon a o ho)
          simp only [Bool.false_eq_true, if_false] at hpa
          by_cases h0 : (prepare false h).mark a = true
          · -- an old object
            have hold : h.oldb a = true := by rw [← hpa]; exact h0
            by_cases har : o.armed = true
            · intro k hk
              have hko := I.gen.kidsOld a o trivial ho har k hk
              obtain ⟨ok, hok⟩ := I.closed a o ho k hk
              have := hpm k (hon k ok hok)
              simp only [Bool.false_eq_true, if_false] at this
              exact mono4 k (mono2 k (by rw [this]; exact hko))
            · have hmem : a ∈ h.remembered := by
                rcases I.gen.rem a o trivial ho hold (by simpa using har) with h | h
                · exact h
                · cases h
              intro k hk
              exact d4.mono k (k3 a (by rw [r2]; exact hmem) o (by rw [c2]; exact ho) k hk)
          · by_cases hm2 : h2.mark a = true
            · exact fun k hk => mono4 k (cl2 a o ho hm2 (by simpa using h0) k hk)
            · have hc2 : h2.cells a = .obj o := by rw [c2]; exact ho
              obtain ⟨o3, ho3, hs3⟩ := sim3.fwd a o trivial ho
              by_cases hm3 : h3.mark a = true
              · rcases r3.closed a o hm3 (by simpa using hm2) hc2 with h | h
                · have := d4.closed a o3 hm (Or.inr h) ho3
                  rw [hs3.1] at this
                  exact this
                · exact fun k hk => d4.mono k (h k hk)
              · have := d4.closed a o3 hm (Or.inl (by simpa using hm3)) ho3
                rw [hs3.1] at this
                exact this
        roots := fun r hr => mono4 r (roots2 r hr)
        marks := by
          intro a ha hm
          have : h2.mark a = true ∨ T a := by
            rcases d4.new a hm with h | h
            · exact r3.new a h
            · exact Or.inr h
          rcases this with h | h
          · rcases new2 a h with h | h
            · rw [hpm a ha] at h
              exact Or.inr ⟨rfl, h⟩
            · exact Or.inl h
          · exact Or.inl h }

/-! ## Salvage -/

/-- What holds before the sweep. -/
structure Pre (h : Heap) : Prop where
  nodup : (h.current :: (h.pages ++ h.freePages)).Nodup
  bound : ∀ p ∈ h.current :: (h.pages ++ h.freePages), p ≤ h.head
  used : h.used ≤ DATA_LEN
  objIn : ∀ a o, h.cells a = .obj o → a ∈ h.inService
  oldObj : ∀ a, h.onPage a → h.oldb a = true → ∃ o, h.cells a = .obj o
  gen : Gen (fun a => h.mark a = true) h []
  closed : ∀ a o, h.mark a = true → h.cells a = .obj o → ∀ k ∈ o.kids,
    h.mark k = true ∧ ∃ o', h.cells k = .obj o'
  marked : ∀ a, h.onPage a → h.mark a = true → ∃ o, h.cells a = .obj o

/-- What salvaging does. -/
structure SSpec (h h' : Heap) : Prop where
  sim : SimL (fun a => h.mark a = true) h.cells h'.cells
  mark : h'.mark = h.mark
  current : h'.current = h.current
  used : h'.used = h.used
  roots : h'.roots = h.roots
  queue : h'.queue = h.queue
  aging : h'.aging = h.aging

theorem SSpec.refl (h : Heap) : SSpec h h := ⟨.refl _, rfl, rfl, rfl, rfl, rfl, rfl⟩

theorem SSpec.trans {h h1 h2 : Heap} (a : SSpec h h1) (b : SSpec h1 h2) : SSpec h h2 where
  sim := a.sim.trans (by have := b.sim; rw [a.mark] at this; exact this)
  mark := b.mark.trans a.mark
  current := b.current.trans a.current
  used := b.used.trans a.used
  roots := b.roots.trans a.roots
  queue := b.queue.trans a.queue
  aging := b.aging.trans a.aging

theorem mem_eraseIdx_of_ne {l : List Nat} {i p q : Nat} (hi : l[i]? = some p) (hq : q ∈ l)
    (hne : q ≠ p) : q ∈ l.eraseIdx i := by
  have hi' : i < l.length := by
    by_contra h
    rw [List.getElem?_eq_none (by omega)] at hi
    cases hi
  have hp : l[i] = p := by rw [List.getElem?_eq_getElem hi'] at hi; simpa using hi
  have := List.getElem_cons_eraseIdx_perm hi'
  rw [hp] at this
  rcases List.mem_cons.1 (this.mem_iff.2 hq) with h | h
  · exact absurd h hne
  · exact h

theorem salvageAt_ok {h : Heap} (P : Pre h) (i : Nat) :
    Pre (salvageAt h i) ∧ SSpec h (salvageAt h i) := by
  unfold salvageAt
  cases hi : h.pages[i]? with
  | none => exact ⟨P, .refl h⟩
  | some p =>
    simp only []
    cases hd : h.allDead p with
    | false => exact ⟨P, .refl h⟩
    | true =>
    simp only [if_true]
    have hdead : ∀ j, j < DATA_LEN → h.mark (p, j) = false := by
      intro j hj
      unfold Heap.allDead at hd
      rw [List.all_eq_true] at hd
      simpa using hd j (List.mem_range.2 hj)
    have hi' : i < h.pages.length := by
      by_contra hx
      rw [List.getElem?_eq_none (by omega)] at hi
      cases hi
    have hp : h.pages[i] = p := by rw [List.getElem?_eq_getElem hi'] at hi; simpa using hi
    have hperm : (p :: h.pages.eraseIdx i).Perm h.pages := by
      have := List.getElem_cons_eraseIdx_perm hi'
      rwa [hp] at this
    have hnd := P.nodup
    have perm2 : (h.current :: (h.pages.eraseIdx i ++ (h.freePages ++ [p]))).Perm
        (h.current :: (h.pages ++ h.freePages)) := by
      refine List.Perm.cons _ ?_
      have e1 : (h.pages.eraseIdx i ++ (h.freePages ++ [p])).Perm
          (p :: (h.pages.eraseIdx i ++ h.freePages)) := by
        rw [← List.append_assoc]
        exact List.perm_append_singleton _ _
      exact e1.trans (List.Perm.append_right _ hperm)
    have hnd2 := perm2.nodup_iff.2 hnd
    have hpcur : p ≠ h.current := by
      intro e
      have : h.current ∉ h.pages ++ h.freePages := (List.nodup_cons.1 hnd).1
      exact this (List.mem_append_left _ (by rw [← e]; exact hperm.mem_iff.1 (by simp)))
    have hpe : p ∉ h.pages.eraseIdx i := by
      have : h.pages.Nodup := (List.nodup_append.1 (List.nodup_cons.1 hnd).2).1
      exact (List.nodup_cons.1 (hperm.nodup_iff.2 this)).1
    -- objects on the page are unmarked
    have hun : ∀ a o, h.cells a = .obj o → a.1 = p → h.mark a = false := by
      intro a o ho ha
      have := (inService_onPage P.used (P.objIn a o ho)).2
      have hm := hdead a.2 this
      rw [← ha] at hm
      exact hm
    have cellsBack : ∀ a o, (if a.1 = p then
        (match h.cells a with | .obj _ => Cell.free none | c => c) else h.cells a) = .obj o →
        h.cells a = .obj o ∧ a.1 ≠ p := by
      intro a o hc
      by_cases ha : a.1 = p
      · rw [if_pos ha] at hc
        split at hc
        · cases hc
        · rename_i hx; exact absurd hc (hx o)
      · rw [if_neg ha] at hc
        exact ⟨hc, ha⟩
    have hsim : SimL (fun a => h.mark a = true) h.cells (fun a => if a.1 = p then
        (match h.cells a with | .obj _ => Cell.free none | c => c) else h.cells a) := by
      refine ⟨?_, ?_⟩
      · intro a o hm ho
        have ha : a.1 ≠ p := by
          intro e
          rw [hun a o ho e] at hm
          cases hm
        exact ⟨o, by simp only [if_neg ha]; exact ho, .refl o⟩
      · intro a o ho
        exact ⟨o, (cellsBack a o ho).1, .refl o⟩
    refine ⟨?_, ⟨hsim, rfl, rfl, rfl, rfl, rfl, rfl⟩⟩
    refine ⟨hnd2, ?_, P.used, ?_, ?_, ?_, ?_, ?_⟩
    · intro q hq
      exact P.bound q (perm2.mem_iff.1 hq)
    · intro a o ho
      obtain ⟨hc, ha⟩ := cellsBack a o ho
      rw [mem_inService]
      rcases mem_inService.1 (P.objIn a o hc) with ⟨u, v⟩ | ⟨u, v⟩
      · exact Or.inl ⟨mem_eraseIdx_of_ne hi u ha, v⟩
      · exact Or.inr ⟨u, v⟩
    · intro a ha hold
      have hap : a.1 ≠ p := by
        rcases ha.1 with h | h
        · rw [h]; exact fun e => hpcur e.symm
        · intro e; rw [e] at h; exact hpe h
      simp only [if_neg hap] at hold ⊢
      refine P.oldObj a ⟨?_, ha.2⟩ hold
      rcases ha.1 with h | h
      · exact Or.inl h
      · exact Or.inr (List.mem_of_mem_eraseIdx h)
    · have g := P.gen
      refine ⟨?_, ?_, ?_, ?_, ?_⟩
      · intro a o l hc har
        obtain ⟨hc', hap⟩ := cellsBack a o hc
        simp only [if_neg hap]
        exact g.armedOld a o l hc' har
      · intro a o l hc hold har
        obtain ⟨hc', hap⟩ := cellsBack a o hc
        simp only [if_neg hap] at hold
        exact g.rem a o l hc' hold har
      · intro a ha
        obtain ⟨u, ⟨o, v⟩, w⟩ := g.remObj a ha
        have hap : a.1 ≠ p := by
          intro e
          rw [hun a o v e] at u
          cases u
        exact ⟨u, ⟨o, by simp only [if_neg hap]; exact v⟩, by simp only [if_neg hap]; exact w⟩
      · intro a o l hc har k hk
        obtain ⟨hc', hap⟩ := cellsBack a o hc
        have hko := g.kidsOld a o l hc' har k hk
        by_cases hkp : k.1 = p
        · obtain ⟨hkm, ok, hok⟩ := P.closed a o l hc' k hk
          rw [hun k ok hok hkp] at hkm
          cases hkm
        · simp only [if_neg hkp]
          exact hko
      · intro a o l hc hold
        obtain ⟨hc', hap⟩ := cellsBack a o hc
        simp only [if_neg hap] at hold
        exact g.prom a o l hc' hold
    · intro a o l hc k hk
      obtain ⟨hc', hap⟩ := cellsBack a o hc
      obtain ⟨hkm, ok, hok⟩ := P.closed a o l hc' k hk
      obtain ⟨ok', hok', _⟩ := hsim.fwd k ok hkm hok
      exact ⟨hkm, ok', hok'⟩
    · intro a ha hm
      obtain ⟨o, ho⟩ := P.marked a ⟨by
        rcases ha.1 with h | h
        · exact Or.inl h
        · exact Or.inr (List.mem_of_mem_eraseIdx h), ha.2⟩ hm
      obtain ⟨o', ho', _⟩ := hsim.fwd a o hm ho
      exact ⟨o', ho'⟩

theorem salvage_ok : ∀ (n : Nat) {h : Heap}, Pre h → Pre (salvage n h) ∧ SSpec h (salvage n h)
  | 0, h, P => ⟨P, .refl h⟩
  | n + 1, h, P => by
    obtain ⟨P1, s1⟩ := salvageAt_ok P n
    obtain ⟨P2, s2⟩ := salvage_ok n P1
    exact ⟨P2, s1.trans s2⟩

/-! ## The sweep -/

/-- The sweep restores the invariant; exactly the marked objects survive. -/
theorem sweep_ok {h : Heap} (P : Pre h) (hr : ∀ r ∈ h.roots, h.mark r = true ∧ ∃ o, h.cells r = .obj o)
    (hq : h.queue = []) (ha : h.aging = []) :
    ∃ h', sweep h = some h' ∧ Inv h' ∧ h'.roots = h.roots ∧
      (∀ a o, h'.cells a = .obj o ↔ h.cells a = .obj o ∧ h.mark a = true) := by
  obtain ⟨s, ob, e, es, ho1, ho2⟩ := sweep_eq P.used
  have hnd : h.inService.Nodup := by
    have := List.nodup_cons.1 P.nodup
    exact nodup_inService (List.nodup_append.1 this.2).1
      (fun hx => this.1 (List.mem_append_left _ hx))
  have hL : LInv h.cells (h.inService.filter (fun a => !h.mark a)) s := by
    rw [es]
    have := LInv.links (c := h.cells) (h.inService.filter (fun a => !h.mark a)) (D := [])
      (s := ⟨h.cells, none, none, 0⟩) ⟨rfl, rfl, rfl, fun _ _ => rfl⟩
      (by simpa using hnd.filter _)
    simpa using this
  have hmem : ∀ a, a ∈ h.inService.filter (fun a => !h.mark a) ↔ a ∈ h.inService ∧ h.mark a = false := by
    intro a; simp [List.mem_filter]
  have hcell : ∀ a o, s.cells a = .obj o ↔ h.cells a = .obj o ∧ h.mark a = true := by
    intro a o
    by_cases hx : a ∈ h.inService.filter (fun a => !h.mark a)
    · obtain ⟨n, hn⟩ := hL.chain.free a hx
      rw [hn]
      constructor
      · intro hh; cases hh
      · rintro ⟨_, hm⟩
        rw [((hmem a).1 hx).2] at hm
        cases hm
    · rw [hL.rest a hx]
      constructor
      · intro hh
        refine ⟨hh, ?_⟩
        cases hm : h.mark a with
        | true => rfl
        | false => exact absurd ((hmem a).2 ⟨P.objIn a o hh, hm⟩) hx
      · exact fun hh => hh.1
  have hold : ∀ a o, s.cells a = .obj o → ob a = h.oldb a := by
    intro a o hc
    obtain ⟨hc', hm⟩ := (hcell a o).1 hc
    rw [ho2 a (P.objIn a o hc'), hm, Bool.and_true]
  refine ⟨_, e, ?_, rfl, hcell⟩
  exact
    { nodup := P.nodup
      bound := P.bound
      used := P.used
      objIn := fun a o hc => P.objIn a o ((hcell a o).1 hc).1
      chain := by
        refine ⟨_, hL.chain, hnd.filter _, hL.count, ?_⟩
        intro a
        rw [hmem]
        show _ ↔ a ∈ h.inService ∧ ∀ o, s.cells a ≠ .obj o
        constructor
        · rintro ⟨hi, hm⟩
          refine ⟨hi, ?_⟩
          intro o hc
          rw [((hcell a o).1 hc).2] at hm
          cases hm
        · rintro ⟨hi, hc⟩
          refine ⟨hi, ?_⟩
          cases hm : h.mark a with
          | false => rfl
          | true =>
            obtain ⟨o, ho⟩ := P.marked a (inService_onPage P.used hi) hm
            exact absurd ((hcell a o).2 ⟨ho, hm⟩) (hc o)
      oldObj := by
        intro a hon ho
        simp only at ho
        obtain ⟨o, hc⟩ := P.oldObj a hon (ho1 a ho)
        refine ⟨o, ?_⟩
        have := ho2 a (P.objIn a o hc)
        rw [this] at ho
        simp only [Bool.and_eq_true] at ho
        exact (hcell a o).2 ⟨hc, ho.2⟩
      gen := by
        have g := P.gen
        refine ⟨?_, ?_, ?_, ?_, ?_⟩
        · intro a o _ hc har
          obtain ⟨hc', hm⟩ := (hcell a o).1 hc
          simp only
          rw [hold a o hc]
          exact g.armedOld a o hm hc' har
        · intro a o _ hc ho har
          obtain ⟨hc', hm⟩ := (hcell a o).1 hc
          simp only at ho
          rw [hold a o hc] at ho
          exact g.rem a o hm hc' ho har
        · intro a hx
          obtain ⟨u, ⟨o, v⟩, w⟩ := g.remObj a hx
          have hc := (hcell a o).2 ⟨v, u⟩
          exact ⟨trivial, ⟨o, hc⟩, by simp only; rw [hold a o hc]; exact w⟩
        · intro a o _ hc har k hk
          obtain ⟨hc', hm⟩ := (hcell a o).1 hc
          obtain ⟨hkm, ok, hok⟩ := P.closed a o hm hc' k hk
          simp only
          rw [hold k ok ((hcell k ok).2 ⟨hok, hkm⟩)]
          exact g.kidsOld a o hm hc' har k hk
        · intro a o _ hc ho
          obtain ⟨hc', hm⟩ := (hcell a o).1 hc
          simp only at ho
          rw [hold a o hc] at ho
          exact g.prom a o hm hc' ho
      closed := by
        intro a o hc k hk
        obtain ⟨hc', hm⟩ := (hcell a o).1 hc
        obtain ⟨hkm, ok, hok⟩ := P.closed a o hm hc' k hk
        exact ⟨ok, (hcell k ok).2 ⟨hok, hkm⟩⟩
      roots := by
        intro r hx
        obtain ⟨hm, o, ho⟩ := hr r hx
        exact ⟨o, (hcell r o).2 ⟨ho, hm⟩⟩
      queue := hq
      aging := ha }

/-- The rest of the collection. -/
theorem finish_ok {T : Addr → Prop} {h hm : Heap} {major : Bool} (I : Inv h) (hT : ClosedIn h.cells T)
    (M : PM T major h hm) :
    ∃ h', finish major hm = some h' ∧ Inv h' ∧ h'.roots = h.roots ∧
      (∀ a o, h.cells a = .obj o → hm.mark a = true → ∃ o', h'.cells a = .obj o' ∧ o.same o') ∧
      (∀ a o', h'.cells a = .obj o' → hm.mark a = true ∧ ∃ o, h.cells a = .obj o ∧ o.same o') := by
  obtain ⟨h1, e1, a1, g1⟩ := applyAging_ok M.aging M.gen
  obtain ⟨a2, g2⟩ := filterRemembered_ok g1
  have a12 : ASpec { hm with aging := [] } (filterRemembered h1) := a1.trans a2
  have key : ∃ h2, (if major then reclassify (filterRemembered h1) else some (filterRemembered h1)) =
      some h2 ∧ ASpec { hm with aging := [] } h2 ∧ Gen (fun a => hm.mark a = true) h2 [] := by
    have em : h1.mark = hm.mark := a1.mark
    rw [em] at g2
    cases major with
    | true =>
      obtain ⟨h2, e2, a3, g3⟩ := reclassify_ok g2
      exact ⟨h2, by simpa using e2, a12.trans a3, g3⟩
    | false => exact ⟨filterRemembered h1, by simp only [Bool.false_eq_true, if_false], a12, g2⟩
  obtain ⟨h2, e2, A, g3⟩ := key
  have st : Static h h2 := M.static.trans (by
    have := A.static
    exact ⟨this.1, this.2, this.3, this.4, this.5, this.6⟩)
  have sim : SimL (fun _ => True) h.cells h2.cells := M.sim.trans A.sim
  have mk : h2.mark = hm.mark := A.mark
  have P : Pre h2 := by
    refine ⟨?_, ?_, ?_, ?_, ?_, ?_, ?_, ?_⟩
    · rw [st.current, st.pages, st.freePages]; exact I.nodup
    · rw [st.current, st.pages, st.freePages, st.head]; exact I.bound
    · rw [st.used]; exact I.used
    · intro a o hc
      obtain ⟨o0, h0, _⟩ := sim.bwd a o hc
      rw [st.inService]
      exact I.objIn a o0 h0
    · intro a hon ho
      have hon' : h.onPage a := by
        unfold Heap.onPage at hon ⊢
        rw [st.current, st.pages] at hon
        exact hon
      have : ∃ o, h.cells a = .obj o := by
        rcases A.old a ho with h | ⟨o, h⟩
        · exact I.oldObj a hon' (by rw [← M.oldb]; exact h)
        · obtain ⟨o', e', _⟩ := M.sim.bwd a o h
          exact ⟨o', e'⟩
      obtain ⟨o, ho⟩ := this
      obtain ⟨o', ho', _⟩ := sim.fwd a o trivial ho
      exact ⟨o', ho'⟩
    · rw [mk]; exact g3
    · intro a o hmk hc k hk
      rw [mk] at hmk ⊢
      obtain ⟨o0, h0, s0⟩ := sim.bwd a o hc
      rw [s0.1] at hk
      obtain ⟨ok, hok⟩ := I.closed a o0 h0 k hk
      obtain ⟨ok', hok', _⟩ := sim.fwd k ok trivial hok
      exact ⟨M.closed a o0 h0 hmk k hk, ok', hok'⟩
    · intro a hon hmk
      have hon' : h.onPage a := by
        unfold Heap.onPage at hon ⊢
        rw [st.current, st.pages] at hon
        exact hon
      rw [mk] at hmk
      have : ∃ o, h.cells a = .obj o := by
        rcases M.marks a hon' hmk with ht | ⟨_, ho⟩
        · obtain ⟨o, ho, _⟩ := hT a ht
          exact ⟨o, ho⟩
        · exact I.oldObj a hon' ho
      obtain ⟨o, ho⟩ := this
      obtain ⟨o', ho', _⟩ := sim.fwd a o trivial ho
      exact ⟨o', ho'⟩
  obtain ⟨P3, s3⟩ := salvage_ok h2.pages.length P
  have m3 : (salvage h2.pages.length h2).mark = hm.mark := s3.mark.trans mk
  have sim3 : SimL (fun a => hm.mark a = true) h.cells (salvage h2.pages.length h2).cells := by
    have := s3.sim
    rw [mk] at this
    exact (sim.mono (fun _ _ => trivial)).trans this
  have hroots : (salvage h2.pages.length h2).roots = h.roots := s3.roots.trans st.roots
  obtain ⟨h', e', I', r', c'⟩ := sweep_ok P3 (by
      intro r hr
      rw [hroots] at hr
      rw [m3]
      obtain ⟨o, ho⟩ := I.roots r hr
      obtain ⟨o', ho', _⟩ := sim3.fwd r o (M.roots r hr) ho
      exact ⟨M.roots r hr, o', ho'⟩)
    (by rw [s3.queue, A.queue]; exact M.queue) (by rw [s3.aging, A.aging])
  rw [m3] at c'
  refine ⟨h', ?_, I', r'.trans hroots, ?_, ?_⟩
  · rw [finish, e1]
    simp only []
    rw [e2]
    exact e'
  · intro a o ho hmk
    obtain ⟨o1, ho1, hs1⟩ := sim3.fwd a o hmk ho
    exact ⟨o1, (c' a o1).2 ⟨ho1, hmk⟩, hs1⟩
  · intro a o' hc
    obtain ⟨hc', hmk⟩ := (c' a o').1 hc
    exact ⟨hmk, sim3.bwd a o' hc'⟩

/-- a set that contains the roots and the children of its members contains what is
reachable -/
theorem reach_sub {c : Addr → Cell} {rs : List Addr} {S : Addr → Prop} (h0 : ∀ r ∈ rs, S r)
    (h1 : ∀ a o, c a = .obj o → S a → ∀ k ∈ o.kids, S k) {a : Addr} (h : Reach c rs a) : S a := by
  induction h with
  | root hr => exact h0 _ hr
  | kid _ ho hk ih => exact h1 _ _ ho ih _ hk

/-- A collection succeeds, keeps the invariant, keeps every reachable object with its contents,
and creates no object; a major one leaves nothing else. -/
theorem gc_ok {h : Heap} (I : Inv h) (major : Bool) :
    ∃ h', h.gc major = some h' ∧ Inv h' ∧ h'.roots = h.roots ∧
      (∀ a o, Reach h.cells h.roots a → h.cells a = .obj o → ∃ o', h'.cells a = .obj o' ∧ o.same o') ∧
      (∀ a o', h'.cells a = .obj o' → ∃ o, h.cells a = .obj o ∧ o.same o') ∧
      (major = true → ∀ a o', h'.cells a = .obj o' → Reach h.cells h.roots a) := by
  have fin : ∀ {T : Addr → Prop}, ClosedIn h.cells T → (∀ r ∈ h.roots, T r) →
      (major = false → ∀ r ∈ h.remembered, T r) →
      ∃ h' hm, h.gc major = some h' ∧ Inv h' ∧ h'.roots = h.roots ∧ PM T major h hm ∧
      (∀ a o, h.cells a = .obj o → hm.mark a = true → ∃ o', h'.cells a = .obj o' ∧ o.same o') ∧
      (∀ a o', h'.cells a = .obj o' → hm.mark a = true ∧ ∃ o, h.cells a = .obj o ∧ o.same o') := by
    intro T hT hr hrem
    obtain ⟨hm, e1, M⟩ := markPhase_ok I major hT hr hrem
    obtain ⟨h', e2, I', r', k1, k2⟩ := finish_ok I hT M
    exact ⟨h', hm, by rw [Heap.gc, e1]; exact e2, I', r', M, k1, k2⟩
  have keep : ∀ {T : Addr → Prop} {hm : Heap}, PM T major h hm → ∀ a, Reach h.cells h.roots a →
      hm.mark a = true := by
    intro T hm M a ha
    exact reach_sub (S := fun a => hm.mark a = true) M.roots (fun a o ho hm => M.closed a o ho hm) ha
  cases major with
  | true =>
    obtain ⟨h', hm, e, I', r', M, k1, k2⟩ := fin (T := Reach h.cells h.roots)
      (by
        intro a ha
        obtain ⟨o, ho⟩ := I.reachObj ha
        exact ⟨o, ho, fun k hk => .kid ha ho hk⟩)
      (fun r hr => .root hr) (by intro hx; cases hx)
    refine ⟨h', e, I', r', fun a o hra ho => k1 a o ho (keep M a hra), fun a o' hc => (k2 a o' hc).2, ?_⟩
    intro _ a o' hc
    obtain ⟨hmk, o, ho, _⟩ := k2 a o' hc
    rcases M.marks a (inService_onPage I.used (I.objIn a o ho)) hmk with h | ⟨h, _⟩
    · exact h
    · cases h
  | false =>
    obtain ⟨h', hm, e, I', r', M, k1, k2⟩ := fin (T := fun a => ∃ o, h.cells a = .obj o)
      (by
        rintro a ⟨o, ho⟩
        exact ⟨o, ho, I.closed a o ho⟩)
      I.roots (by
        intro _ r hr
        exact (I.gen.remObj r (Or.inl hr)).2.1)
    refine ⟨h', e, I', r', fun a o hra ho => k1 a o ho (keep M a hra), fun a o' hc => (k2 a o' hc).2, ?_⟩
    intro hx
    cases hx

end Verif.Gc
