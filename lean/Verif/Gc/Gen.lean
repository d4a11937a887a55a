import Verif.Gc.Mark
import Mathlib.Tactic.Tauto

/-! # Generations: the remembered set, aging, the barrier -/

namespace Verif.Gc

/-- equal apart from the header -/
def Obj.same (o o' : Obj) : Prop :=
  o'.kids = o.kids ∧ o'.data = o.data ∧ o'.promotable = o.promotable

theorem Obj.same.refl (o : Obj) : o.same o := ⟨rfl, rfl, rfl⟩
theorem Obj.same.trans {o o' o'' : Obj} (h : o.same o') (h' : o'.same o'') : o.same o'' :=
  ⟨h'.1.trans h.1, h'.2.1.trans h.2.1, h'.2.2.trans h.2.2⟩

/-- No object appears, those of `L` stay, and contents are unchanged. -/
structure SimL (L : Addr → Prop) (c c' : Addr → Cell) : Prop where
  fwd : ∀ a o, L a → c a = .obj o → ∃ o', c' a = .obj o' ∧ o.same o'
  bwd : ∀ a o', c' a = .obj o' → ∃ o, c a = .obj o ∧ o.same o'

theorem SimL.refl {L : Addr → Prop} (c : Addr → Cell) : SimL L c c :=
  ⟨fun _ o _ h => ⟨o, h, .refl o⟩, fun _ o h => ⟨o, h, .refl o⟩⟩

theorem SimL.trans {L : Addr → Prop} {c c1 c2 : Addr → Cell} (h : SimL L c c1)
    (h' : SimL L c1 c2) : SimL L c c2 where
  fwd a o hl ho := by
    obtain ⟨o1, e1, s1⟩ := h.fwd a o hl ho
    obtain ⟨o2, e2, s2⟩ := h'.fwd a o1 hl e1
    exact ⟨o2, e2, s1.trans s2⟩
  bwd a o ho := by
    obtain ⟨o1, e1, s1⟩ := h'.bwd a o ho
    obtain ⟨o2, e2, s2⟩ := h.bwd a o1 e1
    exact ⟨o2, e2, s2.trans s1⟩

theorem SimL.mono {L L' : Addr → Prop} {c c' : Addr → Cell} (h : SimL L c c')
    (hl : ∀ a, L' a → L a) : SimL L' c c' :=
  ⟨fun a o x => h.fwd a o (hl a x), h.bwd⟩

/-- changing the header of one object -/
theorem SimL.update {L : Addr → Prop} {c : Addr → Cell} {a : Addr} {o o' : Obj} (hc : c a = .obj o)
    (hs : o.same o') : SimL L c (Function.update c a (.obj o')) where
  fwd x ox _ hx := by
    by_cases hxa : x = a
    · subst hxa
      rw [hc] at hx
      cases hx
      exact ⟨o', by simp, hs⟩
    · exact ⟨ox, by rw [Function.update_of_ne hxa]; exact hx, .refl ox⟩
  bwd x ox hx := by
    by_cases hxa : x = a
    · subst hxa
      rw [Function.update_self] at hx
      cases hx
      exact ⟨o, hc, hs⟩
    · exact ⟨ox, by rw [Function.update_of_ne hxa] at hx; exact hx, .refl ox⟩

theorem ClosedIn.sim {T : Addr → Prop} {c c' : Addr → Cell} (h : ClosedIn c T)
    (s : SimL (fun _ => True) c c') : ClosedIn c' T := by
  intro a ha
  obtain ⟨o, ho, hk⟩ := h a ha
  obtain ⟨o', ho', hs⟩ := s.fwd a o trivial ho
  exact ⟨o', ho', by rw [hs.1]; exact hk⟩

/-- The generational invariant over the objects of `L`: an old object refers to old objects
only or is in the remembered set (or in `pend`, which is about to be entered there); the
others have the barrier armed. -/
structure Gen (L : Addr → Prop) (h : Heap) (pend : List Addr) : Prop where
  armedOld : ∀ a o, L a → h.cells a = .obj o → o.armed = true → h.oldb a = true
  rem : ∀ a o, L a → h.cells a = .obj o → h.oldb a = true → o.armed = false →
    a ∈ h.remembered ∨ a ∈ pend
  remObj : ∀ a, (a ∈ h.remembered ∨ a ∈ pend) → L a ∧ (∃ o, h.cells a = .obj o) ∧ h.oldb a = true
  kidsOld : ∀ a o, L a → h.cells a = .obj o → o.armed = true → ∀ k ∈ o.kids, h.oldb k = true
  prom : ∀ a o, L a → h.cells a = .obj o → h.oldb a = true → o.promotable = true

theorem Gen.congr {L : Addr → Prop} {h : Heap} {p p' : List Addr} (g : Gen L h p)
    (e : ∀ a, a ∈ p ↔ a ∈ p') : Gen L h p' where
  armedOld := g.armedOld
  rem a o l c b r := by rw [← e a]; exact g.rem a o l c b r
  remObj a x := g.remObj a (by rw [e a]; exact x)
  kidsOld := g.kidsOld
  prom := g.prom

/-- moving the remembered set to and fro -/
theorem Gen.shift {L : Addr → Prop} {h : Heap} {p p' r : List Addr} (g : Gen L h p)
    (e : ∀ a, (a ∈ h.remembered ∨ a ∈ p) ↔ (a ∈ r ∨ a ∈ p')) :
    Gen L { h with remembered := r } p' where
  armedOld := g.armedOld
  rem a o l c b x := (e a).1 (g.rem a o l c b x)
  remObj a x := g.remObj a ((e a).2 x)
  kidsOld := g.kidsOld
  prom := g.prom

/-- arming an object without young children -/
theorem Gen.arm {L : Addr → Prop} {h : Heap} {p p' : List Addr} {r : Addr} {o : Obj}
    (g : Gen L h p) (hr : h.cells r = .obj o) (ho : h.oldb r = true)
    (hy : h.youngChild o = false)
    (hp : ∀ a, a ∈ p → a ≠ r → a ∈ p') (hp' : ∀ a, a ∈ p' → a ∈ h.remembered ∨ a ∈ p) :
    Gen L (h.arm r) p' := by
  have e : h.arm r = { h with cells := Function.update h.cells r (.obj { o with armed := true }) } := by
    unfold Heap.arm; rw [hr]
  rw [e]
  refine ⟨?_, ?_, ?_, ?_, ?_⟩
  · intro a ob l hc ha
    by_cases hx : a = r
    · subst hx; exact ho
    · simp only [Function.update_of_ne hx] at hc
      exact g.armedOld a ob l hc ha
  · intro a ob l hc hold ha
    by_cases hx : a = r
    · subst hx
      simp only [Function.update_self] at hc
      cases hc
      cases ha
    · simp only [Function.update_of_ne hx] at hc
      rcases g.rem a ob l hc hold ha with h | h
      · exact Or.inl h
      · exact Or.inr (hp a h hx)
  · intro a ha
    have : a ∈ h.remembered ∨ a ∈ p := by
      rcases ha with h | h
      · exact Or.inl h
      · exact hp' a h
    obtain ⟨u, ⟨ob, v⟩, w⟩ := g.remObj a this
    refine ⟨u, ?_, w⟩
    by_cases hx : a = r
    · subst hx; exact ⟨_, Function.update_self _ _ _⟩
    · exact ⟨ob, by simp only [Function.update_of_ne hx]; exact v⟩
  · intro a ob l hc ha k hk
    by_cases hx : a = r
    · subst hx
      simp only [Function.update_self] at hc
      cases hc
      simp only [Heap.youngChild, List.any_eq_false] at hy
      simpa using hy k hk
    · simp only [Function.update_of_ne hx] at hc
      exact g.kidsOld a ob l hc ha k hk
  · intro a ob l hc hold
    by_cases hx : a = r
    · subst hx
      simp only [Function.update_self] at hc
      cases hc
      exact g.prom a o l hr hold
    · simp only [Function.update_of_ne hx] at hc
      exact g.prom a ob l hc hold

/-- entering an object into the remembered set -/
theorem Gen.enter {L : Addr → Prop} {h : Heap} {p p' : List Addr} {r : Addr} {o : Obj}
    (g : Gen L h p) (hl : L r) (hr : h.cells r = .obj o) (ho : h.oldb r = true)
    (hp : ∀ a, a ∈ p → a ≠ r → a ∈ p') (hp' : ∀ a, a ∈ p' → a ∈ h.remembered ∨ a ∈ p) :
    Gen L (h.enterRemembered r o) p' := by
  unfold Heap.enterRemembered
  refine ⟨?_, ?_, ?_, ?_, ?_⟩
  · intro a ob l hc ha
    by_cases hx : a = r
    · subst hx; exact ho
    · simp only [Function.update_of_ne hx] at hc
      exact g.armedOld a ob l hc ha
  · intro a ob l hc hold ha
    by_cases hx : a = r
    · subst hx; left; simp
    · simp only [Function.update_of_ne hx] at hc
      rcases g.rem a ob l hc hold ha with h | h
      · left; simp [h]
      · exact Or.inr (hp a h hx)
  · intro a ha
    by_cases hx : a = r
    · subst hx; exact ⟨hl, ⟨_, Function.update_self _ _ _⟩, ho⟩
    have : a ∈ h.remembered ∨ a ∈ p := by
      rcases ha with h | h
      · rcases List.mem_append.1 h with h | h
        · exact Or.inl h
        · exact absurd (List.mem_singleton.1 h) hx
      · exact hp' a h
    obtain ⟨u, ⟨ob, v⟩, w⟩ := g.remObj a this
    exact ⟨u, ⟨ob, by simp only [Function.update_of_ne hx]; exact v⟩, w⟩
  · intro a ob l hc ha k hk
    by_cases hx : a = r
    · subst hx
      simp only [Function.update_self] at hc
      cases hc
      cases ha
    · simp only [Function.update_of_ne hx] at hc
      exact g.kidsOld a ob l hc ha k hk
  · intro a ob l hc hold
    by_cases hx : a = r
    · subst hx
      simp only [Function.update_self] at hc
      cases hc
      exact g.prom a o l hr hold
    · simp only [Function.update_of_ne hx] at hc
      exact g.prom a ob l hc hold

/-- The fields that the collection leaves alone before `salvage`. -/
structure Static (h h' : Heap) : Prop where
  pages : h'.pages = h.pages
  current : h'.current = h.current
  head : h'.head = h.head
  used : h'.used = h.used
  freePages : h'.freePages = h.freePages
  roots : h'.roots = h.roots

theorem Static.refl (h : Heap) : Static h h := ⟨rfl, rfl, rfl, rfl, rfl, rfl⟩
theorem Static.trans {h h1 h2 : Heap} (a : Static h h1) (b : Static h1 h2) : Static h h2 :=
  ⟨b.1.trans a.1, b.2.trans a.2, b.3.trans a.3, b.4.trans a.4, b.5.trans a.5, b.6.trans a.6⟩

theorem MSpec.static {T : Addr → Prop} {C : List Addr} {h h' : Heap} (m : MSpec T C h h') :
    Static h h' := by
  rw [m.frame]; exact ⟨rfl, rfl, rfl, rfl, rfl, rfl⟩

theorem MSpec.gen {T : Addr → Prop} {C : List Addr} {h h' : Heap} (m : MSpec T C h h')
    {L : Addr → Prop} {p : List Addr} (g : Gen L h p) : Gen L h' p := by
  rw [m.frame]; exact ⟨g.1, g.2, g.3, g.4, g.5⟩

theorem DSpec.static {T : Addr → Prop} {h h' : Heap} (m : DSpec T h h') :
    Static h h' := by
  rw [m.frame]; exact ⟨rfl, rfl, rfl, rfl, rfl, rfl⟩

theorem DSpec.gen {T : Addr → Prop} {h h' : Heap} (m : DSpec T h h')
    {L : Addr → Prop} {p : List Addr} (g : Gen L h p) : Gen L h' p := by
  rw [m.frame]; exact ⟨g.1, g.2, g.3, g.4, g.5⟩

theorem arm_eq {h : Heap} {r : Addr} {o : Obj} (hr : h.cells r = .obj o) :
    h.arm r = { h with cells := Function.update h.cells r (.obj { o with armed := true }) } := by
  unfold Heap.arm; rw [hr]

/-! ## `mark_remembered` -/

/-- What the loop does. -/
structure RSpec (T : Addr → Prop) (C : List Addr) (h h' : Heap) : Prop where
  sim : SimL (fun _ => True) h.cells h'.cells
  static : Static h h'
  oldb : h'.oldb = h.oldb
  mono : ∀ a, h.mark a = true → h'.mark a = true
  new : ∀ a, h'.mark a = true → h.mark a = true ∨ T a
  closed : ∀ a o, h'.mark a = true → h.mark a = false → h.cells a = .obj o →
    a ∈ h'.queue ∨ ∀ k ∈ o.kids, h'.mark k = true
  queue : ∃ q, h'.queue = h.queue ++ q ∧ ∀ x ∈ q, T x
  aging : ∃ g, h'.aging = h.aging ++ g ∧ ∀ x ∈ g, T x ∧ h'.mark x = true ∧
    ∃ o, h.cells x = .obj o ∧ o.promotable = true
  size : h'.queue.length + C.countP (fun a => !h'.mark a) ≤
    h.queue.length + C.countP (fun a => !h.mark a)

variable {T : Addr → Prop} {C : List Addr}

theorem RSpec.refl (h : Heap) : RSpec T C h h :=
  ⟨.refl _, .refl _, rfl, fun _ h => h, fun _ h => Or.inl h,
    fun a o h1 h2 => (by rw [h1] at h2; cases h2), ⟨[], by simp, by simp⟩, ⟨[], by simp, by simp⟩,
    Nat.le_refl _⟩

theorem RSpec.trans {h h1 h2 : Heap} (a : RSpec T C h h1) (b : RSpec T C h1 h2) :
    RSpec T C h h2 where
  sim := a.sim.trans b.sim
  static := a.static.trans b.static
  oldb := b.oldb.trans a.oldb
  mono x hx := b.mono x (a.mono x hx)
  new x hx := by
    rcases b.new x hx with h | h
    · exact a.new x h
    · exact Or.inr h
  closed x o h2m hm hc := by
    obtain ⟨q, hq, _⟩ := b.queue
    by_cases h1 : h1.mark x = true
    · rcases a.closed x o h1 hm hc with h | h
      · left; rw [hq]; exact List.mem_append_left _ h
      · right; intro k hk; exact b.mono k (h k hk)
    · obtain ⟨o1, e1, s1⟩ := a.sim.fwd x o trivial hc
      have := b.closed x o1 h2m (by simpa using h1) e1
      rw [s1.1] at this
      exact this
  queue := by
    obtain ⟨q1, e1, t1⟩ := a.queue
    obtain ⟨q2, e2, t2⟩ := b.queue
    refine ⟨q1 ++ q2, by rw [e2, e1, List.append_assoc], ?_⟩
    intro x hx
    rcases List.mem_append.1 hx with h | h
    · exact t1 x h
    · exact t2 x h
  aging := by
    obtain ⟨q1, e1, t1⟩ := a.aging
    obtain ⟨q2, e2, t2⟩ := b.aging
    refine ⟨q1 ++ q2, by rw [e2, e1, List.append_assoc], ?_⟩
    intro x hx
    rcases List.mem_append.1 hx with h | h
    · obtain ⟨u, v, w⟩ := t1 x h
      exact ⟨u, b.mono x v, w⟩
    · obtain ⟨u, v, o, ho, hp⟩ := t2 x h
      obtain ⟨o', ho', hs⟩ := a.sim.bwd x o ho
      exact ⟨u, v, o', ho', by rw [← hs.2.2]; exact hp⟩
  size := Nat.le_trans b.size a.size

theorem MSpec.toR {h h' : Heap} (m : MSpec T C h h') : RSpec T C h h' where
  sim := by rw [m.cells]; exact .refl _
  static := m.static
  oldb := by rw [m.frame]
  mono := m.mono
  new := m.new
  closed := m.closed
  queue := m.queue
  aging := m.aging
  size := m.size

theorem RSpec.ofArm {h : Heap} {r : Addr} {o : Obj} (hr : h.cells r = .obj o) :
    RSpec T C h (h.arm r) := by
  rw [arm_eq hr]
  refine ⟨.update hr ⟨rfl, rfl, rfl⟩, ⟨rfl, rfl, rfl, rfl, rfl, rfl⟩, rfl, fun _ h => h,
    fun _ h => Or.inl h, ?_, ⟨[], by simp, by simp⟩, ⟨[], by simp, by simp⟩, Nat.le_refl _⟩
  intro a o h1 h2
  simp only at h1
  rw [h1] at h2; cases h2

/-- The loop marks the children of every remembered object and keeps the generational
invariant. -/
theorem markRemLoop_ok (hC : ∀ a, T a → a ∈ C) :
    ∀ (rs kept : List Addr) (h : Heap), ClosedIn h.cells T → (∀ r ∈ rs, T r) →
      Gen (fun _ => True) h (kept ++ rs) →
      ∃ h' kept', markRemLoop h kept rs = some (h', kept') ∧ RSpec T C h h' ∧
        h'.remembered = h.remembered ∧
        Gen (fun _ => True) h' kept' ∧
        (∀ r ∈ rs, ∀ o, h.cells r = .obj o → ∀ k ∈ o.kids, h'.mark k = true)
  | [], kept, h, _, _, hg =>
    ⟨h, kept, rfl, .refl h, rfl, by simpa using hg, by simp⟩
  | r :: rs, kept, h, hT, hr, hg => by
    obtain ⟨h1, e1, m1, k1⟩ := scan_ok (C := C) false hT hC (hr r (by simp))
    obtain ⟨o, ho, _⟩ := hT r (hr r (by simp))
    have ho1 : h1.cells r = .obj o := by rw [m1.cells]; exact ho
    have hg1 := m1.gen hg
    have hrem : h1.remembered = h.remembered := by rw [m1.frame]
    rw [markRemLoop, e1]
    simp only [ho1]
    have hold : h1.oldb r = true := (hg1.remObj r (Or.inr (by simp))).2.2
    have hT1 : ClosedIn h1.cells T := by rw [m1.cells]; exact hT
    by_cases hy : h1.youngChild o = true
    · rw [if_pos hy]
      obtain ⟨h2, kept2, e2, r2, m2, g2, c2⟩ := markRemLoop_ok hC rs (kept ++ [r]) h1 hT1
        (fun x hx => hr x (by simp [hx])) (hg1.congr (by intro a; simp))
      refine ⟨h2, kept2, e2, m1.toR.trans r2, m2.trans hrem, g2, ?_⟩
      intro x hx ox hox k hk
      rcases List.mem_cons.1 hx with rfl | hx
      · exact r2.mono k (k1 ox hox k hk)
      · exact c2 x hx ox (by rw [m1.cells]; exact hox) k hk
    · have hy' : h1.youngChild o = false := by simpa using hy
      rw [if_neg hy]
      have ra : RSpec T C h1 (h1.arm r) := .ofArm ho1
      obtain ⟨h2, kept2, e2, r2, m2, g2, c2⟩ := markRemLoop_ok hC rs kept (h1.arm r)
        (hT1.sim ra.sim)
        (fun x hx => hr x (by simp [hx])) (hg1.arm ho1 hold hy'
          (by intro a ha hne; simp only [List.mem_append, List.mem_cons] at ha ⊢; tauto)
          (by intro a ha; right; simp only [List.mem_append, List.mem_cons] at ha ⊢; tauto))
      refine ⟨h2, kept2, e2, m1.toR.trans (ra.trans r2), ?_, g2, ?_⟩
      · rw [m2, ← hrem, arm_eq ho1]
      · intro x hx ox hox k hk
        rcases List.mem_cons.1 hx with rfl | hx
        · exact r2.mono k (ra.mono k (k1 ox hox k hk))
        · obtain ⟨o2, f2, s2⟩ := ra.sim.fwd x ox trivial (by rw [m1.cells]; exact hox)
          exact c2 x hx o2 f2 k (by rw [s2.1]; exact hk)

theorem markRemembered_ok (hC : ∀ a, T a → a ∈ C) {h : Heap} (hT : ClosedIn h.cells T)
    (hr : ∀ r ∈ h.remembered, T r) (hg : Gen (fun _ => True) h []) :
    ∃ h', markRemembered h = some h' ∧ RSpec T C h h' ∧ Gen (fun _ => True) h' [] ∧
      (∀ r ∈ h.remembered, ∀ o, h.cells r = .obj o → ∀ k ∈ o.kids, h'.mark k = true) := by
  obtain ⟨h', kept, e, r, m, g, c⟩ := markRemLoop_ok hC h.remembered [] { h with remembered := [] }
    hT hr (hg.shift (by intro a; simp))
  rw [markRemembered, e]
  refine ⟨_, rfl, ?_, g.shift (by intro a; rw [m]; simp), c⟩
  exact ⟨r.sim, ⟨r.static.1, r.static.2, r.static.3, r.static.4, r.static.5, r.static.6⟩,
    r.oldb, r.mono, r.new, r.closed, r.queue, r.aging, r.size⟩

/-! ## Aging and the rest up to the sweep -/

/-- What the aging pass and its successors do: nothing but headers, old bits and the
remembered set changes. -/
structure ASpec (h h' : Heap) : Prop where
  sim : SimL (fun _ => True) h.cells h'.cells
  static : Static h h'
  mark : h'.mark = h.mark
  queue : h'.queue = h.queue
  aging : h'.aging = h.aging
  old : ∀ a, h'.oldb a = true → h.oldb a = true ∨ ∃ o, h.cells a = .obj o

theorem ASpec.refl (h : Heap) : ASpec h h :=
  ⟨.refl _, .refl _, rfl, rfl, rfl, fun _ h => Or.inl h⟩

theorem ASpec.trans {h h1 h2 : Heap} (a : ASpec h h1) (b : ASpec h1 h2) : ASpec h h2 where
  sim := a.sim.trans b.sim
  static := a.static.trans b.static
  mark := b.mark.trans a.mark
  queue := b.queue.trans a.queue
  aging := b.aging.trans a.aging
  old x hx := by
    rcases b.old x hx with h | ⟨o, h⟩
    · exact a.old x h
    · obtain ⟨o', e, _⟩ := a.sim.bwd x o h
      exact Or.inr ⟨o', e⟩

theorem ASpec.ofArm {h : Heap} {r : Addr} {o : Obj} (hr : h.cells r = .obj o) :
    ASpec h (h.arm r) := by
  rw [arm_eq hr]
  exact ⟨.update hr ⟨rfl, rfl, rfl⟩, ⟨rfl, rfl, rfl, rfl, rfl, rfl⟩, rfl, rfl, rfl,
    fun _ h => Or.inl h⟩

theorem ASpec.ofEnter {h : Heap} {r : Addr} {o : Obj} (hr : h.cells r = .obj o) :
    ASpec h (h.enterRemembered r o) :=
  ⟨.update hr ⟨rfl, rfl, rfl⟩, ⟨rfl, rfl, rfl, rfl, rfl, rfl⟩, rfl, rfl, rfl,
    fun _ h => Or.inl h⟩

theorem agePass_ok : ∀ (ps promoted : List Addr) (h : Heap),
    (∀ p ∈ ps, ∃ o, h.cells p = .obj o ∧ o.promotable = true) →
    Gen (fun _ => True) h promoted →
    ∃ h' promoted', agePass h promoted ps = some (h', promoted') ∧ ASpec h h' ∧
      Gen (fun _ => True) h' promoted'
  | [], promoted, h, _, hg => ⟨h, promoted, rfl, .refl h, hg⟩
  | p :: ps, promoted, h, hp, hg => by
    obtain ⟨o, ho, hpr⟩ := hp p (by simp)
    rw [agePass, ho]
    simp only []
    have stay : ∀ o' : Obj, o.same o' → ∀ q ∈ ps, ∃ ob,
        Function.update h.cells p (.obj o') q = .obj ob ∧ ob.promotable = true := by
      intro o' hs q hq
      by_cases hqp : q = p
      · subst hqp
        exact ⟨o', by simp, by rw [hs.2.2]; exact hpr⟩
      · rw [Function.update_of_ne hqp]
        exact hp q (by simp [hq])
    split
    · obtain ⟨h2, p2, e2, a2, g2⟩ := agePass_ok ps (promoted ++ [p])
        { h with cells := Function.update h.cells p
                  (.obj { o with age := min 255 (o.age + 1), old := true })
                 oldb := Function.update h.oldb p true }
        (stay { o with age := min 255 (o.age + 1), old := true } ⟨rfl, rfl, rfl⟩) (by
          refine ⟨?_, ?_, ?_, ?_, ?_⟩
          · intro a ob l hc ha
            by_cases hx : a = p
            · subst hx; simp
            · simp only [Function.update_of_ne hx] at hc ⊢
              exact hg.armedOld a ob l hc ha
          · intro a ob l hc hold ha
            by_cases hx : a = p
            · subst hx; right; simp
            · simp only [Function.update_of_ne hx] at hc hold
              rcases hg.rem a ob l hc hold ha with h | h
              · exact Or.inl h
              · right; simp [h]
          · intro a ha
            by_cases hx : a = p
            · subst hx; exact ⟨trivial, ⟨_, Function.update_self _ _ _⟩, by simp⟩
            · simp only [Function.update_of_ne hx]
              refine hg.remObj a ?_
              rcases ha with h | h
              · exact Or.inl h
              · rcases List.mem_append.1 h with h | h
                · exact Or.inr h
                · exact absurd (List.mem_singleton.1 h) hx
          · intro a ob l hc ha k hk
            have : h.oldb k = true := by
              by_cases hx : a = p
              · subst hx
                simp only [Function.update_self] at hc
                cases hc
                exact hg.kidsOld a o l ho ha k hk
              · simp only [Function.update_of_ne hx] at hc
                exact hg.kidsOld a ob l hc ha k hk
            by_cases hk : k = p
            · subst hk; simp
            · simp only [Function.update_of_ne hk]; exact this
          · intro a ob l hc hold
            by_cases hx : a = p
            · subst hx
              simp only [Function.update_self] at hc
              cases hc
              exact hpr
            · simp only [Function.update_of_ne hx] at hc hold
              exact hg.prom a ob l hc hold)
      refine ⟨h2, p2, e2, ASpec.trans ?_ a2, g2⟩
      refine ⟨.update ho ⟨rfl, rfl, rfl⟩, ⟨rfl, rfl, rfl, rfl, rfl, rfl⟩, rfl, rfl, rfl, ?_⟩
      intro a ha
      by_cases hx : a = p
      · subst hx; exact Or.inr ⟨o, ho⟩
      · simp only [Function.update_of_ne hx] at ha
        exact Or.inl ha
    · obtain ⟨h2, p2, e2, a2, g2⟩ := agePass_ok ps promoted
        { h with cells := Function.update h.cells p (.obj { o with age := min 255 (o.age + 1) }) }
        (stay { o with age := min 255 (o.age + 1) } ⟨rfl, rfl, rfl⟩) (by
          refine ⟨?_, ?_, ?_, ?_, ?_⟩
          · intro a ob l hc ha
            by_cases hx : a = p
            · subst hx
              simp only [Function.update_self] at hc
              cases hc
              exact hg.armedOld a o l ho ha
            · simp only [Function.update_of_ne hx] at hc ⊢
              exact hg.armedOld a ob l hc ha
          · intro a ob l hc hold ha
            by_cases hx : a = p
            · subst hx
              simp only [Function.update_self] at hc
              cases hc
              exact hg.rem a o l ho hold ha
            · simp only [Function.update_of_ne hx] at hc
              exact hg.rem a ob l hc hold ha
          · intro a ha
            obtain ⟨u, ⟨ob, v⟩, w⟩ := hg.remObj a ha
            refine ⟨u, ?_, w⟩
            by_cases hx : a = p
            · subst hx; exact ⟨_, Function.update_self _ _ _⟩
            · exact ⟨ob, by simp only [Function.update_of_ne hx]; exact v⟩
          · intro a ob l hc ha k hk
            by_cases hx : a = p
            · subst hx
              simp only [Function.update_self] at hc
              cases hc
              exact hg.kidsOld a o l ho ha k hk
            · simp only [Function.update_of_ne hx] at hc
              exact hg.kidsOld a ob l hc ha k hk
          · intro a ob l hc hold
            by_cases hx : a = p
            · subst hx
              simp only [Function.update_self] at hc
              cases hc
              exact hpr
            · simp only [Function.update_of_ne hx] at hc hold
              exact hg.prom a ob l hc hold)
      refine ⟨h2, p2, e2, ASpec.trans ?_ a2, g2⟩
      exact ⟨.update ho ⟨rfl, rfl, rfl⟩, ⟨rfl, rfl, rfl, rfl, rfl, rfl⟩, rfl, rfl, rfl,
        fun _ h => Or.inl h⟩

theorem rememberPass_ok : ∀ (ps : List Addr) (h : Heap), Gen (fun _ => True) h ps →
    ∃ h', rememberPass h ps = some h' ∧ ASpec h h' ∧ Gen (fun _ => True) h' []
  | [], h, hg => ⟨h, rfl, .refl h, hg⟩
  | p :: ps, h, hg => by
    obtain ⟨_, ⟨o, ho⟩, hold⟩ := hg.remObj p (Or.inr (by simp))
    rw [rememberPass, ho]
    simp only []
    by_cases hy : h.youngChild o = true
    · rw [if_pos hy]
      obtain ⟨h2, e2, a2, g2⟩ := rememberPass_ok ps (h.enterRemembered p o)
        (hg.enter trivial ho hold (by intro a ha hne; simp only [List.mem_cons] at ha; tauto)
          (by intro a ha; right; simp [ha]))
      exact ⟨h2, e2, (ASpec.ofEnter ho).trans a2, g2⟩
    · rw [if_neg hy]
      obtain ⟨h2, e2, a2, g2⟩ := rememberPass_ok ps (h.arm p)
        (hg.arm ho hold (by simpa using hy)
          (by intro a ha hne; simp only [List.mem_cons] at ha; tauto)
          (by intro a ha; right; simp [ha]))
      exact ⟨h2, e2, (ASpec.ofArm ho).trans a2, g2⟩

theorem applyAging_ok {h : Heap}
    (hp : ∀ p ∈ h.aging, ∃ o, h.cells p = .obj o ∧ o.promotable = true)
    (hg : Gen (fun _ => True) h []) :
    ∃ h', applyAging h = some h' ∧ ASpec { h with aging := [] } h' ∧
      Gen (fun _ => True) h' [] := by
  obtain ⟨h1, pr, e1, a1, g1⟩ := agePass_ok h.aging [] { h with aging := [] } hp
    ⟨hg.1, hg.2, hg.3, hg.4, hg.5⟩
  obtain ⟨h2, e2, a2, g2⟩ := rememberPass_ok pr h1 g1
  rw [applyAging, e1]
  exact ⟨h2, e2, a1.trans a2, g2⟩

theorem reclassLoop_ok {L : Addr → Prop} : ∀ (rs kept : List Addr) (h : Heap),
    Gen L h (kept ++ rs) →
      ∃ h' kept', reclassLoop h kept rs = some (h', kept') ∧ ASpec h h' ∧
        h'.remembered = h.remembered ∧ Gen L h' kept'
  | [], kept, h, hg => ⟨h, kept, rfl, .refl h, rfl, by simpa using hg⟩
  | r :: rs, kept, h, hg => by
    obtain ⟨_, ⟨o, ho⟩, hold⟩ := hg.remObj r (Or.inr (by simp))
    rw [reclassLoop, ho]
    simp only []
    by_cases hy : h.youngChild o = true
    · rw [if_pos hy]
      obtain ⟨h2, k2, e2, a2, m2, g2⟩ := reclassLoop_ok rs (kept ++ [r]) h
        (hg.congr (by intro a; simp))
      exact ⟨h2, k2, e2, a2, m2, g2⟩
    · rw [if_neg hy]
      obtain ⟨h2, k2, e2, a2, m2, g2⟩ := reclassLoop_ok rs kept (h.arm r)
        (hg.arm ho hold (by simpa using hy)
          (by intro a ha hne; simp only [List.mem_append, List.mem_cons] at ha ⊢; tauto)
          (by intro a ha; right; simp only [List.mem_append, List.mem_cons] at ha ⊢; tauto))
      exact ⟨h2, k2, e2, (ASpec.ofArm ho).trans a2, by rw [m2, arm_eq ho], g2⟩

theorem reclassify_ok {L : Addr → Prop} {h : Heap} (hg : Gen L h []) :
    ∃ h', reclassify h = some h' ∧ ASpec h h' ∧ Gen L h' [] := by
  obtain ⟨h1, k1, e1, a1, m1, g1⟩ := reclassLoop_ok h.remembered [] { h with remembered := [] }
    (hg.shift (by intro a; simp))
  rw [reclassify, e1]
  refine ⟨_, rfl, ?_, g1.shift (by intro a; rw [m1]; simp)⟩
  exact ⟨a1.sim, ⟨a1.static.1, a1.static.2, a1.static.3, a1.static.4, a1.static.5, a1.static.6⟩,
    a1.mark, a1.queue, a1.aging, a1.old⟩

theorem filterRemembered_ok {h : Heap} (hg : Gen (fun _ => True) h []) :
    ASpec h (filterRemembered h) ∧ Gen (fun a => h.mark a = true) (filterRemembered h) [] := by
  refine ⟨⟨.refl _, ⟨rfl, rfl, rfl, rfl, rfl, rfl⟩, rfl, rfl, rfl, fun _ h => Or.inl h⟩, ?_⟩
  refine ⟨fun a o _ => hg.armedOld a o trivial, ?_, ?_, fun a o _ => hg.kidsOld a o trivial,
    fun a o _ => hg.prom a o trivial⟩
  · intro a o l hc hold ha
    rcases hg.rem a o trivial hc hold ha with h | h
    · left
      exact List.mem_filter.2 ⟨h, l⟩
    · cases h
  · intro a ha
    rcases ha with ha | ha
    · obtain ⟨u, v⟩ := List.mem_filter.1 ha
      exact ⟨v, (hg.remObj a (Or.inl u)).2⟩
    · cases ha

end Verif.Gc
