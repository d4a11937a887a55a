import Verif.Gc.Ops

/-!
# C14, C15, C16: the collector keeps what is reachable, and the allocator hands out free cells
-/

namespace Verif.Gc

/-! ## What a program may do -/

/-- A program uses only objects it can reach: it stores references to reachable objects into
reachable objects, and every store into an object of a promotable kind goes through the
barrier. -/
def Legal (h : Heap) : Op → Prop
  | .alloc kids _ _ => ∀ k ∈ kids, Reach h.cells h.roots k
  | .setRoots rs => ∀ r ∈ rs, Reach h.cells h.roots r
  | .store a kids _ child =>
    Reach h.cells h.roots a ∧ (∀ c, child = some c → Reach h.cells h.roots c) ∧
      ∀ k ∈ kids, child = some k ∨ ∃ o, h.cells a = .obj o ∧ k ∈ o.kids
  | .bulk a kids _ => Reach h.cells h.roots a ∧ ∀ k ∈ kids, Reach h.cells h.roots k
  | .raw a kids _ =>
    Reach h.cells h.roots a ∧ (∀ k ∈ kids, Reach h.cells h.roots k) ∧
      ∃ o, h.cells a = .obj o ∧ o.promotable = false
  | .gc _ => True

/-- a history all of whose steps are legal -/
def LegalRun : Heap → List Op → Prop
  | _, [] => True
  | h, op :: ops => Legal h op ∧ ∀ h', h.exec op = some h' → LegalRun h' ops

/-- What the program has written where: the references and data of each object. -/
abbrev Contents := Addr → Option (List Addr × Nat)

/-- The record of one step.  A collection writes nothing. -/
def record (g : Contents) (op : Op) (h' : Heap) : Contents :=
  match op with
  | .alloc kids data _ =>
    match h'.roots with
    | a :: _ => Function.update g a (some (kids, data))
    | [] => g
  | .store a kids data _ => Function.update g a (some (kids, data))
  | .bulk a kids data => Function.update g a (some (kids, data))
  | .raw a kids data => Function.update g a (some (kids, data))
  | .setRoots _ => g
  | .gc _ => g

/-- the record of a history -/
def written : Contents → Heap → List Op → Contents
  | g, _, [] => g
  | g, h, op :: ops =>
    match h.exec op with
    | some h' => written (record g op h') h' ops
    | none => g

/-! ## Histories -/

theorem new_inv (mg og : Addr → Bool) : Inv (Heap.new mg og) := by
  refine ⟨by simp [Heap.new], by simp [Heap.new], by simp [Heap.new], ?_, ?_, ?_,
    ⟨?_, ?_, ?_, ?_, ?_⟩, ?_, by simp [Heap.new], rfl, rfl⟩
  · intro a o h; cases h
  · refine ⟨[], rfl, List.nodup_nil, rfl, ?_⟩
    intro a
    simp [Heap.new, Heap.inService]
  · intro a ha ho
    exfalso
    have : a.1 = 0 := by
      rcases ha.1 with h | h
      · exact h
      · cases h
    simp [Heap.new, this] at ho
  · intro a o _ h; cases h
  · intro a o _ h; cases h
  · intro a h; simp [Heap.new] at h
  · intro a o _ h; cases h
  · intro a o _ h; cases h
  · intro a o h; cases h

/-- every object's contents are what the program wrote -/
def Faithful (g : Contents) (h : Heap) : Prop :=
  ∀ a o, h.cells a = .obj o → g a = some (o.kids, o.data)

theorem write_faithful {g : Contents} {h : Heap} (F : Faithful g h) {a : Addr} {o : Obj}
    (ho : h.cells a = .obj o) (kids : List Addr) (data : Nat) :
    Faithful (Function.update g a (some (kids, data))) (h.write a kids data) := by
  intro x ox hx
  unfold Heap.write at hx
  rw [ho] at hx
  simp only at hx
  by_cases hxa : x = a
  · subst hxa
    rw [Function.update_self] at hx ⊢
    cases hx
    rfl
  · rw [Function.update_of_ne hxa] at hx ⊢
    exact F x ox hx

theorem enter_faithful {g : Contents} {h : Heap} (F : Faithful g h) {a : Addr} {o : Obj}
    (ho : h.cells a = .obj o) : Faithful g (h.enterRemembered a o) := by
  intro x ox hx
  unfold Heap.enterRemembered at hx
  simp only at hx
  by_cases hxa : x = a
  · subst hxa
    rw [Function.update_self] at hx
    cases hx
    exact F x o ho
  · rw [Function.update_of_ne hxa] at hx
    exact F x ox hx

theorem write_cells {h : Heap} {a : Addr} {o : Obj} (ho : h.cells a = .obj o) (kids : List Addr)
    (data : Nat) : (h.write a kids data).cells a = .obj { o with kids := kids, data := data } := by
  unfold Heap.write
  rw [ho]
  simp

theorem exec_ok {g : Contents} {h : Heap} (I : Inv h) (F : Faithful g h) {op : Op}
    (L : Legal h op) :
    ∃ h', h.exec op = some h' ∧ Inv h' ∧ Faithful (record g op h') h' := by
  cases op with
  | alloc kids data promotable =>
    obtain ⟨h1, a, e, hf, hc, hr, _, _, I1⟩ := alloc_ok I data promotable (fun k hk => I.reachObj (L k hk))
    refine ⟨{ h1 with roots := a :: h1.roots }, by simp only [Heap.exec, e, Option.map_some], I1, ?_⟩
    intro x ox hx
    simp only [record]
    simp only [hc] at hx
    by_cases hxa : x = a
    · subst hxa
      rw [Function.update_self] at hx ⊢
      cases hx
      rfl
    · rw [Function.update_of_ne hxa] at hx ⊢
      exact F x ox hx
  | setRoots rs =>
    refine ⟨{ h with roots := rs }, rfl, ?_, F⟩
    exact ⟨I.nodup, I.bound, I.used, I.objIn, I.chain, I.oldObj,
      ⟨I.gen.1, I.gen.2, I.gen.3, I.gen.4, I.gen.5⟩, I.closed,
      fun r hr => I.reachObj (L r hr), I.queue, I.aging⟩
  | store a kids data child =>
    obtain ⟨La, Lc, Lk⟩ := L
    obtain ⟨o, ho⟩ := I.reachObj La
    have hk : ∀ k ∈ kids, ∃ o, h.cells k = .obj o := by
      intro k hk
      rcases Lk k hk with e | ⟨oa, h1, h2⟩
      · exact I.reachObj (Lc k e)
      · exact I.closed a oa h1 k h2
    refine ⟨_, rfl, ?_⟩
    unfold Heap.writeBarrier
    rw [write_cells ho]
    simp only [record]
    by_cases hb : (o.armed && child.isSome) = true
    · rw [if_pos hb, write_enter ho]
      simp only [Bool.and_eq_true] at hb
      have hold := I.gen.armedOld a o trivial ho hb.1
      have hc : (h.enterRemembered a o).cells a = .obj { o with armed := false } := by
        unfold Heap.enterRemembered
        exact Function.update_self _ _ _
      refine ⟨write_inv (enter_inv I ho hold) hc data ?_ (by intro hx; cases hx), ?_⟩
      · intro k hkk
        obtain ⟨ok, hok⟩ := hk k hkk
        obtain ⟨o', e, _⟩ := (SimL.update (L := fun _ => True) (o' := { o with armed := false }) ho
          ⟨rfl, rfl, rfl⟩).fwd k ok trivial hok
        exact ⟨o', e⟩
      · exact write_faithful (enter_faithful F ho) hc kids data
    · rw [if_neg hb]
      refine ⟨write_inv I ho data hk ?_, write_faithful F ho kids data⟩
      intro har k hkk
      have hcn : child = none := by
        cases child with
        | none => rfl
        | some c => simp [har] at hb
      rcases Lk k hkk with e | ⟨oa, h1, h2⟩
      · rw [hcn] at e; cases e
      · rw [ho] at h1
        cases h1
        exact I.gen.kidsOld a o trivial ho har k h2
  | bulk a kids data =>
    obtain ⟨La, Lk⟩ := L
    obtain ⟨o, ho⟩ := I.reachObj La
    have hk : ∀ k ∈ kids, ∃ o, h.cells k = .obj o := fun k hk => I.reachObj (Lk k hk)
    refine ⟨_, rfl, ?_⟩
    unfold Heap.writeBarrierBulk
    rw [write_cells ho]
    simp only [record]
    by_cases hb : o.armed = true
    · rw [if_pos hb, write_enter ho]
      have hold := I.gen.armedOld a o trivial ho hb
      have hc : (h.enterRemembered a o).cells a = .obj { o with armed := false } := by
        unfold Heap.enterRemembered
        exact Function.update_self _ _ _
      refine ⟨write_inv (enter_inv I ho hold) hc data ?_ (by intro hx; cases hx), ?_⟩
      · intro k hkk
        obtain ⟨ok, hok⟩ := hk k hkk
        obtain ⟨o', e, _⟩ := (SimL.update (L := fun _ => True) (o' := { o with armed := false }) ho
          ⟨rfl, rfl, rfl⟩).fwd k ok trivial hok
        exact ⟨o', e⟩
      · exact write_faithful (enter_faithful F ho) hc kids data
    · rw [if_neg hb]
      exact ⟨write_inv I ho data hk (fun h => absurd h hb), write_faithful F ho kids data⟩
  | raw a kids data =>
    obtain ⟨La, Lk, o, ho, hp⟩ := L
    have hk : ∀ k ∈ kids, ∃ o, h.cells k = .obj o := fun k hk => I.reachObj (Lk k hk)
    refine ⟨_, rfl, write_inv I ho data hk ?_, write_faithful F ho kids data⟩
    intro har
    have := I.gen.prom a o trivial ho (I.gen.armedOld a o trivial ho har)
    rw [hp] at this
    cases this
  | gc major =>
    obtain ⟨h', e, I', hr, _, hb, _⟩ := gc_ok I major
    refine ⟨h', e, I', ?_⟩
    intro x ox hx
    obtain ⟨o, ho, hs⟩ := hb x ox hx
    simp only [record]
    rw [F x o ho, hs.1, hs.2.1]

theorem run_ok : ∀ (ops : List Op) {g : Contents} {h : Heap}, Inv h → Faithful g h →
    LegalRun h ops → ∃ h', h.run ops = some h' ∧ Inv h' ∧ Faithful (written g h ops) h'
  | [], g, h, I, F, _ => ⟨h, rfl, I, F⟩
  | op :: ops, g, h, I, F, ⟨L, Ls⟩ => by
    obtain ⟨h1, e1, I1, F1⟩ := exec_ok I F L
    obtain ⟨h2, e2, I2, F2⟩ := run_ok ops I1 F1 (Ls h1 e1)
    exact ⟨h2, by rw [Heap.run, e1]; exact e2, I2, by rw [written, e1]; exact F2⟩

/-! ## C14 -/

/-- **C14.**  A legal history never aborts, and at its end every reachable object is there with
the references and data that the program last wrote into it, whatever collections took place. -/
theorem C14_reachable_objects_survive (mg og : Addr → Bool) (ops : List Op)
    (L : LegalRun (Heap.new mg og) ops) :
    ∃ h, (Heap.new mg og).run ops = some h ∧
      ∀ a, Reach h.cells h.roots a → ∃ o, h.cells a = .obj o ∧
        written (fun _ => none) (Heap.new mg og) ops a = some (o.kids, o.data) := by
  obtain ⟨h, e, I, F⟩ := run_ok ops (new_inv mg og) (g := fun _ => none) (by intro a o h; cases h) L
  refine ⟨h, e, ?_⟩
  intro a ha
  obtain ⟨o, ho⟩ := I.reachObj ha
  exact ⟨o, ho, F a o ho⟩

/-- **C14.**  A collection changes neither the roots nor which objects are reachable nor what
they contain. -/
theorem C14_collection_is_invisible (mg og : Addr → Bool) (ops : List Op)
    (L : LegalRun (Heap.new mg og) ops) (major : Bool) (h : Heap)
    (e : (Heap.new mg og).run ops = some h) :
    ∃ h', h.gc major = some h' ∧ h'.roots = h.roots ∧
      (∀ a, Reach h'.cells h'.roots a ↔ Reach h.cells h.roots a) ∧
      (∀ a, Reach h.cells h.roots a → ∃ o o', h.cells a = .obj o ∧ h'.cells a = .obj o' ∧
        o'.kids = o.kids ∧ o'.data = o.data ∧ o'.promotable = o.promotable) := by
  obtain ⟨h0, e0, I, _⟩ := run_ok ops (new_inv mg og) (g := fun _ => none) (by intro a o h; cases h) L
  rw [e] at e0
  cases e0
  obtain ⟨h', e', I', hr, hk, hb, _⟩ := gc_ok I major
  refine ⟨h', e', hr, ?_, ?_⟩
  · intro a
    constructor
    · intro ha
      refine reach_sub (S := Reach h.cells h.roots) (by rw [hr]; exact fun r h => .root h) ?_ ha
      intro x o' hx hS k hkk
      obtain ⟨o, ho, hs⟩ := hb x o' hx
      exact .kid hS ho (by rw [← hs.1]; exact hkk)
    · intro ha
      refine (reach_sub (S := fun x => Reach h.cells h.roots x ∧ Reach h'.cells h'.roots x)
        (fun r hx => ⟨.root hx, .root (by rw [hr]; exact hx)⟩) ?_ ha).2
      rintro x o hx ⟨h1, h2⟩ k hkk
      obtain ⟨o', ho', hs⟩ := hk x o h1 hx
      exact ⟨.kid h1 hx hkk, .kid h2 ho' (by rw [hs.1]; exact hkk)⟩
  · intro a ha
    obtain ⟨o, ho⟩ := I.reachObj ha
    obtain ⟨o', ho', hs⟩ := hk a o ha ho
    exact ⟨o, o', ho, ho', hs.1, hs.2.1, hs.2.2⟩

/-! ## C15 -/

/-- **C15.**  After a major collection the objects are exactly those reachable from the
roots, for graphs of any depth. -/
theorem C15_major_collection_is_exact (mg og : Addr → Bool) (ops : List Op)
    (L : LegalRun (Heap.new mg og) ops) (h : Heap) (e : (Heap.new mg og).run ops = some h) :
    ∃ h', h.gc true = some h' ∧
      ∀ a, (∃ o, h'.cells a = .obj o) ↔ Reach h.cells h.roots a := by
  obtain ⟨h0, e0, I, _⟩ := run_ok ops (new_inv mg og) (g := fun _ => none) (by intro a o h; cases h) L
  rw [e] at e0
  cases e0
  obtain ⟨h', e', _, _, hk, _, hm⟩ := gc_ok I true
  refine ⟨h', e', ?_⟩
  intro a
  constructor
  · rintro ⟨o, ho⟩
    exact hm rfl a o ho
  · intro ha
    obtain ⟨o, ho⟩ := I.reachObj ha
    obtain ⟨o', ho', _⟩ := hk a o ha ho
    exact ⟨o', ho'⟩

/-! ## C16 -/

/-- **C16.**  Allocation succeeds and returns a cell that holds no object, on a page that
exists; every other cell is untouched. -/
theorem C16_allocated_cell_was_free (mg og : Addr → Bool) (ops : List Op)
    (L : LegalRun (Heap.new mg og) ops) (h : Heap) (e : (Heap.new mg og).run ops = some h)
    (kids : List Addr) (data : Nat) (promotable : Bool)
    (hk : ∀ k ∈ kids, Reach h.cells h.roots k) :
    ∃ h' a, h.alloc ⟨kids, data, promotable, 0, false, false⟩ = some (h', a) ∧
      (∀ o, h.cells a ≠ .obj o) ∧ ¬ Reach h.cells h.roots a ∧
      (∃ o, h'.cells a = .obj o ∧ o.kids = kids ∧ o.data = data) ∧
      (∀ b, b ≠ a → h'.cells b = h.cells b) ∧
      a.1 ≤ h'.head ∧ a.2 < DATA_LEN := by
  obtain ⟨h0, e0, I, _⟩ := run_ok ops (new_inv mg og) (g := fun _ => none) (by intro a o h; cases h) L
  rw [e] at e0
  cases e0
  obtain ⟨h1, a, e1, hf, hc, _, hb1, hb2, _⟩ := alloc_ok I data promotable (fun k hk' => I.reachObj (hk k hk'))
  refine ⟨h1, a, e1, hf, ?_, ?_, ?_, hb1, hb2⟩
  · intro ha
    obtain ⟨o, ho⟩ := I.reachObj ha
    exact hf o ho
  · exact ⟨_, by rw [hc, Function.update_self], rfl, rfl⟩
  · intro b hb
    rw [hc, Function.update_of_ne hb]

/-- whether a cell holds no object -/
def Cell.isFree : Cell → Bool
  | .free _ => true
  | .obj _ => false

/-- **C16.**  The free list holds each free cell in service once and nothing else, and the
count of free cells is right. -/
theorem C16_free_list_is_exact (mg og : Addr → Bool) (ops : List Op)
    (L : LegalRun (Heap.new mg og) ops) (h : Heap) (e : (Heap.new mg og).run ops = some h) :
    (∃ l, Chain h.cells h.free l ∧ l.Nodup ∧
      ∀ a, a ∈ l ↔ a ∈ h.inService ∧ (h.cells a).isFree = true) ∧
    h.freeCount = h.inService.countP (fun a => (h.cells a).isFree) := by
  obtain ⟨h0, e0, I, _⟩ := run_ok ops (new_inv mg og) (g := fun _ => none) (by intro a o h; cases h) L
  rw [e] at e0
  cases e0
  obtain ⟨l, hc, hnd, hlen, hmem⟩ := I.chain
  have hm : ∀ a, a ∈ l ↔ a ∈ h.inService ∧ (h.cells a).isFree = true := by
    intro a
    rw [hmem a]
    cases hx : h.cells a with
    | free n => simp [Cell.isFree]
    | obj o => simp [Cell.isFree]
  refine ⟨⟨l, hc, hnd, hm⟩, ?_⟩
  have hs : h.inService.Nodup := by
    have := List.nodup_cons.1 I.nodup
    exact nodup_inService (List.nodup_append.1 this.2).1
      (fun hx => this.1 (List.mem_append_left _ hx))
  have perm : l.Perm (h.inService.filter (fun a => (h.cells a).isFree)) := by
    rw [List.perm_ext_iff_of_nodup hnd (hs.filter _)]
    intro a
    rw [hm a, List.mem_filter]
  rw [hlen, perm.length_eq, List.countP_eq_length_filter]

/-- a program that allocates and keeps everything -/
def hoard (n : Nat) : List Op := List.replicate n (.alloc [] 0 true)

theorem hoard_legal : ∀ (n : Nat) (h : Heap), LegalRun h (hoard n)
  | 0, _ => trivial
  | n + 1, h => by
    rw [hoard, List.replicate_succ]
    exact ⟨by simp [Legal], fun h' _ => hoard_legal n h'⟩

/-- the state of a hoarding program -/
structure Hoard (n : Nat) (h : Heap) : Prop where
  free : h.free = none
  pages : h.freePages = []
  head : h.head = h.current
  used : h.used ≤ DATA_LEN
  count : DATA_LEN * h.current + h.used = n
  last : 0 < n → ∃ rs, h.roots = (h.current, h.used - 1) :: rs

theorem hoard_step {n : Nat} {h : Heap} (H : Hoard n h) :
    ∃ h', h.exec (.alloc [] 0 true) = some h' ∧ Hoard (n + 1) h' := by
  unfold Heap.exec Heap.alloc
  rw [H.free]
  by_cases hu : h.used = DATA_LEN
  · simp only [if_pos hu, H.pages, Option.map_some]
    refine ⟨_, rfl, ⟨rfl, rfl, rfl, (show 1 ≤ DATA_LEN by decide), ?_, fun _ => ⟨_, rfl⟩⟩⟩
    have := H.count
    have hh := H.head
    simp only [Heap.newPage, hh, Nat.mul_add]
    omega
  · simp only [if_neg hu, Option.map_some]
    refine ⟨_, rfl, ⟨rfl, H.pages, H.head, ?_, ?_, fun _ => ⟨_, rfl⟩⟩⟩
    · have := H.used
      simp only
      omega
    · have := H.count
      simp only
      omega

theorem hoard_run : ∀ (m : Nat) {n : Nat} {h : Heap}, Hoard n h →
    ∃ h', h.run (hoard m) = some h' ∧ Hoard (n + m) h'
  | 0, n, h, H => ⟨h, rfl, H⟩
  | m + 1, n, h, H => by
    obtain ⟨h1, e1, H1⟩ := hoard_step H
    obtain ⟨h2, e2, H2⟩ := hoard_run m H1
    refine ⟨h2, ?_, ?_⟩
    · rw [hoard, List.replicate_succ, Heap.run, e1]
      exact e2
    · rw [show n + (m + 1) = n + 1 + m by omega]
      exact H2

/-- **C16, a defect.**  The arena has room for `MAX_PAGES` pages but nothing checks the bound:
the first object that does not fit is placed on page `MAX_PAGES`, past the end of the arena. -/
theorem C16_arena_overrun (mg og : Addr → Bool) :
    ∃ ops h rs, LegalRun (Heap.new mg og) ops ∧ (Heap.new mg og).run ops = some h ∧
      ops.length = MAX_PAGES * DATA_LEN + 1 ∧ h.roots = (MAX_PAGES, 0) :: rs := by
  obtain ⟨h, e, H⟩ := hoard_run (MAX_PAGES * DATA_LEN + 1) (n := 0) (h := Heap.new mg og)
    ⟨rfl, rfl, rfl, by simp [Heap.new], by simp [Heap.new], by intro h; omega⟩
  obtain ⟨rs, hr⟩ := H.last (by omega)
  have hc := H.count
  have hu := H.used
  have hD : DATA_LEN = 4032 := rfl
  have hM : MAX_PAGES = 8192 := rfl
  rw [hD, hM] at hc
  rw [hD] at hu
  have h1 : h.current = MAX_PAGES := by rw [hM]; omega
  have h2 : h.used - 1 = 0 := by rw [hM] at h1; omega
  refine ⟨_, h, rs, hoard_legal _ _, e, by simp [hoard], ?_⟩
  rw [hr, h1, h2]

/-! ## Concrete histories -/

/-- A sufficient test of legality: everything mentioned is a root. -/
def rootLegal (h : Heap) : Op → Bool
  | .alloc kids _ _ => kids.all (h.roots.contains ·)
  | .setRoots rs => rs.all (h.roots.contains ·)
  | .store a kids _ child =>
    h.roots.contains a && (match child with | some c => h.roots.contains c | none => true) &&
      kids.all (fun k => child == some k)
  | .bulk a kids _ => h.roots.contains a && kids.all (h.roots.contains ·)
  | .raw a kids _ =>
    h.roots.contains a && kids.all (h.roots.contains ·) &&
      (match h.cells a with | .obj o => !o.promotable | .free _ => false)
  | .gc _ => true

def rootLegalRun : Heap → List Op → Bool
  | _, [] => true
  | h, op :: ops => rootLegal h op &&
    (match h.exec op with
     | some h' => rootLegalRun h' ops
     | none => true)

theorem rootLegal_legal {h : Heap} {op : Op} (e : rootLegal h op = true) : Legal h op := by
  cases op with
  | alloc kids _ _ =>
    intro k hk
    simp only [rootLegal, List.all_eq_true] at e
    exact .root (by simpa using e k hk)
  | setRoots rs =>
    intro k hk
    simp only [rootLegal, List.all_eq_true] at e
    exact .root (by simpa using e k hk)
  | store a kids _ child =>
    simp only [rootLegal, Bool.and_eq_true, List.all_eq_true] at e
    obtain ⟨⟨ha, hc⟩, hk⟩ := e
    refine ⟨.root (by simpa using ha), ?_, ?_⟩
    · intro c hcc
      subst hcc
      exact .root (by simpa using hc)
    · intro k hkk
      exact Or.inl (by simpa using hk k hkk)
  | bulk a kids _ =>
    simp only [rootLegal, Bool.and_eq_true, List.all_eq_true] at e
    exact ⟨.root (by simpa using e.1), fun k hk => .root (by simpa using e.2 k hk)⟩
  | raw a kids _ =>
    simp only [rootLegal, Bool.and_eq_true, List.all_eq_true] at e
    refine ⟨.root (by simpa using e.1.1), fun k hk => .root (by simpa using e.1.2 k hk), ?_⟩
    cases hx : h.cells a with
    | free n => simp [hx] at e
    | obj o => exact ⟨o, rfl, by simpa [hx] using e.2⟩
  | gc _ => trivial

theorem rootLegalRun_legal : ∀ {ops : List Op} {h : Heap}, rootLegalRun h ops = true → LegalRun h ops
  | [], _, _ => trivial
  | op :: ops, h, e => by
    simp only [rootLegalRun, Bool.and_eq_true] at e
    refine ⟨rootLegal_legal e.1, ?_⟩
    intro h' e'
    rw [e'] at e
    exact rootLegalRun_legal e.2

/-- a fresh heap over garbage bitmaps -/
def demoHeap : Heap := Heap.new (fun _ => true) (fun _ => true)

/-- An object ages over three collections, then gets a young child that only it refers to. -/
def demoOps : List Op :=
  [.alloc [] 1 true, .gc false, .gc false, .gc false, .alloc [] 2 true, .alloc [] 3 true,
   .store (0, 0) [(0, 1)] 1 (some (0, 1)), .setRoots [(0, 0)], .gc false, .gc true, .gc false]

example : LegalRun demoHeap demoOps := rootLegalRun_legal (by decide +kernel)

/-- The old object was promoted, its young child survives, the garbage is freed. -/
example : (demoHeap.run demoOps).map (fun h =>
    (h.oldb (0, 0), (h.cells (0, 1)).isFree, (h.cells (0, 2)).isFree, h.freeCount,
      decide (h.free = some (0, 2)))) =
    some (true, false, true, 1, true) := by decide +kernel

/-- A chain of 80 objects: marking goes through the queue twice. -/
def chainOps : List Op :=
  (List.range 80).map (fun i => .alloc (if i = 0 then [] else [(0, i - 1)]) i true) ++
    [.setRoots [(0, 79)]]

example : LegalRun demoHeap chainOps := rootLegalRun_legal (by decide +kernel)

example : (demoHeap.run (chainOps ++ [.gc true])).map (fun h => (h.cells (0, 0)).isFree) =
    some false := by decide +kernel

end Verif.Gc
