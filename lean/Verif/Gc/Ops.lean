import Verif.Gc.Inv

/-! # The program's own steps keep the invariant -/

namespace Verif.Gc

/-- the common part of the three ways of allocating -/
theorem alloc_inv {h h' : Heap} (I : Inv h) {a : Addr} {kids : List Addr} {data : Nat}
    {promotable : Bool}
    (hk : ∀ k ∈ kids, ∃ o, h.cells k = .obj o)
    (hcells : h'.cells = Function.update h.cells a (.obj ⟨kids, data, promotable, 0, false, false⟩))
    (hfree : ∀ o, h.cells a ≠ .obj o)
    (hnd : (h'.current :: (h'.pages ++ h'.freePages)).Nodup)
    (hbound : ∀ p ∈ h'.current :: (h'.pages ++ h'.freePages), p ≤ h'.head)
    (hused : h'.used ≤ DATA_LEN)
    (hserv : ∀ x, x ∈ h'.inService ↔ x ∈ h.inService ∨ x = a)
    (hchain : ∃ L, Chain h'.cells h'.free L ∧ L.Nodup ∧ h'.freeCount = L.length ∧
      ∀ x, x ∈ L ↔ x ∈ h'.inService ∧ ∀ o, h'.cells x ≠ .obj o)
    (hold : ∀ x o, h.cells x = .obj o → h'.oldb x = h.oldb x)
    (holda : h'.oldb a = false)
    (holdp : ∀ x, h'.onPage x → h'.oldb x = true → h.onPage x ∧ h.oldb x = true)
    (hrem : h'.remembered = h.remembered) (hroots : h'.roots = a :: h.roots)
    (hq : h'.queue = h.queue) (hag : h'.aging = h.aging) : Inv h' := by
  have same : ∀ x, x ≠ a → h'.cells x = h.cells x := by
    intro x hx
    rw [hcells, Function.update_of_ne hx]
  have self : h'.cells a = .obj ⟨kids, data, promotable, 0, false, false⟩ := by
    rw [hcells, Function.update_self]
  have up : ∀ x o, h.cells x = .obj o → h'.cells x = .obj o := by
    intro x o ho
    rw [same x (by intro e; subst e; exact hfree o ho)]
    exact ho
  have upE : ∀ x, (∃ o, h.cells x = .obj o) → ∃ o, h'.cells x = .obj o :=
    fun x ⟨o, ho⟩ => ⟨o, up x o ho⟩
  have g := I.gen
  refine ⟨hnd, hbound, hused, ?_, hchain, ?_, ⟨?_, ?_, ?_, ?_, ?_⟩, ?_, ?_, ?_, ?_⟩
  · intro x o hc
    rw [hserv]
    by_cases hx : x = a
    · exact Or.inr hx
    · rw [same x hx] at hc
      exact Or.inl (I.objIn x o hc)
  · intro x hon ho
    obtain ⟨h1, h2⟩ := holdp x hon ho
    exact upE x (I.oldObj x h1 h2)
  · intro x o _ hc har
    by_cases hx : x = a
    · subst hx
      rw [self] at hc
      cases hc
      cases har
    · rw [same x hx] at hc
      rw [hold x o hc]
      exact g.armedOld x o trivial hc har
  · intro x o _ hc ho har
    by_cases hx : x = a
    · subst hx
      rw [holda] at ho
      cases ho
    · rw [same x hx] at hc
      rw [hold x o hc] at ho
      rw [hrem]
      exact g.rem x o trivial hc ho har
  · intro x hx
    rw [hrem] at hx
    obtain ⟨u, ⟨o, v⟩, w⟩ := g.remObj x hx
    exact ⟨trivial, ⟨o, up x o v⟩, by rw [hold x o v]; exact w⟩
  · intro x o _ hc har k hkk
    by_cases hx : x = a
    · subst hx
      rw [self] at hc
      cases hc
      cases har
    · rw [same x hx] at hc
      obtain ⟨ok, hok⟩ := I.closed x o hc k hkk
      rw [hold k ok hok]
      exact g.kidsOld x o trivial hc har k hkk
  · intro x o _ hc ho
    by_cases hx : x = a
    · subst hx
      rw [holda] at ho
      cases ho
    · rw [same x hx] at hc
      rw [hold x o hc] at ho
      exact g.prom x o trivial hc ho
  · intro x o hc k hkk
    by_cases hx : x = a
    · subst hx
      rw [self] at hc
      cases hc
      exact upE k (hk k hkk)
    · rw [same x hx] at hc
      exact upE k (I.closed x o hc k hkk)
  · intro r hr
    rw [hroots] at hr
    rcases List.mem_cons.1 hr with rfl | hr
    · exact ⟨_, self⟩
    · exact upE r (I.roots r hr)
  · rw [hq]; exact I.queue
  · rw [hag]; exact I.aging

/-- Allocation succeeds, yields a cell that held no object, and keeps the invariant. -/
theorem alloc_ok {h : Heap} (I : Inv h) {kids : List Addr} (data : Nat) (promotable : Bool)
    (hk : ∀ k ∈ kids, ∃ o, h.cells k = .obj o) :
    ∃ h1 a, h.alloc ⟨kids, data, promotable, 0, false, false⟩ = some (h1, a) ∧
      (∀ o, h.cells a ≠ .obj o) ∧
      h1.cells = Function.update h.cells a (.obj ⟨kids, data, promotable, 0, false, false⟩) ∧
      h1.roots = h.roots ∧ a.1 ≤ h1.head ∧ a.2 < DATA_LEN ∧
      Inv { h1 with roots := a :: h1.roots } := by
  obtain ⟨L, hL, hnd, hlen, hmem⟩ := I.chain
  unfold Heap.alloc
  cases hf : h.free with
  | some a =>
    rw [hf] at hL
    cases L with
    | nil => cases hL
    | cons b L =>
      obtain ⟨hab, n, hn, ht⟩ := hL
      cases hab
      simp only [hn]
      have hc0 : h.freeCount ≠ 0 := by rw [hlen]; simp
      rw [if_neg hc0]
      have hin := (hmem a).1 (by simp)
      have haL : a ∉ L := (List.nodup_cons.1 hnd).1
      refine ⟨_, a, rfl, hin.2, rfl, rfl, ?_, ?_, ?_⟩
      · rcases mem_inService.1 hin.1 with ⟨hp, _⟩ | ⟨hp, _⟩
        · exact I.bound a.1 (by simp [hp])
        · exact I.bound a.1 (by simp [hp])
      · exact (inService_onPage I.used hin.1).2
      · refine alloc_inv I (a := a) (kids := kids) (data := data) (promotable := promotable) hk rfl
          hin.2 I.nodup I.bound I.used ?_ ?_ (fun _ _ _ => rfl) ?_ (fun _ h1 h2 => ⟨h1, h2⟩)
          rfl rfl rfl rfl
        · intro x
          show x ∈ h.inService ↔ _
          constructor
          · exact Or.inl
          · rintro (h | rfl)
            · exact h
            · exact hin.1
        · refine ⟨L, ht.congr ?_, (List.nodup_cons.1 hnd).2, ?_, ?_⟩
          · intro x hx
            show Function.update h.cells a _ x = _
            rw [Function.update_of_ne]
            intro e; subst e; exact haL hx
          · show h.freeCount - 1 = _
            rw [hlen]; simp
          · intro x
            show x ∈ L ↔ x ∈ h.inService ∧ ∀ o, Function.update h.cells a _ x ≠ .obj o
            by_cases hx : x = a
            · subst hx
              constructor
              · intro h; exact absurd h haL
              · rintro ⟨_, h⟩
                exact absurd (Function.update_self _ _ _) (h _)
            · rw [Function.update_of_ne hx, ← hmem x]
              simp [hx]
        · cases ho : h.oldb a with
          | false => rfl
          | true =>
            obtain ⟨o, hoc⟩ := I.oldObj a (inService_onPage I.used hin.1) ho
            exact absurd hoc (hin.2 o)
  | none =>
    rw [hf] at hL
    have hL0 : L = [] := by
      cases L with
      | nil => rfl
      | cons b L => cases hL.1
    subst hL0
    have notIn : ∀ x : Addr, x ∉ h.inService → ∀ o, h.cells x ≠ .obj o :=
      fun x hx o ho => hx (I.objIn x o ho)
    simp only []
    by_cases hu : h.used = DATA_LEN
    · rw [if_pos hu]
      -- a new page `p`
      have page : ∀ (p : Nat) (fp : List Nat) (hd : Nat),
          (p :: (h.pages ++ [h.current] ++ fp)).Nodup →
          (∀ q ∈ p :: (h.pages ++ [h.current] ++ fp), q ≤ hd) →
          ∃ h1 a, some (({ h with
              used := 1, pages := h.pages ++ [h.current], current := p, freePages := fp, head := hd, free := none
              oldb := fun a => if a.1 = p then false else h.oldb a
              cells := Function.update h.cells (p, 0) (.obj ⟨kids, data, promotable, 0, false, false⟩) } : Heap),
              ((p, 0) : Addr)) = some (h1, a) ∧
            (∀ o, h.cells a ≠ .obj o) ∧
            h1.cells = Function.update h.cells a (.obj ⟨kids, data, promotable, 0, false, false⟩) ∧
            h1.roots = h.roots ∧ a.1 ≤ h1.head ∧ a.2 < DATA_LEN ∧
            Inv { h1 with roots := a :: h1.roots } := by
        intro p fp hd hnd' hb'
        have hpn : p ∉ h.pages ++ [h.current] := by
          intro hx
          exact (List.nodup_cons.1 hnd').1 (List.mem_append_left _ hx)
        have hpc : p ≠ h.current := by intro e; subst e; simp at hpn
        have hpp : p ∉ h.pages := by intro e; apply hpn; simp [e]
        have offp : ∀ x, x ∈ h.inService → x.1 ≠ p := by
          intro x hx e
          rcases mem_inService.1 hx with ⟨u, _⟩ | ⟨u, _⟩
          · rw [e] at u; exact hpp u
          · rw [e] at u; exact hpc u
        have hfree : ∀ o, h.cells (p, 0) ≠ .obj o := notIn _ (fun hx => offp _ hx rfl)
        have hserv : ∀ (h1 : Heap), h1.pages = h.pages ++ [h.current] → h1.current = p → h1.used = 1 →
            ∀ x, x ∈ h1.inService ↔ x ∈ h.inService ∨ x = (p, 0) := by
          intro h1 e1 e2 e3 x
          rw [mem_inService, mem_inService, e1, e2, e3, hu]
          obtain ⟨x1, x2⟩ := x
          simp only [List.mem_append, List.mem_singleton, Prod.mk.injEq]
          constructor
          · rintro (⟨h | h, hl⟩ | ⟨h, hl⟩)
            · exact Or.inl (Or.inl ⟨h, hl⟩)
            · exact Or.inl (Or.inr ⟨h, hl⟩)
            · exact Or.inr ⟨h, by omega⟩
          · rintro ((⟨h, hl⟩ | ⟨h, hl⟩) | ⟨h, hl⟩)
            · exact Or.inl ⟨Or.inl h, hl⟩
            · exact Or.inl ⟨Or.inr h, hl⟩
            · exact Or.inr ⟨h, by omega⟩
        refine ⟨_, (p, 0), rfl, hfree, rfl, rfl, hb' p (by simp), (show 0 < DATA_LEN by decide), ?_⟩
        refine alloc_inv I (a := (p, 0)) (kids := kids) (data := data) (promotable := promotable) hk
          rfl hfree hnd' hb' (show 1 ≤ DATA_LEN by decide) (hserv _ rfl rfl rfl) ?_ ?_ ?_ ?_ rfl rfl rfl rfl
        · refine ⟨[], rfl, List.nodup_nil, hlen, ?_⟩
          intro x
          rw [hserv _ rfl rfl rfl]
          show _ ↔ _ ∧ ∀ o, Function.update h.cells (p, 0) _ x ≠ .obj o
          constructor
          · intro h; cases h
          · rintro ⟨h, hc⟩
            exfalso
            by_cases hx : x = (p, 0)
            · subst hx
              exact hc _ (Function.update_self _ _ _)
            · rw [Function.update_of_ne hx] at hc
              rcases h with h | h
              · exact absurd ((hmem x).2 ⟨h, hc⟩) (by simp)
              · exact hx h
        · intro x o ho
          show (if x.1 = p then false else h.oldb x) = _
          rw [if_neg (offp x (I.objIn x o ho))]
        · show (if p = p then false else _) = _
          simp
        · intro x hon ho
          have ho' : (if x.1 = p then false else h.oldb x) = true := ho
          have hx : x.1 ≠ p := by
            intro e
            rw [if_pos e] at ho'
            cases ho'
          rw [if_neg hx] at ho'
          refine ⟨⟨?_, hon.2⟩, ho'⟩
          rcases hon.1 with h | h
          · exact absurd h hx
          · rcases List.mem_append.1 h with h | h
            · exact Or.inr h
            · exact Or.inl (List.mem_singleton.1 h)
      cases hfp : h.freePages with
      | cons p ps =>
        have perm : (p :: (h.pages ++ [h.current] ++ ps)).Perm
            (h.current :: (h.pages ++ h.freePages)) := by
          rw [hfp]
          have e1 : (h.current :: (h.pages ++ p :: ps)).Perm (h.current :: p :: (h.pages ++ ps)) :=
            List.Perm.cons _ List.perm_middle
          have e2 : (h.pages ++ [h.current] ++ ps).Perm (h.current :: (h.pages ++ ps)) := by
            rw [List.append_assoc]
            exact List.perm_middle
          exact ((List.Perm.cons p e2).trans (List.Perm.swap _ _ _)).trans e1.symm
        exact page p ps h.head (perm.nodup_iff.2 I.nodup) (fun q hq => I.bound q (perm.mem_iff.1 hq))
      | nil =>
        have nd := I.nodup
        have bd := I.bound
        rw [hfp, List.append_nil] at nd bd
        exact page h.newPage [] h.newPage (by
          rw [List.append_nil, List.nodup_cons]
          constructor
          · intro hx
            have : h.newPage ≤ h.head := bd _ (by
              rcases List.mem_append.1 hx with h | h
              · simp [h]
              · simp only [List.mem_singleton] at h
                simp [h])
            unfold Heap.newPage at this
            omega
          · exact (List.perm_append_singleton _ _).nodup_iff.2 nd) (by
          intro q hq
          unfold Heap.newPage at *
          rw [List.append_nil] at hq
          rcases List.mem_cons.1 hq with rfl | hq
          · exact Nat.le_refl _
          · have : q ≤ h.head := bd _ (by
              rcases List.mem_append.1 hq with h | h
              · simp [h]
              · simp only [List.mem_singleton] at h
                simp [h])
            omega)
    · rw [if_neg hu]
      have hlt : h.used < DATA_LEN := by have := I.used; omega
      have hcp : h.current ∉ h.pages := fun hx =>
        (List.nodup_cons.1 I.nodup).1 (List.mem_append_left _ hx)
      have hnin : (h.current, h.used) ∉ h.inService := by
        intro hx
        rcases mem_inService.1 hx with ⟨u, _⟩ | ⟨_, u⟩
        · exact hcp u
        · simp only at u; omega
      have hfree := notIn _ hnin
      have hserv : ∀ (h1 : Heap), h1.pages = h.pages → h1.current = h.current → h1.used = h.used + 1 →
          ∀ x, x ∈ h1.inService ↔ x ∈ h.inService ∨ x = (h.current, h.used) := by
        intro h1 e1 e2 e3 x
        rw [mem_inService, mem_inService, e1, e2, e3]
        obtain ⟨x1, x2⟩ := x
        simp only [Prod.mk.injEq]
        constructor
        · rintro (⟨h, hl⟩ | ⟨h, hl⟩)
          · exact Or.inl (Or.inl ⟨h, hl⟩)
          · by_cases hx : x2 < h1.used - 1
            · exact Or.inl (Or.inr ⟨h, by omega⟩)
            · exact Or.inr ⟨h, by omega⟩
        · rintro ((⟨h, hl⟩ | ⟨h, hl⟩) | ⟨h, hl⟩)
          · exact Or.inl ⟨h, hl⟩
          · exact Or.inr ⟨h, by omega⟩
          · exact Or.inr ⟨h, by omega⟩
      refine ⟨_, (h.current, h.used), rfl, hfree, rfl, rfl, I.bound _ (by simp), hlt, ?_⟩
      refine alloc_inv I (a := (h.current, h.used)) (kids := kids) (data := data)
        (promotable := promotable) hk rfl hfree I.nodup I.bound hlt (hserv _ rfl rfl rfl) ?_
        (fun _ _ _ => rfl) ?_ (fun _ h1 h2 => ⟨h1, h2⟩) rfl rfl rfl rfl
      · refine ⟨[], rfl, List.nodup_nil, hlen, ?_⟩
        intro x
        constructor
        · intro h; cases h
        · rintro ⟨hs, hc⟩
          exfalso
          have aux : ∀ h1 : Heap, x ∈ h1.inService → h1.pages = h.pages → h1.current = h.current →
              h1.used = h.used + 1 → x ∈ h.inService ∨ x = (h.current, h.used) :=
            fun h1 hx e1 e2 e3 => (hserv h1 e1 e2 e3 x).1 hx
          have hs := aux _ hs rfl rfl rfl
          replace hc : ∀ o, Function.update h.cells (h.current, h.used)
            (.obj ⟨kids, data, promotable, 0, false, false⟩) x ≠ .obj o := hc
          by_cases hx : x = (h.current, h.used)
          · subst hx
            exact hc _ (Function.update_self _ _ _)
          · rw [Function.update_of_ne hx] at hc
            rcases hs with h | h
            · exact absurd ((hmem x).2 ⟨h, hc⟩) (by simp)
            · exact hx h
      · cases ho : h.oldb (h.current, h.used) with
        | false => rfl
        | true =>
          obtain ⟨o, hoc⟩ := I.oldObj (h.current, h.used) ⟨Or.inl rfl, hlt⟩ ho
          exact absurd hoc (hfree o)

/-- storing into an object -/
theorem write_inv {h : Heap} (I : Inv h) {a : Addr} {o : Obj} (ho : h.cells a = .obj o)
    {kids : List Addr} (data : Nat) (hk : ∀ k ∈ kids, ∃ o, h.cells k = .obj o)
    (hy : o.armed = true → ∀ k ∈ kids, h.oldb k = true) : Inv (h.write a kids data) := by
  have e : h.write a kids data =
      { h with cells := Function.update h.cells a (.obj { o with kids := kids, data := data }) } := by
    unfold Heap.write; rw [ho]
  rw [e]
  have back : ∀ x ox, Function.update h.cells a (.obj { o with kids := kids, data := data }) x = .obj ox →
      ∃ oy, h.cells x = .obj oy ∧ ox.armed = oy.armed ∧ ox.promotable = oy.promotable ∧
        (x ≠ a → ox = oy) ∧ (x = a → ox = { o with kids := kids, data := data }) := by
    intro x ox hx
    by_cases hxa : x = a
    · subst hxa
      rw [Function.update_self] at hx
      cases hx
      exact ⟨o, ho, rfl, rfl, fun hh => absurd rfl hh, fun _ => rfl⟩
    · rw [Function.update_of_ne hxa] at hx
      exact ⟨ox, hx, rfl, rfl, fun _ => rfl, fun hh => absurd hh hxa⟩
  have up : ∀ x, (∃ o, h.cells x = .obj o) →
      ∃ oy, Function.update h.cells a (.obj { o with kids := kids, data := data }) x = .obj oy := by
    rintro x ⟨ox, hx⟩
    by_cases hxa : x = a
    · subst hxa; exact ⟨_, Function.update_self _ _ _⟩
    · exact ⟨ox, by rw [Function.update_of_ne hxa]; exact hx⟩
  have g := I.gen
  refine ⟨I.nodup, I.bound, I.used, ?_, ?_, ?_, ⟨?_, ?_, ?_, ?_, ?_⟩, ?_, ?_, I.queue, I.aging⟩
  · intro x ox hx
    obtain ⟨oy, hy', _⟩ := back x ox hx
    exact I.objIn x oy hy'
  · obtain ⟨L, hL, hnd, hlen, hmem⟩ := I.chain
    refine ⟨L, hL.congr ?_, hnd, hlen, ?_⟩
    · intro x hx
      have : x ≠ a := by
        intro e
        subst e
        exact ((hmem x).1 hx).2 o ho
      show Function.update h.cells a _ x = _
      rw [Function.update_of_ne this]
    · intro x
      rw [hmem x]
      show _ ↔ x ∈ h.inService ∧ ∀ ob, Function.update h.cells a _ x ≠ .obj ob
      constructor
      · rintro ⟨h1, h2⟩
        refine ⟨h1, ?_⟩
        intro ob hob
        obtain ⟨oy, hy', _⟩ := back x ob hob
        exact h2 oy hy'
      · rintro ⟨h1, h2⟩
        refine ⟨h1, ?_⟩
        intro ob hob
        obtain ⟨oy, hy'⟩ := up x ⟨ob, hob⟩
        exact h2 oy hy'
  · intro x hon hold
    exact up x (I.oldObj x hon hold)
  · intro x ox _ hx har
    obtain ⟨oy, hy', e1, _⟩ := back x ox hx
    exact g.armedOld x oy trivial hy' (by rw [← e1]; exact har)
  · intro x ox _ hx hold har
    obtain ⟨oy, hy', e1, _⟩ := back x ox hx
    exact g.rem x oy trivial hy' hold (by rw [← e1]; exact har)
  · intro x hx
    obtain ⟨u, v, w⟩ := g.remObj x hx
    exact ⟨u, up x v, w⟩
  · intro x ox _ hx har k hkk
    obtain ⟨oy, hy', e1, _, e2, e3⟩ := back x ox hx
    by_cases hxa : x = a
    · subst hxa
      rw [e3 rfl] at hkk har
      exact hy har k hkk
    · rw [e2 hxa] at hkk har
      exact g.kidsOld x oy trivial hy' har k hkk
  · intro x ox _ hx hold
    obtain ⟨oy, hy', _, e1, _⟩ := back x ox hx
    rw [e1]
    exact g.prom x oy trivial hy' hold
  · intro x ox hx k hkk
    obtain ⟨oy, hy', _, _, e2, e3⟩ := back x ox hx
    apply up k
    by_cases hxa : x = a
    · rw [e3 hxa] at hkk
      exact hk k hkk
    · rw [e2 hxa] at hkk
      exact I.closed x oy hy' k hkk
  · intro r hr
    exact up r (I.roots r hr)

/-- entering an old object into the remembered set -/
theorem enter_inv {h : Heap} (I : Inv h) {a : Addr} {o : Obj} (ho : h.cells a = .obj o)
    (hold : h.oldb a = true) : Inv (h.enterRemembered a o) := by
  have sim : SimL (fun _ => True) h.cells (h.enterRemembered a o).cells := .update ho ⟨rfl, rfl, rfl⟩
  have up : ∀ x, (∃ o, h.cells x = .obj o) → ∃ o', (h.enterRemembered a o).cells x = .obj o' := by
    rintro x ⟨ox, hx⟩
    obtain ⟨o', e, _⟩ := sim.fwd x ox trivial hx
    exact ⟨o', e⟩
  refine ⟨I.nodup, I.bound, I.used, ?_, ?_, ?_, ?_, ?_, ?_, I.queue, I.aging⟩
  · intro x ox hx
    obtain ⟨oy, hy, _⟩ := sim.bwd x ox hx
    exact I.objIn x oy hy
  · obtain ⟨L, hL, hnd, hlen, hmem⟩ := I.chain
    refine ⟨L, hL.congr ?_, hnd, hlen, ?_⟩
    · intro x hx
      have : x ≠ a := by
        intro e
        subst e
        exact ((hmem x).1 hx).2 o ho
      show Function.update h.cells a _ x = _
      rw [Function.update_of_ne this]
    · intro x
      rw [hmem x]
      show _ ↔ x ∈ h.inService ∧ _
      constructor
      · rintro ⟨h1, h2⟩
        refine ⟨h1, ?_⟩
        intro ob hob
        obtain ⟨oy, hy, _⟩ := sim.bwd x ob hob
        exact h2 oy hy
      · rintro ⟨h1, h2⟩
        refine ⟨h1, ?_⟩
        intro ob hob
        obtain ⟨oy, hy⟩ := up x ⟨ob, hob⟩
        exact h2 oy hy
  · intro x hon hx
    exact up x (I.oldObj x hon hx)
  · exact I.gen.enter trivial ho hold (fun _ h _ => h) (fun _ h => by cases h)
  · intro x ox hx k hk
    obtain ⟨oy, hy, hs⟩ := sim.bwd x ox hx
    rw [hs.1] at hk
    exact up k (I.closed x oy hy k hk)
  · intro r hr
    exact up r (I.roots r hr)

/-- a store with a barrier that fires -/
theorem write_enter {h : Heap} {a : Addr} {o : Obj} (ho : h.cells a = .obj o) (kids : List Addr)
    (data : Nat) :
    (h.write a kids data).enterRemembered a { o with kids := kids, data := data } =
      (h.enterRemembered a o).write a kids data := by
  unfold Heap.write Heap.enterRemembered
  simp [ho]

end Verif.Gc
