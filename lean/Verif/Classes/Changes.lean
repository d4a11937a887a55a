/-
What `include` and `prepend` do to the ancestors.
-/
import Verif.Classes.Super

namespace Verif.Classes

theorem Heap.mem_self {st : St} (w : Heap st) {m : Nat} (hm : m < st.classes.length) :
    m ∈ ancestors st m := by
  rw [w.mem_seg hm]
  refine ⟨st.obj m, ?_, w.obj_cid m hm⟩
  unfold St.seg
  split
  · obtain ⟨t, ht⟩ := (w.chain (w.obj_lt m hm)).head
    rw [ht]; simp
  · simp

theorem Heap.ancestors_lt {st : St} (w : Heap st) {m a : Nat} (hm : m < st.classes.length)
    (h : a ∈ ancestors st m) : a < st.classes.length := by
  rw [w.mem_seg hm] at h
  obtain ⟨x, hx, rfl⟩ := h
  exact w.cid_lt x (w.seg_lt (w.obj_lt m hm) hx)

theorem obj_makeOrigin (st : St) (self x : Nat) : (makeOrigin st self).obj x = st.obj x := by
  unfold St.obj; rw [(makeOrigin_rest st self).1]

theorem include_eq {st : St} (w : Heap st) {c m : Nat} (hc : c < st.classes.length)
    (hm : m < st.classes.length) (hk : (st.node (st.obj m)).kind = .mod)
    (hcy : c ∉ ancestors st m) :
    includeModule st c m = mixList (st.obj c) false (bump st) (st.obj c) (ancestors st m) := by
  refine includeOrPrepend_eq w (w.obj_lt c hc) (w.obj_kind c hc) hm hk ?_
  cases h : checkCyclic st (st.obj c) (st.obj m) with
  | false => rfl
  | true => exact absurd ((w.checkCyclic_iff hc hm hk).1 h) hcy

/-- New cells directly behind the receiver come right behind it among its ancestors. -/
theorem ancestors_front {a b : St} (g : Grow a b) (w : Heap a) {c : Nat}
    (hc : c < a.classes.length) {t news : List Nat}
    (hp : Path a (a.obj c) (a.obj c :: t)) (hp' : Path b (a.obj c) (a.obj c :: (news ++ t)))
    (hn : ∀ x ∈ news, b.isIclass x = true ∧ a.nodes.length ≤ x) :
    ∃ h t', Classes.ancestors a c = h ++ t' ∧ Classes.ancestors b c = h ++ (news.map b.cid ++ t') ∧
      h = (if a.hasOrigin (a.obj c) then [] else [c]) := by
  have hl := w.obj_lt c hc
  have wb := g.heap w
  have hcid := w.obj_cid c hc
  have hnode := g.node _ hl
  have hcb : c < b.classes.length := by rw [g.classes]; exact hc
  have hho : b.hasOrigin (a.obj c) = a.hasOrigin (a.obj c) := by
    unfold St.hasOrigin; rw [hnode.2.2.1]
  have hbc : b.cid (a.obj c) = c := by unfold St.cid at hcid ⊢; rw [hnode.1]; exact hcid
  have htl : ∀ x ∈ t, x < a.nodes.length := fun x hx => hp.lt x (by simp [hx])
  have hvn : view b news = news.map b.cid := by
    unfold view
    rw [List.filter_eq_self.2]
    intro x hx
    have := hn x hx
    have hxb : x < b.nodes.length := hp'.lt x (by simp [hx])
    have hk : (b.node x).kind = .icls := by simpa [St.isIclass] using this.1
    rw [wb.iclass_no_origin hxb hk]; rfl
  rw [w.ancestors_eq hc, wb.ancestors_eq hcb, g.obj]
  unfold St.seg
  rw [hnode.2.1, hp.chain, hp'.chain]
  by_cases hk : (a.node (a.obj c)).kind = .cls
  · rw [if_pos hk, if_pos hk]
    refine ⟨_, view a t, ?_, ?_, rfl⟩
    · rw [view_cons, hcid]; split <;> rfl
    · rw [view_cons, view_append, hvn, g.view htl, hho, hbc]; split <;> rfl
  · rw [if_neg hk, if_neg hk, List.tail_cons, List.tail_cons]
    have hcut : (news ++ t).takeWhile (fun s => (b.node s).kind != .cls) =
        news ++ t.takeWhile (fun s => (a.node s).kind != .cls) := by
      rw [List.takeWhile_append_of_pos]
      · congr 1
        clear hp hp'
        induction t with
        | nil => rfl
        | cons x t ih =>
          rw [List.takeWhile_cons, List.takeWhile_cons, (g.node x (htl x (by simp))).2.1,
            ih (fun y hy => htl y (by simp [hy]))]
      · intro x hx
        have hk : (b.node x).kind = .icls := by simpa [St.isIclass] using (hn x hx).1
        rw [hk]; rfl
    rw [hcut]
    have htw : ∀ x ∈ t.takeWhile (fun s => (a.node s).kind != .cls), x < a.nodes.length :=
      fun x hx => htl x ((List.takeWhile_sublist _).subset hx)
    refine ⟨_, view a (t.takeWhile fun s => (a.node s).kind != .cls), ?_, ?_, rfl⟩
    · rw [view_cons, hcid]; split <;> rfl
    · rw [view_cons, view_append, hvn, g.view htw, hho, hbc]; split <;> rfl

/-- A class whose chain stays the same keeps its ancestors. -/
theorem ancestors_same {a b : St} (g : Grow a b) (w : Heap a) {d : Nat}
    (hd : d < a.classes.length) (hk : (a.node (a.obj d)).kind = .cls)
    (h : ∀ l, Path a (a.obj d) l → Path b (a.obj d) l) :
    Classes.ancestors b d = Classes.ancestors a d := by
  have hl := w.obj_lt d hd
  have hp := w.chain hl
  have wb := g.heap w
  rw [w.ancestors_class hd hk, wb.ancestors_class (by rw [g.classes]; exact hd)
    (by rw [g.obj, (g.node _ hl).2.1]; exact hk), g.obj, (h _ hp).chain, g.view hp.lt]

/-- The receiver is on no chain of a class it is not an ancestor of. -/
theorem Heap.obj_not_mem {st : St} (w : Heap st) {c d : Nat} (hc : c < st.classes.length)
    (hd : d < st.classes.length) (hk : (st.node (st.obj d)).kind = .cls)
    (h : c ∉ ancestors st d) {l : List Nat} (hp : Path st (st.obj d) l) : st.obj c ∉ l := by
  intro hm
  apply h
  rw [w.ancestors_class hd hk, hp.chain, ← w.mem_view_path hp]
  exact ⟨st.obj c, hm, w.obj_cid c hc⟩

/-- `include` of modules new to the receiver. -/
theorem include_fresh {st : St} (w : Heap st) {c m : Nat} (hc : c < st.classes.length)
    (hm : m < st.classes.length) (hk : (st.node (st.obj m)).kind = .mod)
    (hcy : c ∉ ancestors st m) (hnd : (ancestors st m).Nodup)
    (hfresh : ∀ a ∈ ancestors st m, ∀ x ∈ (st.chain (st.obj c)).tail, st.cid x ≠ a) :
    ∃ st', includeModule st c m = .ok st' ∧ Grow (bump st) st' ∧
      (∃ h t, ancestors st c = h ++ t ∧ ancestors st' c = h ++ (ancestors st m ++ t) ∧
        h = (if st.hasOrigin (st.obj c) then [] else [c])) ∧
      (∀ d, d < st.classes.length → (st.node (st.obj d)).kind = .cls → c ∉ ancestors st d →
        ancestors st' d = ancestors st d) := by
  have wb := w.bump
  have hl := w.obj_lt c hc
  obtain ⟨z, hz⟩ := wb.zone_include hl
  have hpb : Path (bump st) (st.obj c) (st.obj c :: z) := by
    have := hz.path; rwa [List.append_nil] at this
  have hp : Path st (st.obj c) (st.obj c :: z) := hpb.congr (st := bump st) (st' := st) rfl
  rw [hp.chain, List.tail_cons] at hfresh
  obtain ⟨st', news, hok, g, ⟨z', hz', hzn'⟩, hmap, hicl, hother⟩ :=
    mixList_fresh (ancestors st m) (base := st.obj c) (pre := []) (post := z) wb hz rfl
      (fun a ha => w.ancestors_lt hm ha) hnd hfresh
  refine ⟨st', by rw [include_eq w hc hm hk hcy]; exact hok, g, ?_, ?_⟩
  · have hp' : Path st' (st.obj c) (st.obj c :: (news ++ z)) := by
      have := hzn'.path
      rw [List.append_nil, hz'] at this
      simpa using this
    obtain ⟨h, t, h1, h2, h3⟩ := ancestors_front g wb (c := c) hc hpb hp' hicl
    rw [ancestors_bump] at h1
    rw [hmap] at h2
    exact ⟨h, t, h1, h2, h3⟩
  · intro d hd hkd hcd
    rw [← ancestors_bump st d]
    refine ancestors_same g wb hd hkd (fun l hl => hother _ l hl ?_)
    exact w.obj_not_mem hc hd hkd hcd (hl.congr (st := bump st) (st' := st) rfl)

/-! ### prepend -/

theorem prepend_eq {st : St} (w : Heap st) {c m : Nat} (hc : c < st.classes.length)
    (hm : m < st.classes.length) (hk : (st.node (st.obj m)).kind = .mod)
    (hcy : c ∉ ancestors st m) :
    prependModule st c m =
      match mixList (st.obj c) true (bump (makeOrigin st (st.obj c))) (st.obj c)
        (ancestors st m) with
      | .ok st' => .ok (propagatePrepend st' c m)
      | r => r := by
  have hl := w.obj_lt c hc
  have hko := w.obj_kind c hc
  have w0 := w.makeOrigin hl hko
  have hcls := (makeOrigin_rest st (st.obj c)).1
  have hobj : ∀ x, (makeOrigin st (st.obj c)).obj x = st.obj x := by
    intro x; exact obj_makeOrigin _ _ x
  have hc0 : c < (makeOrigin st (st.obj c)).classes.length := by rw [hcls]; exact hc
  have hm0 : m < (makeOrigin st (st.obj c)).classes.length := by rw [hcls]; exact hm
  have hk0 : ((makeOrigin st (st.obj c)).node ((makeOrigin st (st.obj c)).obj m)).kind = .mod := by
    rw [hobj, makeOrigin_kind hl (w.obj_lt m hm)]; exact hk
  have hcyc : checkCyclic (makeOrigin st (st.obj c)) ((makeOrigin st (st.obj c)).obj c)
      ((makeOrigin st (st.obj c)).obj m) = false := by
    cases h : checkCyclic (makeOrigin st (st.obj c)) ((makeOrigin st (st.obj c)).obj c)
      ((makeOrigin st (st.obj c)).obj m) with
    | false => rfl
    | true =>
      have := (w0.checkCyclic_iff hc0 hm0 hk0).1 h
      rw [ancestors_makeOrigin w hl hko hm] at this
      exact absurd this hcy
  have := includeOrPrepend_eq (fp := true) w0 (w0.obj_lt c hc0) (w0.obj_kind c hc0) hm0 hk0 hcyc
  rw [ancestors_makeOrigin w hl hko hm, hobj, hobj] at this
  unfold prependModule prependObj
  rw [this]
  cases mixList (st.obj c) true (bump (makeOrigin st (st.obj c))) (st.obj c) (ancestors st m) <;> rfl

theorem prepend_cyclic {st : St} (w : Heap st) {c m : Nat} (hc : c < st.classes.length)
    (hm : m < st.classes.length) (hk : (st.node (st.obj m)).kind = .mod)
    (hcy : c ∈ ancestors st m) :
    prependModule st c m = .cyclic (makeOrigin st (st.obj c)) := by
  have hl := w.obj_lt c hc
  have hko := w.obj_kind c hc
  have w0 := w.makeOrigin hl hko
  have hcls := (makeOrigin_rest st (st.obj c)).1
  have hobj : ∀ x, (makeOrigin st (st.obj c)).obj x = st.obj x := by
    intro x; exact obj_makeOrigin _ _ x
  have := (w0.checkCyclic_iff (c := c) (m := m) (by rw [hcls]; exact hc) (by rw [hcls]; exact hm)
    (by rw [hobj, makeOrigin_kind hl (w.obj_lt m hm)]; exact hk)).2
    (by rw [ancestors_makeOrigin w hl hko hm]; exact hcy)
  rw [hobj, hobj] at this
  unfold prependModule prependObj includeOrPrepend
  rw [this]
  rfl

theorem split_once {α : Type} {x : α} : ∀ {p q p' q' : List α}, x ∉ p → x ∉ q →
    p ++ x :: q = p' ++ x :: q' → p = p' ∧ q = q'
  | [], q, [], q', _, _, h => by simp at h; exact ⟨rfl, h⟩
  | [], q, y :: p', q', _, hq, h => by
    simp at h
    obtain ⟨rfl, rfl⟩ := h
    simp at hq
  | y :: p, q, [], q', hp, _, h => by
    simp at h
    exact absurd h.1.symm (by intro e; exact hp (by simp [e]))
  | y :: p, q, y' :: p', q', hp, hq, h => by
    simp at h
    obtain ⟨rfl, h⟩ := h
    obtain ⟨rfl, rfl⟩ := split_once (fun hx => hp (by simp [hx])) hq h
    exact ⟨rfl, rfl⟩

/-- The cells in front of the origin show up in front of the class. -/
theorem Heap.ancestors_origin {st : St} (w : Heap st) {c o : Nat} (hc : c < st.classes.length)
    {z rest : List Nat} (hp : Path st (st.obj c) (st.obj c :: (z ++ o :: rest)))
    (ho : (st.node (st.obj c)).origin = some o) (hz : ∀ x ∈ z, st.isIclass x = true) :
    ∃ tl, ancestors st c = z.map st.cid ++ c :: tl := by
  have hl := w.obj_lt c hc
  obtain ⟨_, _, h3, h4, _⟩ := w.origin _ _ hl ho
  have hol : o < st.nodes.length := hp.lt o (by simp)
  have hoc : st.cid o = c := by rw [h4]; exact w.obj_cid c hc
  have hoo := w.iclass_no_origin hol h3
  have hho : st.hasOrigin (st.obj c) = true := by unfold St.hasOrigin; rw [ho]; rfl
  have hvz : view st z = z.map st.cid := by
    unfold view
    rw [List.filter_eq_self.2]
    intro x hx
    have hk : (st.node x).kind = .icls := by simpa [St.isIclass] using hz x hx
    rw [w.iclass_no_origin (hp.lt x (by simp [hx])) hk]; rfl
  rw [w.ancestors_eq hc]
  unfold St.seg
  rw [hp.chain]
  split
  · refine ⟨view st rest, ?_⟩
    rw [view_cons, view_append, view_cons, hho, hoo, hoc, hvz]
    rfl
  · rw [List.tail_cons, List.takeWhile_append_of_pos, List.takeWhile_cons, if_pos (by rw [h3]; rfl)]
    · refine ⟨view st (rest.takeWhile fun s => (st.node s).kind != .cls), ?_⟩
      rw [view_cons, view_append, view_cons, hho, hoo, hoc, hvz]
      rfl
    · intro x hx
      have hk : (st.node x).kind = .icls := by simpa [St.isIclass] using hz x hx
      rw [hk]; rfl

theorem candidates_spec {st : St} (w : Heap st) {c r : Nat} (hc : c < st.classes.length)
    (h : r ∈ candidates st c) :
    r < st.nodes.length ∧ r ≠ st.obj c ∧ (st.node r).kind ≠ .icls := by
  refine ⟨candidates_lt w h, ?_, ?_⟩
  · rintro rfl
    simp only [candidates, List.mem_filter] at h
    have := h.2
    rw [w.obj_cid c hc] at this
    simp at this
  · simp only [candidates, List.mem_filter] at h
    have := h.2
    intro hk
    simp [St.isIclass, hk] at this

/-- A chain without the receiver is not touched by the propagation. -/
theorem propagateOne_other {st : St} (w : Heap st) {a b cand d : Nat} {l : List Nat}
    (hcand : cand < st.nodes.length) (hp : Path st d l) (hno : ∀ x ∈ l, st.cid x ≠ a) :
    Path (propagateOne a b st cand) d l ∧ ∀ x ∈ l, (propagateOne a b st cand).cid x ≠ a := by
  unfold propagateOne
  split
  swap
  · exact ⟨hp, hno⟩
  rename_i p hfs
  have hpc := w.chain hcand
  obtain ⟨t, ht⟩ := hpc.head
  rw [ht, List.tail_cons] at hfs
  rw [ht] at hpc
  obtain ⟨_, l1, i, l2, rfl, hii, hia, ⟨f, hf⟩, _, _⟩ := findSplice_spec hfs
  have hsupp : st.sup p = some i := by
    have : cand :: (l1 ++ i :: l2) = f ++ p :: i :: l2 := by
      rw [← List.cons_append, hf]; simp
    rw [this] at hpc
    exact hpc.sup_split
  have hpl : p ∉ l := by
    intro hpl
    obtain ⟨pre, post, hl, hq⟩ := hp.drop p hpl
    cases hq with
    | last _ h => rw [hsupp] at h; cases h
    | cons _ h hq' =>
      rw [hsupp] at h; cases h
      obtain ⟨t', rfl⟩ := hq'.head
      exact hno i (by rw [hl]; simp) hia
  have := hp.insert p b
  rw [ins_of_not_mem _ hpl] at this
  exact ⟨this, fun x hx => by rw [cid_insert (hp.lt x hx)]; exact hno x hx⟩

theorem foldl_other {a b d : Nat} {l : List Nat} : ∀ (cs : List Nat) {st : St}, Heap st →
    (∀ c ∈ cs, c < st.nodes.length) → b < st.classes.length → Path st d l →
    (∀ x ∈ l, st.cid x ≠ a) → Path (cs.foldl (propagateOne a b) st) d l
  | [], st, _, _, _, hp, _ => hp
  | c :: cs, st, w, hcs, hb, hp, hno => by
    have g := propagateOne_grow (a := a) (b := b) w (hcs c (by simp)) hb
    obtain ⟨h1, h2⟩ := propagateOne_other (b := b) w (hcs c (by simp)) hp hno
    rw [List.foldl_cons]
    exact foldl_other cs (g.heap w)
      (fun x hx => Nat.lt_of_lt_of_le (hcs x (by simp [hx])) g.le) (by rw [g.classes]; exact hb)
      h1 h2

/-- `prepend` of modules new to the receiver's prepended part. -/
theorem prepend_fresh {st : St} (w : Heap st) {c m : Nat} (hc : c < st.classes.length)
    (hm : m < st.classes.length) (hk : (st.node (st.obj m)).kind = .mod)
    (hcy : c ∉ ancestors st m) (hnd : (ancestors st m).Nodup) {pre post : List Nat}
    (hanc : ancestors st c = pre ++ c :: post) (hpre : c ∉ pre) (hpost : c ∉ post)
    (hfresh : ∀ a ∈ ancestors st m, a ∉ pre) :
    ∃ st', prependModule st c m = .ok st' ∧
      ancestors st' c = ancestors st m ++ ancestors st c ∧
      (∀ d, d < st.classes.length → (st.node (st.obj d)).kind = .cls → c ∉ ancestors st d →
        ancestors st' d = ancestors st d) := by
  have hl := w.obj_lt c hc
  have hko := w.obj_kind c hc
  have w0 := w.makeOrigin hl hko
  have hcls := (makeOrigin_rest st (st.obj c)).1
  have hanc0 := fun d (hd : d < st.classes.length) => ancestors_makeOrigin w hl hko hd
  have hho := hasOrigin_makeOrigin_self w hl
  have hobj0 : ∀ x, (makeOrigin st (st.obj c)).obj x = st.obj x := by
    intro x; exact obj_makeOrigin _ _ x
  have hkind0 : ∀ x, x < st.nodes.length →
      ((makeOrigin st (st.obj c)).node x).kind = (st.node x).kind := fun x hx =>
    makeOrigin_kind hl hx
  have hle0 := makeOrigin_nodes (st := st) (self := st.obj c)
  rw [prepend_eq w hc hm hk hcy]
  generalize makeOrigin st (st.obj c) = st0 at w0 hcls hanc0 hho hobj0 hkind0 hle0 ⊢
  have wb := w0.bump
  have hl0 : st.obj c < (bump st0).nodes.length := Nat.lt_of_lt_of_le hl hle0
  obtain ⟨z, rest, hz, hzi⟩ := wb.zone_prepend hl0 hho
  have hstop := hz.stop
  simp only [if_true] at hstop
  have hrest : ∃ o rest', rest = o :: rest' ∧ ((bump st0).node (st.obj c)).origin = some o := by
    obtain ⟨o, ho⟩ := Option.isSome_iff_exists.1 hho
    have ho' : ((bump st0).node (st.obj c)).origin = some o := ho
    rw [ho'] at hstop
    cases rest with
    | nil => simp at hstop
    | cons r rest' =>
      simp at hstop
      exact ⟨r, rest', rfl, by rw [ho', hstop]⟩
  obtain ⟨o, rest', rfl, ho⟩ := hrest
  have hpb := hz.path
  have hcb : c < (bump st0).classes.length := by show c < st0.classes.length; rw [hcls]; exact hc
  have hobjb : (bump st0).obj c = st.obj c := hobj0 c
  obtain ⟨tl, htl⟩ := wb.ancestors_origin (o := o) hcb (z := z) (rest := rest')
    (by rw [hobjb]; exact hpb) (by rw [hobjb]; exact ho) hzi
  rw [ancestors_bump, hanc0 c hc, hanc] at htl
  obtain ⟨hprez, _⟩ := split_once hpre hpost htl
  have hfz : ∀ a ∈ ancestors st m, ∀ x ∈ z, (bump st0).cid x ≠ a := by
    intro a ha x hx he
    apply hfresh a ha
    rw [hprez]
    exact List.mem_map.2 ⟨x, hx, he⟩
  obtain ⟨st1, news, hok, g, ⟨z', hz', hzn'⟩, hmap, hicl, hother⟩ :=
    mixList_fresh (ancestors st m) (base := st.obj c) (pre := []) (post := z) wb hz rfl
      (fun a ha => by show a < st0.classes.length; rw [hcls]; exact w.ancestors_lt hm ha) hnd hfz
  simp only [List.nil_append, List.cons.injEq, true_and] at hz'
  subst hz'
  rw [hok]
  dsimp only
  refine ⟨_, rfl, ?_⟩
  have w1 := g.heap wb
  have hobj1 : ∀ x, st1.obj x = st.obj x := fun x => by rw [g.obj]; exact hobj0 x
  have hc1 : c < st1.classes.length := by rw [g.classes]; exact hcb
  have hm1 : m < st1.classes.length := by
    rw [g.classes]; show m < st0.classes.length; rw [hcls]; exact hm
  have hp1 := hzn'.path
  -- the ancestors after the insertions
  obtain ⟨h, t', e1, e2, e3⟩ := ancestors_front g wb (c := c) hcb (t := z ++ o :: rest')
    (news := news) (by rw [hobjb]; exact hpb) (by rw [hobjb]; simpa using hp1) hicl
  rw [hobjb] at e3
  have hho' : (bump st0).hasOrigin (st.obj c) = true := hho
  rw [hho'] at e3
  simp only [if_true] at e3
  subst e3
  rw [ancestors_bump, hanc0 c hc] at e1
  simp only [List.nil_append] at e1 e2
  rw [hmap, ← e1] at e2
  -- the propagation leaves them alone
  have hl1 : st.obj c < st1.nodes.length := Nat.lt_of_lt_of_le hl0 g.le
  have ho1 : (st1.node (st.obj c)).origin = some o := by rw [(g.node _ hl0).2.2.1]; exact ho
  obtain ⟨hk1, hone, hok1, hoc1, _⟩ := w1.origin _ _ hl1 ho1
  have hoc1' : st1.cid o = c := by
    rw [hoc1]
    have := w1.obj_cid c hc1
    rw [hobj1] at this
    exact this
  have hselfseg : st.obj c ∈ st1.seg (st.obj c) := by
    unfold St.seg
    split
    · rw [hp1.chain]; simp
    · simp
  have hoS := w1.origin_mem_seg hl1 hselfseg hl1 ho1
  have hzi1 : ∀ x ∈ news ++ z, st1.isIclass x = true := by
    intro x hx
    rcases List.mem_append.1 hx with hx | hx
    · exact (hicl x hx).1
    · have := (g.node x (hpb.lt x (by simp [hx]))).2.1
      unfold St.isIclass
      rw [this]
      exact hzi x hx
  have hsettled : Settled st1 (st.obj c) c m (st1.seg (st.obj c)) (news ++ z) o := by
    refine ⟨w1, rfl, ⟨_, hp1.run, ?_⟩, ⟨rest', hp1⟩, hk1, ?_, ?_⟩
    · refine List.mem_cons_of_mem _ ?_
      rw [List.tail_cons, List.takeWhile_append_of_pos hzi1, List.takeWhile_cons,
        if_pos (by simp [St.isIclass, hok1])]
      simp
    · have : m ∈ news.map st1.cid := by rw [hmap]; exact w.mem_self hm
      obtain ⟨y, hy, he⟩ := List.mem_map.1 this
      exact ⟨y, by simp [hy], (hicl y hy).1, he⟩
    · intro i hi hii hic
      have hcount : (ancestors st1 c).count c = 1 := by
        rw [e2, hanc, List.count_append, List.count_append, List.count_cons,
          List.count_eq_zero.2 hcy, List.count_eq_zero.2 hpre, List.count_eq_zero.2 hpost]
        simp
      rw [w1.ancestors_eq hc1, hobj1] at hcount
      unfold view at hcount
      rw [List.count_eq_countP, List.countP_map, List.countP_eq_length_filter] at hcount
      obtain ⟨q, hq⟩ := List.length_eq_one_iff.1 hcount
      have hmem : ∀ x ∈ st1.seg (st.obj c), (st1.node x).kind = .icls → st1.cid x = c → x = q := by
        intro x hx hxk hxc
        have : x ∈ [q] := by
          rw [← hq]
          simp only [List.mem_filter, Function.comp]
          exact ⟨⟨hx, by rw [w1.iclass_no_origin (w1.seg_lt hl1 hx) hxk]; rfl⟩, by simp [hxc]⟩
        simpa using this
      rw [hmem i hi (by simpa [St.isIclass] using hii) hic, hmem o hoS hok1 hoc1']
  have gp := propagatePrepend_grow (a := c) (b := m) w1 hm1
  refine ⟨?_, ?_⟩
  · have hs' := Settled.foldl (candidates st1 c) hsettled
      (fun d hd => by
        have := candidates_spec w1 hc1 hd
        rw [hobj1] at this
        exact this) hm1
    have wp := gp.heap w1
    rw [← e2, wp.ancestors_eq (by rw [gp.classes]; exact hc1), w1.ancestors_eq hc1, gp.obj, hobj1]
    show view (propagatePrepend st1 c m) ((propagatePrepend st1 c m).seg (st.obj c)) = _
    have : (propagatePrepend st1 c m).seg (st.obj c) = st1.seg (st.obj c) := hs'.seg
    rw [this]
    exact gp.view (fun x hx => w1.seg_lt hl1 hx)
  · intro d hd hkd hcd
    have hdl := w.obj_lt d hd
    have hd0 : d < (bump st0).classes.length := by
      show d < st0.classes.length; rw [hcls]; exact hd
    have hobjd : (bump st0).obj d = st.obj d := hobj0 d
    have hkb : ((bump st0).node ((bump st0).obj d)).kind = .cls := by
      rw [hobjd]; show (st0.node (st.obj d)).kind = _; rw [hkind0 _ hdl]; exact hkd
    have hcd0 : c ∉ ancestors (bump st0) d := by
      rw [ancestors_bump, hanc0 d hd]; exact hcd
    rw [← hanc0 d hd, ← ancestors_bump st0 d]
    refine ancestors_same (g.trans gp) wb hd0 hkb (fun l hpl => ?_)
    have hnm := wb.obj_not_mem hcb hd0 hkb hcd0 hpl
    rw [hobjb] at hnm
    have hp1 := hother _ l hpl hnm
    refine foldl_other _ w1 (fun x hx => candidates_lt w1 hx) hm1 hp1 ?_
    intro x hx he
    apply hcd0
    rw [wb.ancestors_class hd0 hkb, hpl.chain, ← wb.mem_view_path hpl]
    refine ⟨x, hx, ?_⟩
    have := (g.node x (hpl.lt x hx)).1
    unfold St.cid at he ⊢
    rw [← this]; exact he

/-- `prepend` to a module reaches the classes that mix the module in. -/
theorem prepend_reaches {st st' : St} (w : Heap st) {c m d : Nat} (hc : c < st.classes.length)
    (hm : m < st.classes.length) (hkc : (st.node (st.obj c)).kind = .mod)
    (hk : (st.node (st.obj m)).kind = .mod)
    (hd : d < st.classes.length) (hkd : (st.node (st.obj d)).kind = .cls)
    (hsg : (st.node (st.obj d)).singleton = false) (hno : st.hasOrigin (st.obj d) = false)
    (hin : c ∈ ancestors st d) (hok : prependModule st c m = .ok st') :
    ∃ pre post, ancestors st' d = pre ++ c :: post ∧ c ∉ pre ∧ m ∈ pre := by
  have hcy : c ∉ ancestors st m := by
    intro h
    rw [prepend_cyclic w hc hm hk h] at hok
    cases hok
  have hl := w.obj_lt c hc
  have hdl := w.obj_lt d hd
  have hko := w.obj_kind c hc
  have w0 := w.makeOrigin hl hko
  have hcls := (makeOrigin_rest st (st.obj c)).1
  have hle0 := makeOrigin_nodes (st := st) (self := st.obj c)
  have hdc : st.obj d ≠ st.obj c := by
    intro e; rw [e, hkc] at hkd; cases hkd
  have hdn : d ≠ c := fun e => hdc (by rw [e])
  have hmc : m ≠ c := by
    intro e
    subst e
    exact hcy (w.mem_self hm)
  -- the class has an iclass of `c`
  have hgo := prependModule_grow w hc hm hok
  have hanc0 := ancestors_makeOrigin w hl hko hd
  have hobj0 : ∀ x, (makeOrigin st (st.obj c)).obj x = st.obj x := by
    intro x; exact obj_makeOrigin _ _ x
  have hkd0 : ((makeOrigin st (st.obj c)).node (st.obj d)).kind = .cls := by
    rw [makeOrigin_kind hl hdl]; exact hkd
  have hkc0 : ((makeOrigin st (st.obj c)).node (st.obj c)).kind = .mod := by
    rw [makeOrigin_kind hl hl]; exact hkc
  have hsg0 : ((makeOrigin st (st.obj c)).node (st.obj d)).singleton = false := by
    rw [makeOrigin_singleton hl hdl]; exact hsg
  have hno0 : ((makeOrigin st (st.obj c)).node (st.obj d)).origin = none := by
    rw [makeOrigin_origin hl hdl hdc]
    unfold St.hasOrigin at hno
    simpa using hno
  rw [prepend_eq w hc hm hk hcy] at hok
  generalize makeOrigin st (st.obj c) = st0 at *
  have hdl0 : st.obj d < st0.nodes.length := Nat.lt_of_lt_of_le hdl hle0
  have hcl0 : st.obj c < st0.nodes.length := Nat.lt_of_lt_of_le hl hle0
  have hd0 : d < st0.classes.length := by rw [hcls]; exact hd
  cases hmix : mixList (st.obj c) true (bump st0) (st.obj c) (ancestors st m) with
  | cyclic s => rw [hmix] at hok; cases hok
  | panic => rw [hmix] at hok; cases hok
  | stuck => rw [hmix] at hok; cases hok
  | ok st1 =>
    rw [hmix] at hok
    simp only [Res.ok.injEq] at hok
    have g : Grow (bump st0) st1 := by
      have : ∀ (cs : List Nat) (s s' : St) (base : Nat), Heap s → base < s.nodes.length →
          (∀ a ∈ cs, a < s.classes.length) → mixList (st.obj c) true s base cs = .ok s' →
          Grow s s' := by
        intro cs
        induction cs with
        | nil => intro s s' base _ _ _ h; cases h; exact .refl _
        | cons a cs ih =>
          intro s s' base ws hb ha h
          have g1 : Grow s (mixOne s (st.obj c) true base a) := by
            unfold mixOne
            split
            · exact .refl _
            · exact .step (.refl _) _ _ hb (ha a (by simp))
          have h' : (match (mixOne s (st.obj c) true base a).sup base with
            | none => Res.panic
            | some b => mixList (st.obj c) true (mixOne s (st.obj c) true base a) b cs) = .ok s' := h
          cases hsb : (mixOne s (st.obj c) true base a).sup base with
          | none => rw [hsb] at h'; cases h'
          | some b =>
            rw [hsb] at h'
            have w1 := g1.heap ws
            exact g1.trans (ih _ _ _ w1 (w1.sup_lt (Nat.lt_of_lt_of_le hb g1.le) hsb)
              (fun x hx => by rw [g1.classes]; exact ha x (by simp [hx])) h')
      exact this _ _ _ _ w0.bump hcl0
        (fun a ha => by show a < st0.classes.length; rw [hcls]; exact w.ancestors_lt hm ha) hmix
    have w1 := g.heap w0.bump
    have hdl1 : st.obj d < st1.nodes.length := Nat.lt_of_lt_of_le hdl0 g.le
    have hd1 : d < st1.classes.length := by rw [g.classes]; exact hd0
    have hm1 : m < st1.classes.length := by
      rw [g.classes]; show m < st0.classes.length; rw [hcls]; exact hm
    have hobj1 : ∀ x, st1.obj x = st.obj x := fun x => by rw [g.obj]; exact hobj0 x
    have hnode := g.node (st.obj d) hdl0
    have hkd1 : (st1.node (st.obj d)).kind = .cls := by rw [hnode.2.1]; exact hkd0
    have hnodec := g.node (st.obj c) hcl0
    have hkc1 : (st1.node (st.obj c)).kind = .mod := by rw [hnodec.2.1]; exact hkc0
    have honly : ∀ {s : St}, Heap s → s.obj c = st.obj c → (s.node (st.obj c)).kind = .mod →
        ∀ {l : List Nat}, Path s (st.obj d) l → ∀ x ∈ l, s.cid x = c → s.isIclass x = true := by
      intro s ws hso hsk l hpl x hx hxc
      by_contra hxi
      have hxk : (s.node x).kind ≠ .icls := by simpa [St.isIclass] using hxi
      have := ws.cid_obj x (hpl.lt x hx) hxk
      rw [hxc, hso] at this
      rw [← this] at hx
      exact ws.mod_not_mem hpl hsk (fun e => hdc e.symm) hx
    have hex : ∃ l, Path st1 (st.obj d) l ∧ ∃ i ∈ l, st1.isIclass i = true ∧ st1.cid i = c := by
      have hp := w.chain hdl
      have hs := g.ancestors w0.bump (d := d) hd0 (by
        show (st0.node (st0.obj d)).kind = _
        rw [hobj0]; exact hkd0)
      rw [ancestors_bump, hanc0] at hs
      have hc1 := hs.subset hin
      have hp1 := w1.chain hdl1
      rw [w1.ancestors_class hd1 (by rw [hobj1]; exact hkd1), hobj1, ← w1.mem_view_path hp1] at hc1
      obtain ⟨x, hx, hxc⟩ := hc1
      exact ⟨_, hp1, x, hx, honly w1 (hobj1 c) hkc1 hp1 x hx hxc, hxc⟩
    have hcand : st.obj d ∈ candidates st1 c := by
      simp only [candidates, List.mem_filter, List.mem_map]
      refine ⟨⟨st1.classes[d], List.getElem_mem hd1, ?_⟩, ?_⟩
      · have := hobj1 d
        simpa [St.obj, List.getD_eq_getElem?_getD, List.getElem?_eq_getElem hd1] using this
      · have h1 := w1.obj_cid d hd1
        rw [hobj1] at h1
        simp [St.isIclass, hkd1, hnode.2.2.2, h1, hdn]
        exact hsg0
    have hfr : Fronted (propagatePrepend st1 c m) c m (st.obj d) :=
      foldl_fronted hmc _ w1 (fun x hx => candidates_lt w1 hx) hm1 hdl1
        (by rw [hnode.2.2.1]; exact hno0) (by rw [hkd1]; simp) hex (Or.inr hcand)
    subst hok
    have gp := propagatePrepend_grow (a := c) (b := m) w1 hm1
    have wp := gp.heap w1
    have hnode2 := gp.node (st.obj d) hdl1
    have hobjp : ∀ x, (propagatePrepend st1 c m).obj x = st.obj x := fun x => by
      rw [gp.obj]; exact hobj1 x
    obtain ⟨l1, i, l2, hp, hii, hic, hno1, x, hx, hxi, hxm⟩ := hfr
    have hkcp : ((propagatePrepend st1 c m).node (st.obj c)).kind = .mod := by
      rw [(gp.node (st.obj c) (Nat.lt_of_lt_of_le hcl0 g.le)).2.1]; exact hkc1
    have hio : (propagatePrepend st1 c m).hasOrigin i = false :=
      wp.iclass_no_origin (hp.lt i (by simp)) (by simpa [St.isIclass] using hii)
    refine ⟨view (propagatePrepend st1 c m) (st.obj d :: l1), view (propagatePrepend st1 c m) l2,
      ?_, ?_, ?_⟩
    · rw [wp.ancestors_class (by rw [gp.classes]; exact hd1)
        (by rw [hobjp, hnode2.2.1]; exact hkd1), hobjp, hp.chain, ← List.cons_append, view_append,
        view_cons (r := i), hio, hic]
      rfl
    · rw [mem_view]
      rintro ⟨y, hy, _, hyc⟩
      have hym : y ∈ st.obj d :: (l1 ++ i :: l2) := by
        rcases List.mem_cons.1 hy with rfl | hy
        · simp
        · simp [hy]
      have hyi := honly wp (hobjp c) hkcp hp y hym hyc
      rcases List.mem_cons.1 hy with rfl | hy
      · simp [St.isIclass, hnode2.2.1, hkd1] at hyi
      · exact hno1 y hy ⟨hyi, hyc⟩
    · rw [mem_view]
      exact ⟨x, by simp [hx], wp.iclass_no_origin (hp.lt x (by simp [hx]))
        (by simpa [St.isIclass] using hxi), hxm⟩

end Verif.Classes
