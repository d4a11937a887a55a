import Verif.Share.Lemmas
/- Each operation keeps the invariant and changes only the string it is asked to change. -/
namespace Verif.Share

/-- Strings that were there look the same. -/
def Still (m m' : Mem) : Prop := ∀ o, m.objs o ≠ none → m'.sees o = m.sees o

theorem objs_of_sees {m : Mem} {o : Nat} {v} (h : m.sees o = some v) :
    ∃ x bs, m.objs o = some x ∧ m.slice x.content = some bs ∧ v = (bs, x.enc, x.frozen) := by
  simp only [Mem.sees] at h
  cases ho : m.objs o with
  | none => rw [ho] at h; cases h
  | some x =>
    rw [ho] at h
    simp only [Option.map_eq_some_iff] at h
    obtain ⟨bs, hb, e⟩ := h
    exact ⟨x, bs, rfl, hb, e.symm⟩

theorem sees_of_objs {m : Mem} {o : Nat} {x : Obj} {bs} (ho : m.objs o = some x)
    (hb : m.slice x.content = some bs) : m.sees o = some (bs, x.enc, x.frozen) := by
  simp only [Mem.sees, ho, hb, Option.map_some]

theorem still_trans {a b c : Mem} (ia : Inv a) (h1 : Still a b) (h2 : Still b c) : Still a c := by
  intro o ho
  have := h1 o ho
  cases hx : a.objs o with
  | none => exact absurd hx ho
  | some x =>
    obtain ⟨bs, hb⟩ := reads ia hx
    have hs := sees_of_objs hx hb
    rw [hs] at this
    obtain ⟨y, bs', hy, _⟩ := objs_of_sees this
    rw [h2 o (by rw [hy]; simp), this, hs]

theorem fresh_ne {m : Mem} (i : Inv m) {o : Nat} {x : Obj} (h : m.objs o = some x) : o ≠ m.no :=
  Nat.ne_of_lt (i.bo _ _ h)

theorem fresh_none {m : Mem} (i : Inv m) : m.objs m.no = none := by
  cases h : m.objs m.no with
  | none => rfl
  | some x => exact absurd (i.bo _ _ h) (Nat.lt_irrefl _)

/-- What making a string shareable gives. -/
structure Shared (m m' : Mem) (p : Nat) (x : Obj) (root buf base : Nat) (bs : List Nat) : Prop where
  inv : Inv m'
  still : Still m m'
  self : ∃ x', m'.objs p = some x' ∧ x'.enc = x.enc ∧ x'.frozen = x.frozen
  rooted : ∃ R all, m'.objs root = some R ∧ R.content = .heap buf ∧ R.frozen = true ∧
    m'.bufs buf = some all ∧ base + bs.length ≤ all.length ∧ (all.drop base).take bs.length = bs ∧
    (root = p → x.frozen = true ∧ bs.length = all.length) ∧
    (root ≠ p → x.content.root? = none → R.enc = x.enc ∧ bs.length = all.length)

theorem shared {m : Mem} (i : Inv m) {p : Nat} {x : Obj} (hp : m.objs p = some x)
    (hs : x.content.sharable = true) {bs : List Nat} (hb : m.slice x.content = some bs) :
    Shared m (m.share p x).1 p x (m.share p x).2.1 (m.share p x).2.2.1 (m.share p x).2.2.2 bs := by
  cases hc : x.content with
  | inl b => rw [hc] at hs; cases hs
  | view r b off len =>
    have e : m.share p x = (m, r, b, off) := by unfold Mem.share; simp only [hc]
    rw [e]
    obtain ⟨R, all, hR, hRc, hRf, hbuf, hl⟩ := i.viewed _ _ _ _ _ _ hp hc
    rw [hc] at hb
    simp only [Mem.slice, hbuf, if_pos hl, Option.some.injEq] at hb
    have hlen : bs.length = len := by rw [← hb]; simp; omega
    have hrp : r ≠ p := by
      intro e; subst e; rw [hp] at hR; cases hR; rw [hc] at hRc; cases hRc
    refine ⟨i, fun _ _ => rfl, ⟨x, hp, rfl, rfl⟩, R, all, hR, hRc, hRf, hbuf, by simp only [hlen]; exact hl, by simp only [hlen]; exact hb, fun e => absurd e hrp, ?_⟩
    intro _ h
    rw [hc] at h; cases h
  | heap b =>
    rw [hc] at hb
    simp only [Mem.slice] at hb
    by_cases hf : x.frozen = true
    · have e : m.share p x = (m, p, b, 0) := by unfold Mem.share; simp only [hc, if_pos hf]
      rw [e]
      exact ⟨i, fun _ _ => rfl, ⟨x, hp, rfl, rfl⟩, x, bs, hp, hc, hf, hb, by simp, by simp,
        fun _ => ⟨hf, rfl⟩, fun h => absurd rfl h⟩
    · have hf' : x.frozen = false := by cases h : x.frozen <;> simp_all
      have hpn := fresh_ne i hp
      -- the moment at which `p` is empty
      have i1 : Inv (m.set p { x with content := .inl [] }) :=
        inv_set i hp hf' trivial (fun h => h) (fun r h => by cases h)
      have hno : (m.set p { x with content := .inl [] }).no = m.no := rfl
      have fit : Fit (m.set p { x with content := .inl [] }) m.no (.heap b) := by
        refine ⟨⟨bs, hb⟩, ?_⟩
        intro o' x' _ ho' hc'
        by_cases e : o' = p
        · subst e; simp [Mem.set, put] at ho'; subst ho'; cases hc'
        · simp [Mem.set, put, e] at ho'
          exact e (i.uniq _ _ _ _ _ ho' hp hc' hc)
      obtain ⟨i2, s2, n2⟩ := inv_alloc i1 (c := .heap b) fit x.enc true
      rw [hno] at s2 n2
      have hp2 : ((m.set p { x with content := .inl [] }).alloc (.heap b) x.enc true).1.objs p =
          some { x with content := .inl [] } := by
        simp [Mem.alloc, Mem.set, put, hpn]
      have hroot2 : ((m.set p { x with content := .inl [] }).alloc (.heap b) x.enc true).1.objs m.no =
          some ⟨.heap b, x.enc, true, false, false⟩ := by
        simp [Mem.alloc, Mem.set, put]
      have hb2 : ((m.set p { x with content := .inl [] }).alloc (.heap b) x.enc true).1.bufs b = some bs := hb
      have i3 := inv_set (x' := { x with content := .view m.no b 0 bs.length, armed := false }) i2 hp2 hf'
        ⟨fun e => hpn e.symm, _, bs, hroot2, rfl, rfl, hb2, by simp⟩ (fun h => h)
        (fun r _ _ h => by cases h)
      have e : m.share p x = ((((m.set p { x with content := .inl [] }).alloc (.heap b) x.enc true).1.set p
          { x with content := .view m.no b 0 bs.length, armed := false }), m.no, b, 0) := by
        unfold Mem.share
        simp only [hc, if_neg hf, hb, Option.getD_some, Mem.alloc, Mem.set, Prod.mk.injEq, Mem.mk.injEq, and_true]
        rw [put_comm _ _ _ hpn, put_put]
      rw [e]
      refine ⟨i3, ?_, ⟨{ x with content := .view m.no b 0 bs.length, armed := false }, by simp only [Mem.set, put_same], rfl, rfl⟩, ⟨.heap b, x.enc, true, false, false⟩, bs, ?_, rfl, rfl, hb2, by simp, by simp, fun e => absurd e.symm hpn, fun _ _ => ⟨rfl, rfl⟩⟩
      · intro o ho
        by_cases e : o = p
        · subst e
          rw [sees_set_same]
          rw [sees_of_objs hp (by rw [hc]; exact hb)]
          simp only [Mem.slice, hb2]
          simp
        · rw [sees_set_other e]
          cases hox : m.objs o with
          | none => exact absurd hox ho
          | some y =>
            rw [s2 o (fresh_ne i hox), sees_set_other e]
      · simp only [Mem.set, put_other _ _ (Ne.symm hpn)]
        exact hroot2

theorem alloc_still {m : Mem} (i : Inv m) {c : Content} (hfit : Fit m m.no c) (enc : Nat) (fr : Bool) :
    Still m (m.alloc c enc fr).1 := by
  intro o ho
  cases hx : m.objs o with
  | none => exact absurd hx ho
  | some x => exact (inv_alloc i hfit enc fr).2.1 o (fresh_ne i hx)

/-- A step which makes a fresh string `id` that looks like `v`. -/
structure Made (m m' : Mem) (id : Nat) (v : List Nat × Nat × Bool) : Prop where
  inv : Inv m'
  still : Still m m'
  fresh : m.objs id = none
  looks : m'.sees id = some v

theorem made_own {m : Mem} (i : Inv m) (bs : List Nat) (sp : Bool) (enc : Nat) (fr : Bool) :
    Made m ((m.own bs sp).1.alloc (m.own bs sp).2 enc fr).1 m.no (bs, enc, fr) := by
  obtain ⟨i1, fit, sl, _, se, _⟩ := inv_own i bs sp
  have hno := own_no m bs sp
  obtain ⟨i2, s2, n2⟩ := inv_alloc i1 (fit _) enc fr
  refine ⟨i2, ?_, fresh_none i, ?_⟩
  · intro o ho
    cases hx : m.objs o with
    | none => exact absurd hx ho
    | some x =>
      rw [s2 o (by rw [hno]; exact fresh_ne i hx), se]
  · rw [hno] at n2
    rw [n2, sl]; rfl

theorem made_sub {m : Mem} (i : Inv m) {p : Nat} {x : Obj} (hp : m.objs p = some x)
    {bs : List Nat} (hb : m.slice x.content = some bs) {st len : Nat} (h : st + len ≤ bs.length) :
    Made m (m.substring p x bs st len).1 (m.substring p x bs st len).2 ((bs.drop st).take len, x.enc, false) := by
  unfold Mem.substring
  by_cases hc : len > inlineCap ∧ x.content.sharable = true
  · simp only [if_pos hc]
    have S := shared i hp hc.2 hb
    obtain ⟨R, all, hR, hRc, hRf, hbuf, hl, ht, _⟩ := S.rooted
    have fit : Fit (m.share p x).1 (m.share p x).1.no
        (.view (m.share p x).2.1 (m.share p x).2.2.1 ((m.share p x).2.2.2 + st) len) :=
      ⟨fresh_ne S.inv hR, R, all, hR, hRc, hRf, hbuf, by omega⟩
    obtain ⟨i2, s2, n2⟩ := inv_alloc S.inv fit x.enc false
    refine ⟨i2, still_trans i S.still (alloc_still S.inv fit _ _), ?_, ?_⟩
    · simp only [Mem.alloc]
      cases hx : m.objs (m.share p x).1.no with
      | none => rfl
      | some y =>
        have := S.still _ (by rw [hx]; simp)
        obtain ⟨b', hb'⟩ := reads i hx
        rw [sees_of_objs hx hb'] at this
        obtain ⟨_, _, h', _⟩ := objs_of_sees this
        exact absurd rfl (fresh_ne S.inv h')
    · simp only [Mem.alloc] at n2 ⊢
      rw [n2]
      simp only [Mem.slice, hbuf]
      rw [if_pos (by omega)]
      simp only [Option.map_some, Option.some.injEq, Prod.mk.injEq, and_true]
      rw [← ht, List.drop_take, List.take_take, List.drop_drop]
      congr 1
      omega
  · simp only [if_neg hc]
    have M := made_own i ((bs.drop st).take len) false x.enc false
    have : (m.own ((bs.drop st).take len) false).1.no = m.no := own_no _ _ _
    simp only [Mem.alloc, this] at M ⊢
    exact M

theorem clone_fit {m : Mem} (i : Inv m) {p : Nat} {x : Obj} (hp : m.objs p = some x)
    {bs : List Nat} (hb : m.slice x.content = some bs) :
    Inv (m.clone x bs).1 ∧ (m.clone x bs).1.objs = m.objs ∧ (m.clone x bs).1.no = m.no ∧
    (∀ o, (∀ r, x.content.root? = some r → r ≠ o) → Fit (m.clone x bs).1 o (m.clone x bs).2) ∧
    (m.clone x bs).1.slice (m.clone x bs).2 = some bs ∧
    (∀ o, (m.clone x bs).1.sees o = m.sees o) ∧
    (∀ r, (m.clone x bs).2.root? = some r → x.content.root? = some r) ∧
    (∀ o c, Fit m o c → Fit (m.clone x bs).1 o c) := by
  cases hc : x.content with
  | view r b off len =>
    have e : m.clone x bs = (m, .view r b off len) := by unfold Mem.clone; simp only [hc]
    rw [e]
    refine ⟨i, rfl, rfl, ?_, by rw [hc] at hb; exact hb, fun _ => rfl, fun _ h => h, fun _ _ h => h⟩
    intro o h
    exact fit_view i hp hc (h r rfl)
  | inl b =>
    have e : m.clone x bs = m.own bs false := by unfold Mem.clone; simp only [hc]
    rw [e]
    obtain ⟨i1, fit, sl, rt, se, ff⟩ := inv_own i bs false
    exact ⟨i1, own_objs _ _ _, own_no _ _ _, fun o _ => fit o, sl, se, fun r h => (by rw [rt] at h; cases h), fun o c h => (ff o c h).1⟩
  | heap b =>
    have e : m.clone x bs = m.own bs false := by unfold Mem.clone; simp only [hc]
    rw [e]
    obtain ⟨i1, fit, sl, rt, se, ff⟩ := inv_own i bs false
    exact ⟨i1, own_objs _ _ _, own_no _ _ _, fun o _ => fit o, sl, se, fun r h => (by rw [rt] at h; cases h), fun o c h => (ff o c h).1⟩

theorem root_lt {m : Mem} (i : Inv m) {p : Nat} {x : Obj} (hp : m.objs p = some x) {r : Nat}
    (h : x.content.root? = some r) : ∃ R b, m.objs r = some R ∧ R.content = .heap b ∧ R.frozen = true := by
  cases hc : x.content with
  | inl _ => rw [hc] at h; cases h
  | heap _ => rw [hc] at h; cases h
  | view r' b off len =>
    rw [hc] at h
    cases h
    obtain ⟨R, _, hR, hRc, hRf, _⟩ := i.viewed _ _ _ _ _ _ hp hc
    exact ⟨R, b, hR, hRc, hRf⟩

theorem made_clone {m : Mem} (i : Inv m) {p : Nat} {x : Obj} (hp : m.objs p = some x)
    {bs : List Nat} (hb : m.slice x.content = some bs) (enc : Nat) (fr : Bool) :
    Made m ((m.clone x bs).1.alloc (m.clone x bs).2 enc fr).1 ((m.clone x bs).1.alloc (m.clone x bs).2 enc fr).2
      (bs, enc, fr) := by
  obtain ⟨i1, ho, hno, fit, sl, se, _, _⟩ := clone_fit i hp hb
  have fit' := fit (m.clone x bs).1.no (by
    intro r hr e
    obtain ⟨R, b, hR, _⟩ := root_lt i hp hr
    exact fresh_ne i hR (by rw [e, hno]))
  obtain ⟨i2, s2, n2⟩ := inv_alloc i1 fit' enc fr
  refine ⟨i2, ?_, ?_, ?_⟩
  · intro o h
    cases hx : m.objs o with
    | none => exact absurd hx h
    | some y => rw [s2 o (by rw [hno]; exact fresh_ne i hx), se]
  · simp only [Mem.alloc]; rw [hno]; exact fresh_none i
  · simp only [Mem.alloc] at n2 ⊢
    rw [n2, sl]; rfl

/-- A write changes the string it writes to, and nothing else. -/
theorem write_ok {m : Mem} (i : Inv m) {o : Nat} {x : Obj} (ho : m.objs o = some x)
    (hf : x.frozen = false) (new : List Nat) (mv : Bool) :
    Inv (m.write o x new mv) ∧ (m.write o x new mv).sees o = some (new, x.enc, x.frozen) ∧
      ∀ o', o' ≠ o → (m.write o x new mv).sees o' = m.sees o' := by
  have plain : ∀ (m : Mem) (i : Inv m) (x : Obj) (sp : Bool), m.objs o = some x → x.frozen = false →
      let c := m.own new sp
      Inv (c.1.set o { x with content := c.2 }) ∧
      (c.1.set o { x with content := c.2 }).sees o = some (new, x.enc, x.frozen) ∧
      ∀ o', o' ≠ o → (c.1.set o { x with content := c.2 }).sees o' = m.sees o' := by
    intro m i x sp ho hf
    obtain ⟨i1, fit, sl, rt, se, _⟩ := inv_own i new sp
    refine ⟨inv_set i1 (by rw [own_objs]; exact ho) hf (fit o) (fun h => h) (fun r h => by rw [rt] at h; cases h), ?_, ?_⟩
    · rw [sees_set_same, sl]; rfl
    · intro o' e; rw [sees_set_other e, se]
  cases hc : x.content with
  | inl b =>
    have e : m.write o x new mv = (m.own new mv).1.set o { x with content := (m.own new mv).2 } := by
      unfold Mem.write; simp only [hc]
    rw [e]; exact plain m i x mv ho hf
  | view r b off len =>
    have e : m.write o x new mv = (m.own new mv).1.set o { x with content := (m.own new mv).2 } := by
      unfold Mem.write; simp only [hc]
    rw [e]; exact plain m i x mv ho hf
  | heap b =>
    have nov : ∀ o' x' r off len, m.objs o' = some x' → x'.content ≠ .view r b off len := by
      intro o' x' r off len h' hc'
      obtain ⟨R, bs, hR, hRc, hRf, _⟩ := i.viewed _ _ _ _ _ _ h' hc'
      have := i.uniq _ _ _ _ _ hR ho hRc hc
      subst this
      rw [ho] at hR; cases hR
      rw [hf] at hRf; cases hRf
    obtain ⟨bs0, hb0⟩ := i.own _ _ _ ho hc
    by_cases hm : mv = true
    · have i1 : Inv (m.set o { x with content := .inl [] }) :=
        inv_set i ho hf trivial (fun h => h) (fun r h => by cases h)
      have nob : ∀ o' x', (m.set o { x with content := .inl [] }).objs o' = some x' → x'.content ≠ .heap b := by
        intro o' x' h' hc'
        by_cases e : o' = o
        · subst e; simp [Mem.set, put] at h'; subst h'; cases hc'
        · simp [Mem.set, put, e] at h'
          exact e (i.uniq _ _ _ _ _ h' ho hc' hc)
      have i2 := inv_buf i1 (b := b) none nob (fun h => absurd rfl h)
      have P := plain _ i2 { x with content := .inl [] } true (by simp [Mem.set, put]) hf
      have e : m.write o x new mv =
          (let d : Mem := { (m.set o { x with content := .inl [] }) with bufs := put m.bufs b none }
           let c := d.own new true
           c.1.set o { x with content := c.2 }) := by
        unfold Mem.write
        simp only [hc, if_pos hm, Mem.drop, Mem.own]
        simp [Mem.set, put_put]
      rw [e]
      refine ⟨P.1, P.2.1, ?_⟩
      intro o' e'
      have := P.2.2 o' e'
      simp only at this ⊢
      rw [show (m.set o { x with content := .inl [] }).bufs = m.bufs from rfl] at this
      rw [this]
      have h2 := sees_buf i1 (b := b) none (o := o') (fun x' h' => nob o' x' h') (by
        intro x' r off len h'
        simp [Mem.set, put, e'] at h'
        exact nov _ _ _ _ _ h')
      rw [show (m.set o { x with content := .inl [] }).bufs = m.bufs from rfl] at h2
      rw [h2, sees_set_other e']
    · have e : m.write o x new mv = { m with bufs := put m.bufs b (some new) } := by
        unfold Mem.write; simp only [hc, if_neg hm]
      rw [e]
      have viewb : ∀ o x r b' off len, m.objs o = some x → x.content = .view r b' off len → b' ≠ b := by
        intro o x r b' off len h hc1 e
        rw [e] at hc1; exact nov _ _ _ _ _ h hc1
      refine ⟨⟨?_, i.uniq, ?_, i.aged, i.bo, ?_⟩, ?_, ?_⟩
      · intro o' x' b' h' hc'
        by_cases e : b' = b
        · subst e; exact ⟨new, put_same _ _ _⟩
        · obtain ⟨bs, h⟩ := i.own _ _ _ h' hc'
          exact ⟨bs, by simp only [put_other _ _ e]; exact h⟩
      · intro o' x' r b' off len h' hc'
        have e := viewb _ _ _ _ _ _ h' hc'
        obtain ⟨R, bs, h1, h2, h3, h4, h5⟩ := i.viewed _ _ _ _ _ _ h' hc'
        exact ⟨R, bs, h1, h2, h3, by simp only [put_other _ _ e]; exact h4, h5⟩
      · intro b' bs h'
        by_cases e : b' = b
        · rw [e]; exact i.bb _ _ hb0
        · simp only [put_other _ _ e] at h'; exact i.bb _ _ h'
      · have : ({ m with bufs := put m.bufs b (some new) } : Mem).slice x.content = some new := by
          rw [hc]; exact put_same _ _ _
        exact sees_of_objs (m := { m with bufs := put m.bufs b (some new) }) ho this
      · intro o' e'
        refine sees_buf i (b := b) _ ?_ ?_
        · intro x' h' hc'
          exact e' (i.uniq _ _ _ _ _ h' ho hc' hc)
        · intro x' r off len h'
          exact nov _ _ _ _ _ h'

/-- `replace`, where the missing write barrier does no harm. -/
theorem assign_ok {m : Mem} (i : Inv m) {o : Nat} {x : Obj} (ho : m.objs o = some x)
    (hf : x.frozen = false) {src : Nat} {y : Obj} (hs : m.objs src = some y) {bs : List Nat}
    (hb : m.slice y.content = some bs)
    (hag : ∀ r, y.content.root? = some r → x.old = true → x.armed = true → m.isOld r = true) :
    Inv (m.assign o x y bs) ∧ (m.assign o x y bs).sees o = some (bs, y.enc, x.frozen) ∧
      ∀ o', o' ≠ o → (m.assign o x y bs).sees o' = m.sees o' := by
  obtain ⟨i1, hob, hno, fit, sl, se, rt, _⟩ := clone_fit i hs hb
  have fito := fit o (by
    intro r hr e
    obtain ⟨R, b, hR, _, hRf⟩ := root_lt i hs hr
    subst e
    rw [ho] at hR; cases hR; rw [hf] at hRf; cases hRf)
  have ho1 : (m.clone y bs).1.objs o = some x := by rw [hob]; exact ho
  have i2 := inv_set (x' := { x with content := (m.clone y bs).2, enc := y.enc }) i1 ho1 hf fito (fun h => h) (by
    intro r hr h1 h2
    have := hag r (rt r hr) h1 h2
    simp only [Mem.isOld] at this ⊢
    rw [hob]; exact this)
  have s2 : ((m.clone y bs).1.set o { x with content := (m.clone y bs).2, enc := y.enc }).sees o = some (bs, y.enc, x.frozen) := by
    rw [sees_set_same, sl]; rfl
  have s3 : ∀ o', o' ≠ o → ((m.clone y bs).1.set o { x with content := (m.clone y bs).2, enc := y.enc }).sees o' = m.sees o' := by
    intro o' e; rw [sees_set_other e, se]
  cases hc : x.content with
  | inl b =>
    have e : m.assign o x y bs = (m.clone y bs).1.set o { x with content := (m.clone y bs).2, enc := y.enc } := by
      unfold Mem.assign; simp only [hc, Mem.drop]
    rw [e]; exact ⟨i2, s2, s3⟩
  | view r b off len =>
    have e : m.assign o x y bs = (m.clone y bs).1.set o { x with content := (m.clone y bs).2, enc := y.enc } := by
      unfold Mem.assign; simp only [hc, Mem.drop]
    rw [e]; exact ⟨i2, s2, s3⟩
  | heap b =>
    have newc : (m.clone y bs).2 ≠ .heap b := by
      intro hcl
      obtain ⟨bs0, hb0⟩ := i.own _ _ _ ho hc
      have hlt := i.bb _ _ hb0
      have : m.clone y bs = m.own bs false := by
        cases hy : y.content with
        | view r b' off len => unfold Mem.clone at hcl; rw [hy] at hcl; cases hcl
        | inl _ => unfold Mem.clone; simp only [hy]
        | heap _ => unfold Mem.clone; simp only [hy]
      rw [this] at hcl
      unfold Mem.own at hcl
      split at hcl
      · cases hcl
      · simp only [Content.heap.injEq] at hcl; omega
    have nob : ∀ o' x', ((m.clone y bs).1.set o { x with content := (m.clone y bs).2, enc := y.enc }).objs o' = some x' → x'.content ≠ .heap b := by
      intro o' x' h' hc'
      by_cases e : o' = o
      · subst e; simp [Mem.set, put] at h'; subst h'; exact newc hc'
      · simp [Mem.set, put, e] at h'
        rw [hob] at h'
        exact e (i.uniq _ _ _ _ _ h' ho hc' hc)
    have nov : ∀ o' x' r off len, ((m.clone y bs).1.set o { x with content := (m.clone y bs).2, enc := y.enc }).objs o' = some x' → x'.content ≠ .view r b off len := by
      intro o' x' r off len h' hc'
      obtain ⟨R, _, hR, hRc, _⟩ := i2.viewed _ _ _ _ _ _ h' hc'
      exact nob _ _ hR hRc
    have e : m.assign o x y bs =
        { ((m.clone y bs).1.set o { x with content := (m.clone y bs).2, enc := y.enc }) with
          bufs := put ((m.clone y bs).1.set o { x with content := (m.clone y bs).2, enc := y.enc }).bufs b none } := by
      unfold Mem.assign; simp only [hc, Mem.drop]; rfl
    rw [e]
    have key : ∀ o', ({ ((m.clone y bs).1.set o { x with content := (m.clone y bs).2, enc := y.enc }) with
          bufs := put ((m.clone y bs).1.set o { x with content := (m.clone y bs).2, enc := y.enc }).bufs b none } : Mem).sees o' =
        ((m.clone y bs).1.set o { x with content := (m.clone y bs).2, enc := y.enc }).sees o' := fun o' =>
      sees_buf i2 (b := b) none (fun x' h' => nob _ x' h') (fun x' r off len h' => nov _ x' r off len h')
    refine ⟨inv_buf i2 (b := b) none nob (fun h => absurd rfl h), by rw [key]; exact s2, ?_⟩
    intro o' e'
    rw [key]; exact s3 o' e'

/-- The snapshot, where the encoding of the root is that of the receiver. -/
theorem snap_ok {m : Mem} (i : Inv m) {o : Nat} {x : Obj} (ho : m.objs o = some x)
    {bs : List Nat} (hb : m.slice x.content = some bs) :
    Inv (m.snapshot o x bs).1 ∧ Still m (m.snapshot o x bs).1 ∧
      ∃ e, (m.snapshot o x bs).1.sees (m.snapshot o x bs).2 = some (bs, e, true) ∧
        ((∀ r R, x.content.root? = some r → m.objs r = some R → x.frozen = false → R.enc = x.enc) → e = x.enc) := by
  unfold Mem.snapshot
  by_cases hf : x.frozen = true
  · simp only [if_pos hf]
    exact ⟨i, fun _ _ => rfl, x.enc, by rw [sees_of_objs ho hb, hf], fun _ => rfl⟩
  · simp only [if_neg hf]
    by_cases hs : x.content.sharable = true
    · simp only [if_pos hs]
      have S := shared i ho hs hb
      obtain ⟨R, all, hR, hRc, hRf, hbuf, hl, ht, h1, h2⟩ := S.rooted
      simp only [hR, hbuf]
      have henc : (∀ r R, x.content.root? = some r → m.objs r = some R → x.frozen = false → R.enc = x.enc) → R.enc = x.enc := by
        intro H
        have hf' : x.frozen = false := by cases h : x.frozen <;> simp_all
        cases hc : x.content with
        | inl _ => rw [hc] at hs; cases hs
        | heap b =>
          have : (m.share o x).2.1 ≠ o := fun e => hf (h1 e).1
          exact (h2 this (by rw [hc]; rfl)).1
        | view r b off len =>
          have e : m.share o x = (m, r, b, off) := by unfold Mem.share; simp only [hc]
          rw [e] at hR
          exact H r R (by rw [hc]; rfl) hR hf'
      by_cases hw : (m.share o x).2.2.2 = 0 ∧ bs.length = all.length
      · simp only [if_pos hw]
        refine ⟨S.inv, S.still, R.enc, ?_, henc⟩
        have hsl : (m.share o x).1.slice R.content = some all := by rw [hRc]; exact hbuf
        rw [sees_of_objs hR hsl, hRf]
        rw [hw.1, hw.2] at ht
        simp only [List.drop_zero, List.take_length] at ht
        rw [ht]
      · simp only [if_neg hw]
        have hsl : (m.share o x).1.slice R.content = some all := by rw [hRc]; exact hbuf
        have M := made_sub S.inv hR hsl (st := (m.share o x).2.2.2) (len := bs.length) hl
        rw [ht] at M
        obtain ⟨y, b', hy, hyb, hv⟩ := objs_of_sees M.looks
        simp only [Prod.mk.injEq] at hv
        obtain ⟨e1, e2, e3⟩ := hv
        have efz : ∀ (q : Mem × Nat), q.1.objs q.2 = some y → q.1.setFrozen q.2 = q.1.set q.2 { y with frozen := true } := by
          intro q hq; unfold Mem.setFrozen; simp only [hq]
        rw [efz _ hy]
        refine ⟨inv_flags M.inv hy rfl (fun _ => rfl) (fun h => h) ?_, ?_, R.enc, ?_, henc⟩
        · intro r hr h1 h2
          cases hc : y.content with
          | inl _ => simp only [hc] at hr; cases hr
          | heap _ => simp only [hc] at hr; cases hr
          | view r' bb off len =>
            simp only [hc] at hr
            cases hr
            exact M.inv.aged _ _ _ _ _ _ hy hc h1 h2
        · refine still_trans i S.still ?_
          intro o' ho'
          have : o' ≠ ((m.share o x).1.substring (m.share o x).2.1 R all (m.share o x).2.2.2 bs.length).2 := by
            intro e; rw [e] at ho'; exact ho' M.fresh
          rw [sees_set_other this]
          exact M.still o' ho'
        · rw [sees_set_same]
          simp only [hyb, Option.map_some, ← e1, ← e2]
    · simp only [if_neg hs]
      have M := made_clone i ho hb x.enc true
      exact ⟨M.inv, M.still, x.enc, M.looks, fun _ => rfl⟩

/-- A collection keeps what is held. -/
theorem gc_ok {m : Mem} (i : Inv m) (major : Bool) (held : List Nat) :
    Inv (m.gc major held) ∧ ∀ o, o ∈ held → (m.gc major held).sees o = m.sees o := by
  have ob : ∀ o x, (m.gc major held).objs o = some x ↔ m.objs o = some x ∧ m.keeps major held o x = true := by
    intro o x
    simp only [Mem.gc]
    cases h : m.objs o with
    | none => simp
    | some y =>
      simp only [Option.some.injEq]
      by_cases hk : m.keeps major held o y = true
      · simp only [if_pos hk, Option.some.injEq]
        constructor
        · intro e; subst e; exact ⟨rfl, hk⟩
        · intro e; exact e.1
      · simp only [if_neg hk]
        constructor
        · intro e; cases e
        · rintro ⟨e, h'⟩; subst e; exact absurd h' hk
  have buf : ∀ o x b, m.objs o = some x → x.content = .heap b → m.keeps major held o x = true →
      (m.gc major held).bufs b = m.bufs b := by
    intro o x b ho hc hk
    simp only [Mem.gc]
    rw [if_neg]
    simp only [List.any_eq_true, List.mem_range, not_exists, not_and]
    intro o' _ h
    cases ho' : m.objs o' with
    | none => rw [ho'] at h; simp at h
    | some x' =>
      rw [ho'] at h
      simp only [Bool.and_eq_true, beq_iff_eq, Bool.not_eq_true'] at h
      have := i.uniq _ _ _ _ _ ho' ho h.1 hc
      subst this
      rw [ho] at ho'; cases ho'
      rw [hk] at h; exact absurd h.2 (by simp)
  have scanroot : ∀ o x r R, m.objs o = some x → scanned major held o x = true → x.content.root? = some r →
      m.objs r = some R → m.keeps major held r R = true := by
    intro o x r R ho hsc hr _
    unfold Mem.keeps
    simp only [Bool.or_eq_true, List.any_eq_true, List.mem_range]
    right
    exact ⟨o, i.bo _ _ ho, by simp only [ho]; rw [hsc, hr]; simp⟩
  have rootkept : ∀ o x r b off len, m.objs o = some x → m.keeps major held o x = true →
      x.content = .view r b off len → ∀ R, m.objs r = some R → m.keeps major held r R = true := by
    intro o x r b off len ho hk hc R hR
    have hrt : x.content.root? = some r := by rw [hc]; rfl
    by_cases hsc : scanned major held o x = true
    · exact scanroot o x r R ho hsc hrt hR
    · -- kept but not scanned: an old armed string in a minor collection
      have hk' := hk
      unfold Mem.keeps at hk'
      simp only [Bool.or_eq_true, List.any_eq_true, List.mem_range, Bool.and_eq_true, Bool.not_eq_true'] at hk'
      rcases hk' with (hh | ⟨hmaj, hold⟩) | ⟨j, _, hj⟩
      · unfold scanned at hsc
        by_cases hmaj : major = true
        · rw [if_pos hmaj] at hsc; exact absurd hh hsc
        · rw [if_neg hmaj] at hsc
          by_cases hold : x.old = true
          · rw [if_pos hold] at hsc
            have harm : x.armed = true := by cases h : x.armed <;> simp_all
            have hro := i.aged _ _ _ _ _ _ ho hc hold harm
            simp only [Mem.isOld, hR] at hro
            unfold Mem.keeps
            simp [hro, hmaj]
          · rw [if_neg hold] at hsc; exact absurd hh hsc
      · have harm : x.armed = true := by
          unfold scanned at hsc
          rw [hmaj, if_neg (by simp), if_pos hold] at hsc
          cases h : x.armed <;> simp_all
        have hro := i.aged _ _ _ _ _ _ ho hc hold harm
        simp only [Mem.isOld, hR] at hro
        unfold Mem.keeps
        simp [hro, hmaj]
      · cases hoj : m.objs j with
        | none => rw [hoj] at hj; simp at hj
        | some y =>
          rw [hoj] at hj
          simp only [Bool.and_eq_true, beq_iff_eq] at hj
          obtain ⟨R', b', hR', hRc', _⟩ := root_lt i hoj hj.2
          rw [ho] at hR'; cases hR'
          rw [hc] at hRc'; cases hRc'
  constructor
  · constructor
    · intro o x b h hc
      obtain ⟨ho, hk⟩ := (ob _ _).1 h
      rw [buf o x b ho hc hk]
      exact i.own _ _ _ ho hc
    · intro o o' x x' b h h' hc hc'
      exact i.uniq _ _ _ _ _ ((ob _ _).1 h).1 ((ob _ _).1 h').1 hc hc'
    · intro o x r b off len h hc
      obtain ⟨ho, hk⟩ := (ob _ _).1 h
      obtain ⟨R, bs, hR, hRc, hRf, hb, hl⟩ := i.viewed _ _ _ _ _ _ ho hc
      have hRk := rootkept _ _ _ _ _ _ ho hk hc R hR
      exact ⟨R, bs, (ob _ _).2 ⟨hR, hRk⟩, hRc, hRf, by rw [buf r R b hR hRc hRk]; exact hb, hl⟩
    · intro o x r b off len h hc h1 h2
      obtain ⟨ho, hk⟩ := (ob _ _).1 h
      obtain ⟨R, bs, hR, _⟩ := i.viewed _ _ _ _ _ _ ho hc
      have hRk := rootkept _ _ _ _ _ _ ho hk hc R hR
      have := i.aged _ _ _ _ _ _ ho hc h1 h2
      simp only [Mem.isOld, hR] at this
      simp only [Mem.isOld, (ob _ _).2 ⟨hR, hRk⟩]
      exact this
    · intro o x h; exact i.bo _ _ ((ob _ _).1 h).1
    · intro b bs h
      simp only [Mem.gc] at h
      split at h
      · cases h
      · exact i.bb _ _ h
  · intro o hh
    cases ho : m.objs o with
    | none =>
      have : (m.gc major held).objs o = none := by simp only [Mem.gc, ho]
      simp only [Mem.sees, this, ho]
    | some x =>
      have hk : m.keeps major held o x = true := by unfold Mem.keeps; simp [hh]
      have hg := (ob o x).2 ⟨ho, hk⟩
      simp only [Mem.sees, hg, ho]
      congr 1
      cases hc : x.content with
      | inl _ => rfl
      | heap b => simp only [Mem.slice]; exact buf o x b ho hc hk
      | view r b off len =>
        obtain ⟨R, bs, hR, hRc, _⟩ := i.viewed _ _ _ _ _ _ ho hc
        have hRk := rootkept _ _ _ _ _ _ ho hk hc R hR
        simp only [Mem.slice, buf r R b hR hRc hRk]

end Verif.Share
