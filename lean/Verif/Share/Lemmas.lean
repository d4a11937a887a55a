import Verif.Share.Model
/- The invariant of the heap of strings and what each primitive does to it. -/
namespace Verif.Share

/-- What a string looks like from outside: bytes, encoding, frozen. -/
def Mem.sees (m : Mem) (o : Nat) : Option (List Nat × Nat × Bool) :=
  match m.objs o with
  | some x => (m.slice x.content).map (fun bs => (bs, x.enc, x.frozen))
  | none => none

structure Inv (m : Mem) : Prop where
  own : ∀ o x b, m.objs o = some x → x.content = .heap b → ∃ bs, m.bufs b = some bs
  uniq : ∀ o o' x x' b, m.objs o = some x → m.objs o' = some x' →
    x.content = .heap b → x'.content = .heap b → o = o'
  viewed : ∀ o x r b off len, m.objs o = some x → x.content = .view r b off len →
    ∃ R bs, m.objs r = some R ∧ R.content = .heap b ∧ R.frozen = true ∧ m.bufs b = some bs ∧
      off + len ≤ bs.length
  aged : ∀ o x r b off len, m.objs o = some x → x.content = .view r b off len →
    x.old = true → x.armed = true → m.isOld r = true
  bo : ∀ o x, m.objs o = some x → o < m.no
  bb : ∀ b bs, m.bufs b = some bs → b < m.nb

theorem inv_empty : Inv Mem.empty := by
  constructor <;> intros <;> simp_all [Mem.empty]

theorem put_same {α : Type} (f : Nat → Option α) (i : Nat) (x : Option α) : put f i x i = x := by
  simp [put]
theorem put_other {α : Type} (f : Nat → Option α) {i j : Nat} (x : Option α) (h : j ≠ i) :
    put f i x j = f j := by
  simp [put, h]
theorem put_put {α : Type} (f : Nat → Option α) (i : Nat) (x y : Option α) :
    put (put f i x) i y = put f i y := by
  funext j; by_cases h : j = i <;> simp [put, h]
theorem put_comm {α : Type} (f : Nat → Option α) {i j : Nat} (x y : Option α) (h : i ≠ j) :
    put (put f i x) j y = put (put f j y) i x := by
  funext k
  by_cases h1 : k = i
  · subst h1; simp [put, h]
  · by_cases h2 : k = j
    · subst h2; simp [put, h1]
    · simp [put, h1, h2]

/-- Content that may be given to the object `o`: nobody else owns its buffer, a view has a root. -/
def Fit (m : Mem) (o : Nat) : Content → Prop
  | .inl _ => True
  | .heap b => (∃ bs, m.bufs b = some bs) ∧ ∀ o' x', o' ≠ o → m.objs o' = some x' → x'.content ≠ .heap b
  | .view r b off len => r ≠ o ∧ ∃ R bs, m.objs r = some R ∧ R.content = .heap b ∧ R.frozen = true ∧
      m.bufs b = some bs ∧ off + len ≤ bs.length

theorem fit_slice {m : Mem} {o : Nat} {c : Content} (h : Fit m o c) : ∃ bs, m.slice c = some bs := by
  cases c with
  | inl bs => exact ⟨bs, rfl⟩
  | heap b => exact h.1
  | view r b off len =>
    obtain ⟨_, R, bs, _, _, _, hb, hl⟩ := h
    exact ⟨(bs.drop off).take len, by simp [Mem.slice, hb, hl]⟩

/-- A string which is not a frozen owner of a buffer is nobody's root. -/
theorem not_root {m : Mem} (i : Inv m) {o : Nat} {x : Obj} (ho : m.objs o = some x)
    (hf : x.frozen = false) {o' : Nat} {x' : Obj} (ho' : m.objs o' = some x') {r b off len : Nat}
    (hc : x'.content = .view r b off len) : r ≠ o := by
  intro e
  obtain ⟨R, bs, hR, _, hfr, _, _⟩ := i.viewed _ _ _ _ _ _ ho' hc
  subst e
  rw [ho] at hR
  cases hR
  rw [hf] at hfr
  cases hfr

/-- Change the content of an unfrozen string. -/
theorem inv_set {m : Mem} (i : Inv m) {o : Nat} {x x' : Obj} (ho : m.objs o = some x)
    (hf : x.frozen = false) (hfit : Fit m o x'.content)
    (hold : x.old = true → x'.old = true)
    (hag : ∀ r, x'.content.root? = some r → x'.old = true → x'.armed = true → m.isOld r = true) :
    Inv (m.set o x') := by
  have ob : ∀ o' y, (m.set o x').objs o' = some y → (o' = o ∧ y = x') ∨ (o' ≠ o ∧ m.objs o' = some y) := by
    intro o' y h
    by_cases e : o' = o
    · subst e; left; simp [Mem.set, put] at h; exact ⟨rfl, h.symm⟩
    · right; simp [Mem.set, put, e] at h; exact ⟨e, h⟩
  have other : ∀ o', o' ≠ o → (m.set o x').objs o' = m.objs o' := by
    intro o' e; simp [Mem.set, put, e]
  constructor
  · intro o' y b h hc
    rcases ob _ _ h with ⟨_, rfl⟩ | ⟨_, h⟩
    · rw [hc] at hfit; exact hfit.1
    · exact i.own _ _ _ h hc
  · intro o1 o2 y1 y2 b h1 h2 hc1 hc2
    rcases ob _ _ h1 with ⟨e1, rfl⟩ | ⟨e1, g1⟩
    · rcases ob _ _ h2 with ⟨e2, rfl⟩ | ⟨e2, g2⟩
      · rw [e1, e2]
      · rw [hc1] at hfit; exact absurd hc2 (hfit.2 _ _ e2 g2)
    · rcases ob _ _ h2 with ⟨e2, rfl⟩ | ⟨e2, g2⟩
      · rw [hc2] at hfit; exact absurd hc1 (hfit.2 _ _ e1 g1)
      · exact i.uniq _ _ _ _ _ g1 g2 hc1 hc2
  · intro o' y r b off len h hc
    rcases ob _ _ h with ⟨_, rfl⟩ | ⟨_, h⟩
    · rw [hc] at hfit
      obtain ⟨hr, R, bs, hR⟩ := hfit
      exact ⟨R, bs, by rw [other _ hr]; exact hR⟩
    · have hr := not_root i ho hf h hc
      obtain ⟨R, bs, hR⟩ := i.viewed _ _ _ _ _ _ h hc
      exact ⟨R, bs, by rw [other _ hr]; exact hR⟩
  · intro o' y r b off len h hc h1 h2
    have key : m.isOld r = true → (m.set o x').isOld r = true := by
      intro hr
      by_cases e : r = o
      · subst e
        simp only [Mem.isOld, ho] at hr
        simp only [Mem.isOld, Mem.set, put_same]
        exact hold hr
      · simp only [Mem.isOld, other _ e]; exact hr
    rcases ob _ _ h with ⟨_, rfl⟩ | ⟨_, h⟩
    · exact key (hag r (by rw [hc]; rfl) h1 h2)
    · exact key (i.aged _ _ _ _ _ _ h hc h1 h2)
  · intro o' y h
    rcases ob _ _ h with ⟨e, rfl⟩ | ⟨_, h⟩
    · rw [e]; exact i.bo _ _ ho
    · exact i.bo _ _ h
  · exact i.bb

/-- Change flags and encoding of a string, which may be a root, keeping its content. -/
theorem inv_flags {m : Mem} (i : Inv m) {o : Nat} {x x' : Obj} (ho : m.objs o = some x)
    (hc' : x'.content = x.content) (hf : x.frozen = true → x'.frozen = true)
    (hold : x.old = true → x'.old = true)
    (hag : ∀ r, x'.content.root? = some r → x'.old = true → x'.armed = true → m.isOld r = true) :
    Inv (m.set o x') := by
  have ob : ∀ o' y, (m.set o x').objs o' = some y → (o' = o ∧ y = x') ∨ (o' ≠ o ∧ m.objs o' = some y) := by
    intro o' y h
    by_cases e : o' = o
    · subst e; left; simp [Mem.set, put] at h; exact ⟨rfl, h.symm⟩
    · right; simp [Mem.set, put, e] at h; exact ⟨e, h⟩
  have back : ∀ o' y, (m.set o x').objs o' = some y → ∃ z, m.objs o' = some z ∧ z.content = y.content := by
    intro o' y h
    rcases ob _ _ h with ⟨e, rfl⟩ | ⟨_, h⟩
    · exact ⟨x, by rw [e]; exact ho, hc'.symm⟩
    · exact ⟨y, h, rfl⟩
  constructor
  · intro o' y b h hc
    obtain ⟨z, hz, hzc⟩ := back _ _ h
    exact i.own _ _ _ hz (hzc.trans hc)
  · intro o1 o2 y1 y2 b h1 h2 hc1 hc2
    obtain ⟨z1, hz1, hzc1⟩ := back _ _ h1
    obtain ⟨z2, hz2, hzc2⟩ := back _ _ h2
    exact i.uniq _ _ _ _ _ hz1 hz2 (hzc1.trans hc1) (hzc2.trans hc2)
  · intro o' y r b off len h hc
    obtain ⟨z, hz, hzc⟩ := back _ _ h
    obtain ⟨R, bs, hR, hRc, hRf, hb⟩ := i.viewed _ _ _ _ _ _ hz (hzc.trans hc)
    by_cases e : r = o
    · subst e
      rw [ho] at hR; cases hR
      exact ⟨x', bs, by simp [Mem.set, put], hc'.trans hRc, hf hRf, hb⟩
    · exact ⟨R, bs, by simp [Mem.set, put, e, hR], hRc, hRf, hb⟩
  · intro o' y r b off len h hc h1 h2
    have key : m.isOld r = true → (m.set o x').isOld r = true := by
      intro hr
      by_cases e : r = o
      · subst e
        simp only [Mem.isOld, ho] at hr
        simp only [Mem.isOld, Mem.set, put_same]
        exact hold hr
      · simp only [Mem.isOld, Mem.set, put_other _ _ e]; exact hr
    rcases ob _ _ h with ⟨_, rfl⟩ | ⟨_, h⟩
    · exact key (hag r (by rw [hc]; rfl) h1 h2)
    · exact key (i.aged _ _ _ _ _ _ h hc h1 h2)
  · intro o' y h
    obtain ⟨z, hz, _⟩ := back _ _ h
    exact i.bo _ _ hz
  · exact i.bb

theorem sees_set_other {m : Mem} {o o' : Nat} {x : Obj} (h : o' ≠ o) :
    (m.set o x).sees o' = m.sees o' := by
  have : (m.set o x).objs o' = m.objs o' := by simp [Mem.set, put, h]
  simp only [Mem.sees, this]
  rfl

theorem sees_set_same {m : Mem} {o : Nat} {x : Obj} :
    (m.set o x).sees o = (m.slice x.content).map (fun bs => (bs, x.enc, x.frozen)) := by
  have : (m.set o x).objs o = some x := by simp [Mem.set, put]
  simp only [Mem.sees, this]
  rfl

/-- Free or fill a buffer that no string owns. -/
theorem inv_buf {m : Mem} (i : Inv m) {b : Nat} (v : Option (List Nat))
    (hb : ∀ o x, m.objs o = some x → x.content ≠ .heap b) (hn : v ≠ none → b < m.nb) :
    Inv { m with bufs := put m.bufs b v } := by
  have viewb : ∀ o x r b' off len, m.objs o = some x → x.content = .view r b' off len → b' ≠ b := by
    intro o x r b' off len h hc e
    obtain ⟨R, bs, hR, hRc, _⟩ := i.viewed _ _ _ _ _ _ h hc
    exact hb _ _ hR (by rw [hRc, e])
  constructor
  · intro o x b' h hc
    have e : b' ≠ b := by intro e; exact hb _ _ h (by rw [hc, e])
    obtain ⟨bs, h'⟩ := i.own _ _ _ h hc
    exact ⟨bs, by simp only [put_other _ _ e]; exact h'⟩
  · exact i.uniq
  · intro o x r b' off len h hc
    have e := viewb _ _ _ _ _ _ h hc
    obtain ⟨R, bs, hR, hRc, hRf, hb', hl⟩ := i.viewed _ _ _ _ _ _ h hc
    exact ⟨R, bs, hR, hRc, hRf, by simp only [put_other _ _ e]; exact hb', hl⟩
  · exact i.aged
  · exact i.bo
  · intro b' bs h
    by_cases e : b' = b
    · subst e
      simp only [put_same] at h
      exact hn (by rw [h]; simp)
    · simp only [put_other _ _ e] at h
      exact i.bb _ _ h

theorem sees_buf {m : Mem} (i : Inv m) {b : Nat} (v : Option (List Nat)) {o : Nat}
    (hb : ∀ x, m.objs o = some x → x.content ≠ .heap b)
    (hv : ∀ x r off len, m.objs o = some x → x.content ≠ .view r b off len) :
    ({ m with bufs := put m.bufs b v } : Mem).sees o = m.sees o := by
  simp only [Mem.sees]
  cases h : m.objs o with
  | none => rfl
  | some x =>
    simp only []
    have : ({ m with bufs := put m.bufs b v } : Mem).slice x.content = m.slice x.content := by
      cases hc : x.content with
      | inl bs => rfl
      | heap b' =>
        have e : b' ≠ b := by intro e; exact hb _ h (by rw [hc, e])
        simp only [Mem.slice, put_other _ _ e]
      | view r b' off len =>
        have e : b' ≠ b := by intro e; exact hv _ r off len h (by rw [hc, e])
        simp only [Mem.slice, put_other _ _ e]
    rw [this]

/-- The object table is all that `own` leaves alone. -/
theorem own_objs (m : Mem) (bs : List Nat) (sp : Bool) : (m.own bs sp).1.objs = m.objs := by
  unfold Mem.own; split <;> rfl

theorem own_no (m : Mem) (bs : List Nat) (sp : Bool) : (m.own bs sp).1.no = m.no := by
  unfold Mem.own; split <;> rfl

theorem inv_own {m : Mem} (i : Inv m) (bs : List Nat) (sp : Bool) :
    Inv (m.own bs sp).1 ∧ (∀ o, Fit (m.own bs sp).1 o (m.own bs sp).2) ∧
      (m.own bs sp).1.slice (m.own bs sp).2 = some bs ∧
      (m.own bs sp).2.root? = none ∧
      (∀ o, (m.own bs sp).1.sees o = m.sees o) ∧
      (∀ o c, Fit m o c → Fit (m.own bs sp).1 o c ∧ (m.own bs sp).1.slice c = m.slice c) := by
  unfold Mem.own
  by_cases h : bs.length ≤ inlineCap ∧ sp = false
  · simp only [if_pos h]
    refine ⟨i, fun _ => trivial, rfl, rfl, fun _ => trivial, fun _ _ h => ⟨h, trivial⟩⟩
  · simp only [if_neg h]
    have fresh : ∀ o x, m.objs o = some x → x.content ≠ .heap m.nb := by
      intro o x ho hc
      obtain ⟨b, hb⟩ := i.own _ _ _ ho hc
      exact Nat.lt_irrefl _ (i.bb _ _ hb)
    have freshv : ∀ o x r off len, m.objs o = some x → x.content ≠ .view r m.nb off len := by
      intro o x r off len ho hc
      obtain ⟨R, b, _, _, _, hb, _⟩ := i.viewed _ _ _ _ _ _ ho hc
      exact Nat.lt_irrefl _ (i.bb _ _ hb)
    have i' : Inv { m with nb := m.nb + 1 } :=
      ⟨i.own, i.uniq, i.viewed, i.aged, i.bo, fun b bs h => Nat.lt_succ_of_lt (i.bb b bs h)⟩
    refine ⟨inv_buf i' (b := m.nb) (some bs) fresh (fun _ => Nat.lt_succ_self _), ?_, ?_, rfl, ?_, ?_⟩
    · intro o
      refine ⟨⟨bs, put_same _ _ _⟩, ?_⟩
      intro o' x' _ h'
      exact fresh _ _ h'
    · simp [Mem.slice, put]
    · intro o
      exact sees_buf i' (b := m.nb) (some bs) (fun x hx => fresh _ x hx) (fun x r off len hx => freshv _ x r off len hx)
    · intro o c hfit
      cases c with
      | inl bs => exact ⟨trivial, rfl⟩
      | heap b =>
        obtain ⟨⟨b', hb⟩, h2⟩ := hfit
        have e : b ≠ m.nb := by intro e; subst e; exact Nat.lt_irrefl _ (i.bb _ _ hb)
        exact ⟨⟨⟨b', by simp only [put_other _ _ e]; exact hb⟩, h2⟩, by simp only [Mem.slice, put_other _ _ e]⟩
      | view r b off len =>
        obtain ⟨hr, R, b', hR, hRc, hRf, hb, hl⟩ := hfit
        have e : b ≠ m.nb := by intro e; subst e; exact Nat.lt_irrefl _ (i.bb _ _ hb)
        exact ⟨⟨hr, R, b', hR, hRc, hRf, by simp only [put_other _ _ e]; exact hb, hl⟩,
          by simp only [Mem.slice, put_other _ _ e]⟩

/-- A fresh object. -/
theorem inv_alloc {m : Mem} (i : Inv m) {c : Content} (hfit : Fit m m.no c) (enc : Nat) (fr : Bool) :
    Inv (m.alloc c enc fr).1 ∧
      (∀ o, o ≠ m.no → (m.alloc c enc fr).1.sees o = m.sees o) ∧
      (m.alloc c enc fr).1.sees m.no = (m.slice c).map (fun bs => (bs, enc, fr)) := by
  have none' : m.objs m.no = none := by
    cases h : m.objs m.no with
    | none => rfl
    | some x => exact absurd (i.bo _ _ h) (Nat.lt_irrefl _)
  have ob : ∀ o' y, (m.alloc c enc fr).1.objs o' = some y →
      (o' = m.no ∧ y = ⟨c, enc, fr, false, false⟩) ∨ (o' ≠ m.no ∧ m.objs o' = some y) := by
    intro o' y h
    by_cases e : o' = m.no
    · subst e; left; simp [Mem.alloc, put] at h; exact ⟨rfl, h.symm⟩
    · right; simp [Mem.alloc, put, e] at h; exact ⟨e, h⟩
  have other : ∀ o' y, m.objs o' = some y → (m.alloc c enc fr).1.objs o' = some y := by
    intro o' y h
    have e : o' ≠ m.no := Nat.ne_of_lt (i.bo _ _ h)
    simp [Mem.alloc, put, e, h]
  refine ⟨?_, ?_, ?_⟩
  · constructor
    · intro o' y b h hc
      rcases ob _ _ h with ⟨_, rfl⟩ | ⟨_, h⟩
      · simp only at hc; rw [hc] at hfit; exact hfit.1
      · exact i.own _ _ _ h hc
    · intro o1 o2 y1 y2 b h1 h2 hc1 hc2
      rcases ob _ _ h1 with ⟨e1, rfl⟩ | ⟨e1, g1⟩
      · rcases ob _ _ h2 with ⟨e2, rfl⟩ | ⟨e2, g2⟩
        · rw [e1, e2]
        · simp only at hc1; rw [hc1] at hfit; exact absurd hc2 (hfit.2 _ _ e2 g2)
      · rcases ob _ _ h2 with ⟨e2, rfl⟩ | ⟨e2, g2⟩
        · simp only at hc2; rw [hc2] at hfit; exact absurd hc1 (hfit.2 _ _ e1 g1)
        · exact i.uniq _ _ _ _ _ g1 g2 hc1 hc2
    · intro o' y r b off len h hc
      rcases ob _ _ h with ⟨_, rfl⟩ | ⟨_, h⟩
      · simp only at hc; rw [hc] at hfit
        obtain ⟨hr, R, bs, hR, hx⟩ := hfit
        exact ⟨R, bs, other _ _ hR, hx⟩
      · obtain ⟨R, bs, hR, hx⟩ := i.viewed _ _ _ _ _ _ h hc
        exact ⟨R, bs, other _ _ hR, hx⟩
    · intro o' y r b off len h hc h1 h2
      rcases ob _ _ h with ⟨_, rfl⟩ | ⟨_, h⟩
      · cases h1
      · obtain ⟨R, bs, hR, hx⟩ := i.viewed _ _ _ _ _ _ h hc
        have := i.aged _ _ _ _ _ _ h hc h1 h2
        simp only [Mem.isOld, hR] at this
        simp only [Mem.isOld, other _ _ hR]
        exact this
    · intro o' y h
      rcases ob _ _ h with ⟨e, rfl⟩ | ⟨_, h⟩
      · rw [e]; exact Nat.lt_succ_self _
      · exact Nat.lt_succ_of_lt (i.bo _ _ h)
    · exact i.bb
  · intro o e
    have : (m.alloc c enc fr).1.objs o = m.objs o := by simp [Mem.alloc, put, e]
    simp only [Mem.sees, this]
    rfl
  · have : (m.alloc c enc fr).1.objs m.no = some ⟨c, enc, fr, false, false⟩ := by simp [Mem.alloc, put]
    simp only [Mem.sees, this]
    rfl

/-- The content of a live string can be given to a fresh string if it is a view. -/
theorem fit_view {m : Mem} (i : Inv m) {o : Nat} {x : Obj} (ho : m.objs o = some x)
    {r b off len : Nat} (hc : x.content = .view r b off len) {n : Nat} (hn : r ≠ n) :
    Fit m n (.view r b off len) := by
  obtain ⟨R, bs, hR⟩ := i.viewed _ _ _ _ _ _ ho hc
  exact ⟨hn, R, bs, hR⟩

/-- Nothing dangles: every live string can be read. -/
theorem reads {m : Mem} (i : Inv m) {o : Nat} {x : Obj} (ho : m.objs o = some x) :
    ∃ bs, m.slice x.content = some bs := by
  cases hc : x.content with
  | inl bs => exact ⟨bs, rfl⟩
  | heap b => exact i.own _ _ _ ho hc
  | view r b off len =>
    obtain ⟨R, bs, _, _, _, hb, hl⟩ := i.viewed _ _ _ _ _ _ ho hc
    exact ⟨(bs.drop off).take len, by simp [Mem.slice, hb, hl]⟩

end Verif.Share
