import Verif.Ensure.Spec

/-! # Lengths and ranges of generated code -/

namespace Verif.Ensure

@[simp] theorem len_app (c d : Code) : (c.app d).len = c.len + d.len := by
  simp [Code.app, Code.len]

@[simp] theorem len_nil : Code.nil.len = 0 := rfl

@[simp] theorem len_one (i) : (Code.one i).len = 1 := rfl

@[simp] theorem len_tab (l) : (⟨[], l⟩ : Code).len = 0 := rfl

theorem app_assoc (a b c : Code) : (a.app b).app c = a.app (b.app c) := by
  simp [Code.app]

theorem app_nil (a : Code) : a.app Code.nil = a := by simp [Code.app, Code.nil]

theorem nil_app (a : Code) : Code.nil.app a = a := by simp [Code.app, Code.nil]

/-- The length of a closure depends on the depths of the loops only. -/
def SameLen (g : Clo) : Prop :=
  ∀ l l' r r' t t' p p', l.map Loop.depth = l'.map Loop.depth → (r.isEmpty = r'.isEmpty) →
    (g l r t p).len = (g l' r' t' p').len

theorem blank_same : SameLen blank := fun _ _ _ _ _ _ _ _ _ _ => rfl

theorem pend_len {gs : List Clo} (h : ∀ g ∈ gs, SameLen g) {l l' : List Loop} {r r' : List Nat}
    (hl : l.map Loop.depth = l'.map Loop.depth) (hr : r.isEmpty = r'.isEmpty) (t t' p p') :
    (pend gs l r t p).len = (pend gs l' r' t' p').len := by
  induction gs generalizing p p' with
  | nil => rfl
  | cons g gs ih =>
    simp only [pend, len_app]
    rw [h g (by simp) l l' r r' t t' p p' hl hr]
    congr 1
    exact ih (fun g hg => h g (by simp [hg])) _ _

theorem add_congr {a b c d : Nat} (h : a = b) (k : c = d) : a + c = b + d := by rw [h, k]

mutual
theorem comp_len (s : Stmt) : ∀ (E : List Clo) (l l' : List Loop) (r r' : List Nat) (t t' p p'),
    (∀ g ∈ E, SameLen g) → l.map Loop.depth = l'.map Loop.depth → r.isEmpty = r'.isEmpty →
    (comp ⟨E, l, r, t⟩ p s).len = (comp ⟨E, l', r', t'⟩ p' s).len := by
  match s with
  | .skip => intros; simp [comp]
  | .act a => intros; simp [comp]
  | .seq a b =>
    intro E l l' r r' t t' p p' hE hl hr
    simp only [comp, len_app]
    rw [comp_len a E l l' r r' t t' p p' hE hl hr]
    congr 1
    exact comp_len b E l l' r r' t t' _ _ hE hl hr
  | .ite c a b =>
    intro E l l' r r' t t' p p' hE hl hr
    simp only [comp, len_app, len_one]
    rw [comp_len a E l l' r r' t t' (p + 1) (p' + 1) hE hl hr]
    congr 3
    exact comp_len b E l l' r r' t t' _ _ hE hl hr
  | .loop c a =>
    intro E l l' r r' t t' p p' hE hl hr
    simp only [comp, len_app, len_one]
    congr 2
    exact comp_len a E _ _ r r' t t' _ _ hE (by simp [hl]) hr
  | .brk =>
    intro E l l' r r' t t' p p' hE hl hr
    simp only [comp, jumpOut]
    match l, l', hl with
    | [], [], _ => rfl
    | x :: xs, y :: ys, hl =>
      simp only [List.map_cons, List.cons.injEq] at hl
      simp only [len_app, len_one, leaving, hl.1]
      congr 1
      exact pend_len (fun g hg => hE g (List.mem_of_mem_take hg)) (by simp [hl]) hr _ _ _ _
  | .nxt =>
    intro E l l' r r' t t' p p' hE hl hr
    simp only [comp, jumpOut]
    match l, l', hl with
    | [], [], _ => rfl
    | x :: xs, y :: ys, hl =>
      simp only [List.map_cons, List.cons.injEq] at hl
      simp only [len_app, len_one, leaving, hl.1]
      congr 1
      exact pend_len (fun g hg => hE g (List.mem_of_mem_take hg)) (by simp [hl]) hr _ _ _ _
  | .retry =>
    intro E l l' r r' t t' p p' hE hl hr
    simp only [comp]
    match r, r', hr with
    | [], [], _ => rfl
    | _ :: _, _ :: _, _ => rfl
  | .ret k =>
    intro E l l' r r' t t' p p' hE hl hr
    simp only [comp]
    cases k <;> simp only [retCode, len_app, len_one] <;> congr 1
    · congr 1; exact pend_len hE hl hr _ _ _ _
    · exact pend_len hE hl hr _ _ _ _
    · congr 1; exact pend_len hE hl hr _ _ _ _
  | .ens b n =>
    intro E l l' r r' t t' p p' hE hl hr
    have hclo : SameLen (fun loops retry t p => comp ⟨E, loops, retry, t⟩ p n) :=
      fun l l' r r' t t' p p' hl hr => comp_len n E l l' r r' t t' p p' hE hl hr
    have hE1 : ∀ g ∈ (fun loops retry t p => comp ⟨E, loops, retry, t⟩ p n : Clo) :: E,
        SameLen g := by
      intro g hg
      rcases List.mem_cons.1 hg with rfl | hg
      · exact hclo
      · exact hE g hg
    have hE2 : ∀ g ∈ blank :: E, SameLen g := by
      intro g hg
      rcases List.mem_cons.1 hg with rfl | hg
      · exact blank_same
      · exact hE g hg
    simp only [comp, len_app, len_one, len_tab]
    rw [comp_len b _ l l' r r' t t' p p' hE1 hl hr]
    rw [comp_len n _ l l' r r' (t + 1) (t' + 1) _ (p' + (comp ⟨_ :: E, l', r', t'⟩ 0 b).len + 1)
      hE2 hl hr]
    rw [comp_len n E l l' r r' t t' _ (p' + (comp ⟨_ :: E, l', r', t'⟩ 0 b).len + 1
      + (comp ⟨blank :: E, l', r', t' + 1⟩ 0 n).len + 1) hE hl hr]
  | .beg h b cl e n =>
    intro E l l' r r' t t' p p' hE hl hr
    have hclo : SameLen (if h then fun loops retry t p => comp ⟨E, loops, retry, t⟩ p n
        else blank) := by
      cases h
      · exact blank_same
      · exact fun l l' r r' t t' p p' hl hr => comp_len n E l l' r r' t t' p p' hE hl hr
    generalize hg0 : (if h then fun loops retry t p => comp ⟨E, loops, retry, t⟩ p n
        else blank : Clo) = g0 at hclo
    have hE1 : ∀ g ∈ g0 :: E, SameLen g := by
      intro g hg
      rcases List.mem_cons.1 hg with rfl | hg
      · exact hclo
      · exact hE g hg
    have hE2 : ∀ g ∈ blank :: E, SameLen g := by
      intro g hg
      rcases List.mem_cons.1 hg with rfl | hg
      · exact blank_same
      · exact hE g hg
    have B := fun q q' => comp_len b _ l l' r r' t t' q q' hE1 hl hr
    have C := fun x x' y y' => compC_len cl (g0 :: E) l l' (p :: r) (p' :: r') t t' x x' y y'
      hE1 hl rfl
    have L := fun q q' => comp_len e _ l l' r r' t t' q q' hE1 hl hr
    have N := fun q q' => comp_len n _ l l' r r' (t + 1) (t' + 1) q q' hE2 hl hr
    have M := fun q q' => comp_len n _ l l' r r' t t' q q' hE hl hr
    simp only [comp, hg0, len_app, len_one, len_tab]
    rw [B p p']
    refine add_congr rfl (add_congr rfl (add_congr (C _ _ _ _) (add_congr ?_
      (add_congr rfl (add_congr rfl (add_congr (L _ _) ?_))))))
    · cases h
      · rfl
      · exact N _ _
    · cases h
      · rfl
      · simp only [if_true, len_app, len_one]; rw [M _ _]

theorem compC_len (cl : Clauses) : ∀ (E : List Clo) (l l' : List Loop) (r r' : List Nat)
    (t t' x x' p p'), (∀ g ∈ E, SameLen g) → l.map Loop.depth = l'.map Loop.depth →
    r.isEmpty = r'.isEmpty →
    (compC ⟨E, l, r, t⟩ x p cl).len = (compC ⟨E, l', r', t'⟩ x' p' cl).len := by
  match cl with
  | .nil => intros; simp [compC]
  | .cons m b body rest =>
    intro E l l' r r' t t' x x' p p' hE hl hr
    simp only [compC, len_app, len_one]
    refine add_congr ?_ (add_congr rfl (add_congr rfl (add_congr ?_ (add_congr rfl ?_))))
    · cases b <;> rfl
    · exact comp_len body E l l' r r' t t' _ _ hE hl hr
    · exact compC_len rest E l l' r r' t t' _ _ _ _ hE hl hr
end

/-! ## Ranges -/

/-- The entries pushed while this code was generated lie inside it. -/
def Within (pc : Nat) (c : Code) : Prop := ∀ e ∈ c.tab, pc ≤ e.lo ∧ e.hi ≤ pc + c.len

def WithinClo (g : Clo) : Prop := ∀ l r t p, Within p (g l r t p)

theorem within_nil (p) : Within p Code.nil := by intro e he; cases he

theorem within_one (p i) : Within p (Code.one i) := by intro e he; cases he

theorem within_app {p : Nat} {c d : Code} (hc : Within p c) (hd : Within (p + c.len) d) :
    Within p (c.app d) := by
  intro e he
  simp only [Code.app, List.mem_append] at he
  rw [len_app]
  rcases he with he | he
  · obtain ⟨a, b⟩ := hc e he; exact ⟨a, by omega⟩
  · obtain ⟨a, b⟩ := hd e he; exact ⟨by omega, by omega⟩

theorem pend_within {gs : List Clo} (h : ∀ g ∈ gs, WithinClo g) (l r t p) :
    Within p (pend gs l r t p) := by
  induction gs generalizing p with
  | nil => exact within_nil p
  | cons g gs ih =>
    exact within_app (h g (by simp) _ _ _ _) (ih (fun g hg => h g (by simp [hg])) _)

/-- Closures as the generator makes them. -/
def Good (E : List Clo) : Prop := ∀ g ∈ E, SameLen g ∧ WithinClo g

theorem Good.same {E} (h : Good E) : ∀ g ∈ E, SameLen g := fun g hg => (h g hg).1
theorem Good.within {E} (h : Good E) : ∀ g ∈ E, WithinClo g := fun g hg => (h g hg).2

theorem blank_within : WithinClo blank := fun _ _ _ p => within_nil p

theorem good_cons {g E} (h : SameLen g ∧ WithinClo g) (hE : Good E) : Good (g :: E) := by
  intro x hx
  rcases List.mem_cons.1 hx with rfl | hx
  · exact h
  · exact hE x hx

theorem good_blank {E} (hE : Good E) : Good (blank :: E) := good_cons ⟨blank_same, blank_within⟩ hE

theorem good_nil : Good [] := by intro g hg; cases hg


theorem comp_len0 (s : Stmt) {c : Ctx} (h : Good c.ens) (p q) :
    (comp c p s).len = (comp c q s).len :=
  comp_len s c.ens c.loops c.loops c.retry c.retry c.temp c.temp p q h.same rfl rfl

theorem clo_same {E : List Clo} (hE : Good E) (n : Stmt) :
    SameLen (fun loops retry t p => comp ⟨E, loops, retry, t⟩ p n) :=
  fun l l' r r' t t' p p' hl hr => comp_len n E l l' r r' t t' p p' hE.same hl hr

mutual
theorem comp_within (s : Stmt) : ∀ (c : Ctx) (p : Nat), Good c.ens → Within p (comp c p s) := by
  match s with
  | .skip => intro c p _; exact within_nil p
  | .act a => intro c p _; exact within_one p _
  | .seq a b =>
    intro c p hE
    exact within_app (comp_within a c p hE) (comp_within b c _ hE)
  | .ite k a b =>
    intro c p hE
    have A := comp_within a c (p + 1) hE
    have B := comp_within b c (p + 1 + (comp c 0 a).len + 1) hE
    have La := comp_len0 a hE 0 (p + 1)
    simp only [comp]
    refine within_app (within_one _ _) (within_app ?_ (within_app (within_one _ _) ?_))
    · simpa using A
    · simpa [La, Nat.add_assoc] using B
  | .loop k a =>
    intro c p hE
    simp only [comp]
    refine within_app (within_one _ _) (within_app ?_ (within_one _ _))
    exact comp_within a { c with loops := _ } (p + 1) hE
  | .brk =>
    intro c p hE
    simp only [comp, jumpOut]
    split
    · exact within_nil p
    · exact within_app (pend_within (fun g hg => (hE g (List.mem_of_mem_take hg)).2) _ _ _ _)
        (within_one _ _)
  | .nxt =>
    intro c p hE
    simp only [comp, jumpOut]
    split
    · exact within_nil p
    · exact within_app (pend_within (fun g hg => (hE g (List.mem_of_mem_take hg)).2) _ _ _ _)
        (within_one _ _)
  | .retry =>
    intro c p _
    simp only [comp]
    split
    · exact within_nil p
    · exact within_one p _
  | .ret k =>
    intro c p hE
    simp only [comp]
    cases k <;> simp only [retCode]
    · exact within_app (within_one _ _) (within_app (pend_within hE.within _ _ _ _)
        (within_one _ _))
    · exact within_app (pend_within hE.within _ _ _ _) (within_one _ _)
    · exact within_app (within_one _ _) (within_app (pend_within hE.within _ _ _ _)
        (within_one _ _))
  | .ens b n =>
    intro c p hE
    have hclo : SameLen _ ∧ WithinClo (fun loops retry t p => comp ⟨c.ens, loops, retry, t⟩ p n) :=
      ⟨clo_same hE n, fun l r t p => comp_within n ⟨c.ens, l, r, t⟩ p hE⟩
    have hE1 := good_cons hclo hE
    have hE2 := good_blank hE
    simp only [comp]
    generalize hcb : ({ c with ens := (fun loops retry t p => comp ⟨c.ens, loops, retry, t⟩ p n) :: c.ens } : Ctx) = cb
    generalize hcx : ({ c with ens := blank :: c.ens, temp := c.temp + 1 } : Ctx) = cx
    rw [comp_len0 b (c := cb) (by rw [← hcb]; exact hE1) 0 p]
    have B := comp_within b cb p (by rw [← hcb]; exact hE1)
    generalize hb : comp cb p b = Kb at *
    rw [comp_len0 n (c := cx) (by rw [← hcx]; exact hE2) 0 (p + Kb.len + 1)]
    have N := comp_within n cx (p + Kb.len + 1) (by rw [← hcx]; exact hE2)
    generalize hn : comp cx (p + Kb.len + 1) n = Kn at *
    have M := comp_within n c (p + Kb.len + 1 + Kn.len + 1) hE
    generalize hm : comp c (p + Kb.len + 1 + Kn.len + 1) n = Km at *
    intro e he
    simp only [Code.app, Code.one, List.nil_append, List.append_nil, List.mem_append,
      List.mem_cons, List.not_mem_nil, or_false, List.cons_append] at he
    simp only [len_app, len_one, len_tab]
    rcases he with he | he | he | he
    · have := B e he; omega
    · have := N e he; omega
    · subst he; dsimp only; omega
    · have := M e he; omega
  | .beg h b cl el n =>
    intro c p hE
    generalize hg0 : (if h then fun loops retry t p => comp ⟨c.ens, loops, retry, t⟩ p n
        else blank : Clo) = g0
    have hclo : SameLen g0 ∧ WithinClo g0 := by
      rw [← hg0]
      cases h
      · exact ⟨blank_same, blank_within⟩
      · exact ⟨clo_same hE n, fun l r t p => comp_within n ⟨c.ens, l, r, t⟩ p hE⟩
    have hE1 := good_cons hclo hE
    have hE2 := good_blank hE
    simp only [comp, hg0]
    generalize hcr : ({ c with ens := g0 :: c.ens, retry := p :: c.retry } : Ctx) = cr
    have hcrE : Good cr.ens := by rw [← hcr]; exact hE1
    generalize hcb : ({ c with ens := g0 :: c.ens } : Ctx) = cb
    have hcbE : Good cb.ens := by rw [← hcb]; exact hE1
    generalize hcx : ({ c with ens := blank :: c.ens, temp := c.temp + 1 } : Ctx) = cx
    have hcxE : Good cx.ens := by rw [← hcx]; exact hE2
    rw [comp_len0 b (c := cb) hcbE 0 p]
    have B := comp_within b cb p hcbE
    generalize hb : comp cb p b = Kb at *
    generalize hq : (compC cr 0 0 cl).len = q at *
    generalize hn : (if h then (comp cx 0 n).len else 0) = k at *
    generalize hl : (comp cb 0 el).len = l at *
    have C := compC_within cl cr (p + Kb.len + 1 + q + k + 1 + l) (p + Kb.len + 1) hcrE
    have Cl : (compC cr (p + Kb.len + 1 + q + k + 1 + l) (p + Kb.len + 1) cl).len = q := by
      rw [← hq]
      exact compC_len cl cr.ens cr.loops cr.loops cr.retry cr.retry cr.temp cr.temp _ _ _ _
        hcrE.same rfl rfl
    have N : Within (p + Kb.len + 1 + q) (if h then comp cx (p + Kb.len + 1 + q) n
        else Code.nil) := by
      cases h
      · exact within_nil _
      · exact comp_within n cx _ hcxE
    have Nl : (if h then comp cx (p + Kb.len + 1 + q) n else Code.nil).len = k := by
      rw [← hn]
      cases h
      · rfl
      · exact comp_len0 n hcxE _ _
    have L := comp_within el cb (p + Kb.len + 1 + q + k + 1) hcbE
    have Ll : (comp cb (p + Kb.len + 1 + q + k + 1) el).len = l := by
      rw [← hl]; exact comp_len0 el hcbE _ _
    have M : Within (p + Kb.len + 1 + q + k + 1 + l)
        (if h then (comp c (p + Kb.len + 1 + q + k + 1 + l) n).app (Code.one .ensureEnd)
        else Code.nil) := by
      cases h
      · exact within_nil _
      · exact within_app (comp_within n c _ hE) (within_one _ _)
    generalize compC cr (p + Kb.len + 1 + q + k + 1 + l) (p + Kb.len + 1) cl = Kc at *
    generalize (if h then comp cx (p + Kb.len + 1 + q) n else Code.nil) = Kn at *
    generalize comp cb (p + Kb.len + 1 + q + k + 1) el = Kl at *
    generalize (if h then (comp c (p + Kb.len + 1 + q + k + 1 + l) n).app (Code.one .ensureEnd)
        else Code.nil) = Km at *
    intro e he
    simp only [Code.app, Code.one, List.nil_append, List.append_nil, List.mem_append,
      List.mem_cons, or_false, List.cons_append] at he
    simp only [len_app, len_one, len_tab]
    rcases he with he | he | he | he | he | he | he
    · have := B e he; omega
    · have := C e he; omega
    · have := N e he; omega
    · subst he; dsimp only; omega
    · cases h
      · cases he
      · simp only [if_true, List.mem_singleton] at he
        subst he; dsimp only; omega
    · have := L e he; omega
    · have := M e he; omega

theorem compC_within (cl : Clauses) : ∀ (c : Ctx) (x p : Nat), Good c.ens →
    Within p (compC c x p cl) := by
  match cl with
  | .nil => intro c x p _; exact within_nil p
  | .cons m b body rest =>
    intro c x p hE
    simp only [compC]
    have hkw : Within p (bindCode c.temp b) := by
      cases b
      · exact within_nil p
      · exact within_one p _
    generalize hKb : bindCode c.temp b = Kb at *
    have B := comp_within body c (p + Kb.len + 2) hE
    have Bl := comp_len0 body hE (p + Kb.len + 2) 0
    have R := compC_within rest c x (p + Kb.len + 2 + (comp c 0 body).len + 1) hE
    generalize comp c (p + Kb.len + 2) body = Kd at *
    refine within_app hkw (within_app (within_one _ _) (within_app (within_one _ _)
      (within_app ?_ (within_app (within_one _ _) ?_))))
    · simp only [len_one]; exact B
    · simp only [len_one, Bl]; exact R
end

theorem comp_clo {E : List Clo} (hE : Good E) (n : Stmt) :
    Good ((fun loops retry t p => comp ⟨E, loops, retry, t⟩ p n) :: E) :=
  good_cons ⟨clo_same hE n, fun l r t p => comp_within n ⟨E, l, r, t⟩ p hE⟩ hE

theorem dest_none {p q : Nat} {c : Code} (h : Within p c) (hq : q < p ∨ p + c.len ≤ q) :
    dest c.tab q = none := by
  unfold dest
  rw [List.find?_eq_none]
  intro e he
  have := h e he
  simp only [Bool.and_eq_true, decide_eq_true_eq]
  omega

theorem dest_app (c d : Code) (q) : dest (c.app d).tab q = (dest c.tab q).or (dest d.tab q) := by
  simp [dest, Code.app, List.find?_append]

end Verif.Ensure
