import Verif.Ensure.Main

/-! # The simulation -/

namespace Verif.Ensure

variable {σ : Type} {I : Interp σ} {f : Nat} {P : Code}

theorem sim_skip (st : σ) : SimFor I f P .skip st .norm st := by
  intro u c pc h r D _ _ _ _ _
  exact ⟨_, .refl _, r, Agree.refl _ _, rfl⟩

theorem sim_act (a : Nat) (st : σ) :
    SimFor I f P (.act a) st (I.act a st).1.out (I.act a st).2 := by
  intro u c pc h r D _ _ _ _ hL
  refine ⟨_, Star.one (step_one hL _ _ _), ?_⟩
  simp only [exec]
  generalize hq : I.act a st = q
  obtain ⟨q, s'⟩ := q
  cases q with
  | ok v => exact ⟨setReg r c.temp v, (Agree.refl _ _).set (Nat.le_refl _), by simp [comp]⟩
  | exc x => exact ⟨pc, r, Agree.refl _ _, rfl⟩
  | unw w => exact ⟨pc, r, Agree.refl _ _, rfl⟩

theorem sim_seq {a b : Stmt} {s s1 s2 : σ} {o : Outc} (ha : SimFor I f P a s .norm s1)
    (hb : SimFor I f P b s1 o s2) : SimFor I f P (.seq a b) s o s2 := by
  intro u c pc h r D hok hbare hcl hE hL
  simp only [comp] at hL ⊢
  obtain ⟨oka, okb⟩ := hok
  have h1 := loc_left' hL (comp_within b c _ hE)
  have h2 := loc_right hL (comp_within a c _ hE)
  obtain ⟨_, hs1, r', ha1, rfl⟩ := ha u c pc h r D oka hbare
    (fun hh => hcl (by simp [hasEns, hh])) hE h1
  obtain ⟨res, hs2, hp⟩ := hb u c _ h r' D okb hbare (fun hh => hcl (by simp [hasEns, hh])) hE h2
  refine ⟨res, hs1.trans hs2, ?_⟩
  rw [len_app, ← Nat.add_assoc]
  exact hp.agree ha1

theorem sim_seqOut {a b : Stmt} {s s1 : σ} {o : Outc} (ha : SimFor I f P a s o s1)
    (ho : o ≠ .norm) : SimFor I f P (.seq a b) s o s1 := by
  intro u c pc h r D hok hbare hcl hE hL
  simp only [comp] at hL ⊢
  have h1 := loc_left' hL (comp_within b c _ hE)
  obtain ⟨res, hs1, hp⟩ := ha u c pc h r D hok.1 hbare
    (fun hh => hcl (by simp [hasEns, hh])) hE h1
  exact ⟨res, hs1, hp.move ho⟩

/-- The pieces of a conditional. -/
theorem ite_layout {c : Ctx} {pc k : Nat} {a b : Stmt} {h : Option Entry} (hE : Good c.ens)
    (H : Loc P pc (comp c pc (.ite k a b)) h) :
    ∃ M L : Nat, M = pc + 1 + (comp c (pc + 1) a).len ∧ L = M + 1 + (comp c (M + 1) b).len ∧
      pc + (comp c pc (.ite k a b)).len = L ∧
      Loc P pc (Code.one (.brUnless k (M + 1))) h ∧ Loc P (pc + 1) (comp c (pc + 1) a) h ∧
      Loc P M (Code.one (.br L)) h ∧ Loc P (M + 1) (comp c (M + 1) b) h := by
  simp only [comp] at H ⊢
  rw [comp_len0 a hE 0 (pc + 1), comp_len0 b hE 0 (pc + 1 + (comp c (pc + 1) a).len + 1)] at H
  rw [comp_len0 a hE 0 (pc + 1), comp_len0 b hE 0 (pc + 1 + (comp c (pc + 1) a).len + 1)]
  have wA := comp_within a c (pc + 1) hE
  have wB := comp_within b c (pc + 1 + (comp c (pc + 1) a).len + 1) hE
  refine ⟨_, _, rfl, rfl, ?_, ?_, ?_, ?_, ?_⟩
  · simp only [len_app, len_one]; omega
  · exact loc_left' H (within_app wA (within_app (within_one _ _) wB))
  · have := loc_right H (within_one _ _)
    exact loc_left' this (within_app (within_one _ _) wB)
  · have := loc_right (loc_right H (within_one _ _)) wA
    exact loc_left' this wB
  · exact loc_right (loc_right (loc_right H (within_one _ _)) wA) (within_one _ _)

theorem sim_iteT {k : Nat} {a b : Stmt} {s s1 s2 : σ} {o : Outc}
    (hk : I.cond k s = (true, s1)) (ha : SimFor I f P a s1 o s2) :
    SimFor I f P (.ite k a b) s o s2 := by
  intro u c pc h r D hok hbare hcl hE hL
  obtain ⟨M, L, hM, hLe, hlen, l1, l2, l3, l4⟩ := ite_layout hE hL
  rw [hlen]
  obtain ⟨res, hs, hp⟩ := ha u c (pc + 1) h r D hok.1 hbare
    (fun hh => hcl (by simp [hasEns, hh])) hE l2
  have h0 : Star I f P (.inl ⟨pc, r, D, s⟩) (.inl ⟨pc + 1, r, D, s1⟩) :=
    Star.one (by rw [step_one l1]; simp [exec, hk])
  by_cases ho : o = .norm
  · subst ho
    obtain ⟨r', hr, rfl⟩ := hp
    refine ⟨.inl ⟨L, r', D, s2⟩, h0.trans (hs.trans ?_), r', hr, rfl⟩
    rw [← hM]
    exact Star.one (by rw [step_one l3]; rfl)
  · exact ⟨res, h0.trans hs, hp.move ho⟩

theorem sim_iteF {k : Nat} {a b : Stmt} {s s1 s2 : σ} {o : Outc}
    (hk : I.cond k s = (false, s1)) (hb : SimFor I f P b s1 o s2) :
    SimFor I f P (.ite k a b) s o s2 := by
  intro u c pc h r D hok hbare hcl hE hL
  obtain ⟨M, L, hM, hLe, hlen, l1, l2, l3, l4⟩ := ite_layout hE hL
  rw [hlen, hLe]
  obtain ⟨res, hs, hp⟩ := hb u c (M + 1) h r D hok.2 hbare
    (fun hh => hcl (by simp [hasEns, hh])) hE l4
  exact ⟨res, (Star.one (by rw [step_one l1]; simp [exec, hk])).trans hs, hp⟩

/-- The pieces of a loop. -/
theorem loop_layout {c : Ctx} {pc k : Nat} {a : Stmt} {h : Option Entry} (hE : Good c.ens)
    (H : Loc P pc (comp c pc (.loop k a)) h) :
    ∃ L : Nat, L = pc + 1 + (comp { c with loops := ⟨L, pc, c.ens.length⟩ :: c.loops }
        (pc + 1) a).len + 1 ∧
      pc + (comp c pc (.loop k a)).len = L ∧
      Loc P pc (Code.one (.brUnless k L)) h ∧
      Loc P (pc + 1) (comp { c with loops := ⟨L, pc, c.ens.length⟩ :: c.loops } (pc + 1) a) h ∧
      Loc P (L - 1) (Code.one (.br pc)) h := by
  simp only [comp] at H ⊢
  generalize hn : (comp { c with loops := ⟨0, 0, c.ens.length⟩ :: c.loops } 0 a).len = n at H ⊢
  have hl : (comp { c with loops := ⟨pc + 1 + n + 1, pc, c.ens.length⟩ :: c.loops }
      (pc + 1) a).len = n := by
    rw [← hn]
    exact comp_len a c.ens _ _ _ _ _ _ _ _ hE.same rfl rfl
  have wA := comp_within a { c with loops := ⟨pc + 1 + n + 1, pc, c.ens.length⟩ :: c.loops }
    (pc + 1) hE
  refine ⟨pc + 1 + n + 1, ?_, ?_, ?_, ?_, ?_⟩
  · rw [hl]
  · simp only [len_app, len_one, hl]; omega
  · exact loc_left' H (within_app wA (within_one _ _))
  · exact loc_left' (loc_right H (within_one _ _)) (within_one _ _)
  · have := loc_right (loc_right H (within_one _ _)) wA
    simp only [len_one, hl] at this
    exact this

theorem sim_loopEnd {k : Nat} {a : Stmt} {s s1 : σ} (hk : I.cond k s = (false, s1)) :
    SimFor I f P (.loop k a) s .norm s1 := by
  intro u c pc h r D hok hbare hcl hE hL
  obtain ⟨L, hLe, hlen, l1, l2, l3⟩ := loop_layout hE hL
  rw [hlen]
  exact ⟨_, Star.one (by rw [step_one l1]; simp [exec, hk]), r, Agree.refl _ _, rfl⟩

theorem leaving_all {E : List Clo} {l : Loop} (h : l.depth = E.length) : leaving E l = [] := by
  unfold leaving; rw [h]; simp

/-- One round of a loop that ends by `next`, or normally: back at the test. -/
theorem loop_round {k : Nat} {a : Stmt} {s s1 s2 : σ} {o : Outc}
    (hk : I.cond k s = (true, s1)) (ha : SimFor I f P a s1 o s2) (ho : o = .norm ∨ o = .nxt)
    {u : Bool} {c : Ctx} {pc : Nat} {h : Option Entry} {r : Nat → Nat} {D : List (Nat × Unw)}
    (hok : Ok I u a) (hbare : Bare u h c.ens) (hcl : hasEns a = true → Clean f D)
    (hE : Good c.ens) (hL : Loc P pc (comp c pc (.loop k a)) h) :
    ∃ r', Agree c.temp r r' ∧ Star I f P (.inl ⟨pc, r, D, s⟩) (.inl ⟨pc, r', D, s2⟩) := by
  obtain ⟨L, hLe, hlen, l1, l2, l3⟩ := loop_layout hE hL
  have h0 : Star I f P (.inl ⟨pc, r, D, s⟩) (.inl ⟨pc + 1, r, D, s1⟩) :=
    Star.one (by rw [step_one l1]; simp [exec, hk])
  obtain ⟨res, hs, hp⟩ := ha u { c with loops := ⟨L, pc, c.ens.length⟩ :: c.loops } (pc + 1) h r D
    hok hbare hcl hE l2
  rcases ho with rfl | rfl
  · obtain ⟨r', hr, rfl⟩ := hp
    refine ⟨r', hr, h0.trans (hs.trans ?_)⟩
    rw [show pc + 1 + (comp { c with loops := ⟨L, pc, c.ens.length⟩ :: c.loops }
      (pc + 1) a).len = L - 1 by omega]
    exact Star.one (by rw [step_one l3]; rfl)
  · obtain ⟨p, r', rt, t, h', hr, ht, rfl, hLoc⟩ := hp _ _ rfl (Nat.le_refl _)
    refine ⟨r', hr, h0.trans (hs.trans ?_)⟩
    rw [leaving_all rfl, pend, nil_app] at hLoc
    exact Star.one (by rw [step_one hLoc]; rfl)

theorem sim_loopMore {k : Nat} {a : Stmt} {s s1 s2 s3 : σ} {o o' : Outc}
    (hk : I.cond k s = (true, s1)) (ha : SimFor I f P a s1 o s2) (ho : o = .norm ∨ o = .nxt)
    (hb : SimFor I f P (.loop k a) s2 o' s3) : SimFor I f P (.loop k a) s o' s3 := by
  intro u c pc h r D hok hbare hcl hE hL
  obtain ⟨r', hr, hs⟩ := loop_round hk ha ho (r := r) (D := D) hok hbare hcl hE hL
  obtain ⟨res, hs2, hp⟩ := hb u c pc h r' D hok hbare hcl hE hL
  exact ⟨res, hs.trans hs2, hp.agree hr⟩

theorem sim_loopBrk {k : Nat} {a : Stmt} {s s1 s2 : σ} (hk : I.cond k s = (true, s1))
    (ha : SimFor I f P a s1 .brk s2) : SimFor I f P (.loop k a) s .norm s2 := by
  intro u c pc h r D hok hbare hcl hE hL
  obtain ⟨L, hLe, hlen, l1, l2, l3⟩ := loop_layout hE hL
  rw [hlen]
  have h0 : Star I f P (.inl ⟨pc, r, D, s⟩) (.inl ⟨pc + 1, r, D, s1⟩) :=
    Star.one (by rw [step_one l1]; simp [exec, hk])
  obtain ⟨res, hs, hp⟩ := ha u { c with loops := ⟨L, pc, c.ens.length⟩ :: c.loops } (pc + 1) h r D
    hok hbare hcl hE l2
  obtain ⟨p, r', rt, t, h', hr, ht, rfl, hLoc⟩ := hp _ _ rfl (Nat.le_refl _)
  refine ⟨_, h0.trans (hs.trans ?_), r', hr, rfl⟩
  rw [leaving_all rfl, pend, nil_app] at hLoc
  exact Star.one (by rw [step_one hLoc]; rfl)

theorem sim_loopOut {k : Nat} {a : Stmt} {s s1 s2 : σ} {o : Outc} (hk : I.cond k s = (true, s1))
    (ha : SimFor I f P a s1 o s2) (h1 : o ≠ .norm) (h2 : o ≠ .nxt) (h3 : o ≠ .brk) :
    SimFor I f P (.loop k a) s o s2 := by
  intro u c pc h r D hok hbare hcl hE hL
  obtain ⟨L, hLe, hlen, l1, l2, l3⟩ := loop_layout hE hL
  have h0 : Star I f P (.inl ⟨pc, r, D, s⟩) (.inl ⟨pc + 1, r, D, s1⟩) :=
    Star.one (by rw [step_one l1]; simp [exec, hk])
  obtain ⟨res, hs, hp⟩ := ha u { c with loops := ⟨L, pc, c.ens.length⟩ :: c.loops } (pc + 1) h r D
    hok hbare hcl hE l2
  refine ⟨res, h0.trans hs, ?_⟩
  cases o with
  | norm => exact absurd rfl h1
  | nxt => exact absurd rfl h2
  | brk => exact absurd rfl h3
  | exc x => exact hp
  | unw x => exact hp
  | retry => exact hp
  | ret v => exact hp

theorem sim_brk (st : σ) : SimFor I f P .brk st .brk st := by
  intro u c pc h r D _ _ _ _ hL
  refine ⟨_, .refl _, ?_⟩
  intro l ls hl _
  simp only [comp, jumpOut, hl] at hL
  exact ⟨pc, r, c.retry, c.temp, h, Agree.refl _ _, Nat.le_refl _, rfl, by rw [hl]; exact hL⟩

theorem sim_nxt (st : σ) : SimFor I f P .nxt st .nxt st := by
  intro u c pc h r D _ _ _ _ hL
  refine ⟨_, .refl _, ?_⟩
  intro l ls hl _
  simp only [comp, jumpOut, hl] at hL
  exact ⟨pc, r, c.retry, c.temp, h, Agree.refl _ _, Nat.le_refl _, rfl, by rw [hl]; exact hL⟩

theorem sim_retry (st : σ) : SimFor I f P .retry st .retry st := by
  intro u c pc h r D _ _ _ _ hL
  cases hr : c.retry with
  | nil =>
    refine ⟨_, .refl _, ?_⟩
    intro d ds hd
    rw [hr] at hd; cases hd
  | cons d ds =>
    simp only [comp, hr] at hL
    refine ⟨_, Star.one (step_one hL _ _ _), ?_⟩
    intro d' ds' hd
    rw [hr] at hd; cases hd
    exact ⟨r, Agree.refl _ _, rfl⟩

theorem sim_ret (k : RetK) (st : σ) :
    SimFor I f P (.ret k) st (retOut I st k).1 (retOut I st k).2 := by
  intro u c pc h r D hok hbare _ hE hL
  simp only [comp] at hL ⊢
  cases k with
  | val a =>
    simp only [retCode] at hL
    have w := within_app (pend_within hE.within c.loops c.retry (c.temp + 1) (pc + 1))
      (within_one _ (.ret (.tmp c.temp)))
    have l1 := loc_left' hL w
    have l2 := loc_right hL (within_one _ _)
    refine ⟨_, Star.one (step_one l1 _ _ _), ?_⟩
    simp only [exec, retOut]
    generalize I.act a st = q
    obtain ⟨q, s'⟩ := q
    cases q with
    | ok v =>
      left
      exact ⟨_, _, c.loops, c.retry, c.temp + 1, h, c.temp,
        (Agree.refl _ _).set (Nat.le_refl _), Nat.le_succ _, rfl, Nat.lt_succ_self _,
        by simp [setReg], l2⟩
    | exc x => exact ⟨pc, r, Agree.refl _ _, rfl⟩
    | unw w => exact ⟨pc, r, Agree.refl _ _, rfl⟩
  | loc x =>
    have hu : u = false := hok
    obtain ⟨hb1, hb2⟩ := hbare hu
    simp only [retCode, pend_blank hb2, nil_app] at hL
    refine ⟨_, Star.one (step_one hL _ _ _), .inr ⟨hu, rfl⟩⟩
  | asg a =>
    have hu : u = false := hok
    obtain ⟨hb1, hb2⟩ := hbare hu
    simp only [retCode, pend_blank hb2, nil_app] at hL
    have l1 := loc_left' hL (within_one _ _)
    have l2 := loc_right hL (within_one _ _)
    simp only [retOut]
    generalize hq : I.act a st = q
    obtain ⟨q, s'⟩ := q
    cases q with
    | ok v =>
      refine ⟨.inr (.ret v, D, s'), (Star.one (r := .inl ⟨pc + 1, setReg r c.temp v, D, s'⟩) ?_).trans
        (Star.one ?_), .inr ⟨hu, rfl⟩⟩
      · rw [step_one l1]; simp [exec, hq]
      · have := step_one (I := I) (f := f) l2 (setReg r c.temp v) D s'
        simp only [len_one] at this
        rw [this]; simp [exec, readSrc, setReg]
    | exc x =>
      refine ⟨_, Star.one (step_one l1 _ _ _), ?_⟩
      simp only [exec, hq]
      exact ⟨pc, r, Agree.refl _ _, rfl⟩
    | unw w =>
      refine ⟨_, Star.one (step_one l1 _ _ _), ?_⟩
      simp only [exec, hq]
      exact ⟨pc, r, Agree.refl _ _, rfl⟩

theorem sim_ens {b n : Stmt} {s s1 s2 : σ} {o e : Outc} (hb : SimFor I f P b s o s1)
    (hev : Ev I b s o s1) (hen : Ev I n s1 e s2)
    (hn : SimFor I f P n s1 e s2) : SimFor I f P (.ens b n) s (after o e) s2 := by
  intro u c pc h r D hok hbare hcl hE hL
  obtain ⟨okb, okn, hne, hfin, hfr⟩ := hok
  have he : e = .norm := hfin _ _ _ hen
  subst he
  have hD : Clean f D := hcl rfl
  obtain ⟨B, N, L, hB, hN, hLe, hlen, l1, l2, l3, l4, l5⟩ := ens_layout hE hL
  rw [hlen]
  obtain ⟨res, hs, hp⟩ := hb true _ pc _ r D okb (by intro h; cases h) (fun _ => hD)
    (comp_clo hE n) l1
  rw [show after o .norm = o by simp [after]]
  cases o with
  | norm =>
    obtain ⟨r', hr, rfl⟩ := hp
    obtain ⟨r'', hr', hs'⟩ := tail_norm hE hn okn hne l5 r' hD
    rw [← hB] at hs
    refine ⟨_, hs.trans ((Star.one (r := .inl ⟨L, r', D, s1⟩) ?_).trans hs'), r'', ?_, rfl⟩
    · rw [step_one l2]; rfl
    · exact Agree.trans hr hr'
  | exc x =>
    obtain ⟨p, r', hr, rfl⟩ := hp
    have l4' := l4
    rw [hN] at l4'
    obtain ⟨p', r'', hr', hs'⟩ := copy_raise hE hn okn hne l3 l4' (setReg r' c.temp x) D
      (x := x) (by simp [setReg])
    refine ⟨_, hs.trans hs', p', r'', ?_, rfl⟩
    exact Agree.trans (Agree.set hr (Nat.le_refl _)) hr'
  | unw w =>
    obtain ⟨p, r', hr, rfl⟩ := hp
    obtain ⟨p', r'', hr', hs'⟩ := tail_unw hE hn okn hne l5 (own := some ⟨pc, B, B + 1, some L,
      c.temp⟩) rfl p r' hD w
    exact ⟨_, hs.trans hs', p', r'', Agree.trans hr hr', rfl⟩
  | retry => exact absurd (free_retry hev rfl) (by simp [hfr])
  | brk =>
    rcases exit_region (u := u) (e' := L + (comp c L n).len + 1) (h := h) (h' := h) hE hn okn hne
      (.inl rfl) hp with hv | ⟨res', hs', hp'⟩
    · exact ⟨_, hs, post_vacuous hv⟩
    · exact ⟨res', hs.trans hs', hp'⟩
  | nxt =>
    rcases exit_region (u := u) (e' := L + (comp c L n).len + 1) (h := h) (h' := h) hE hn okn hne
      (.inr (.inl rfl)) hp with hv | ⟨res', hs', hp'⟩
    · exact ⟨_, hs, post_vacuous hv⟩
    · exact ⟨res', hs.trans hs', hp'⟩
  | ret v =>
    rcases exit_region (u := u) (e' := L + (comp c L n).len + 1) (h := h) (h' := h) hE hn okn hne
      (.inr (.inr ⟨v, rfl⟩)) hp with hv | ⟨res', hs', hp'⟩
    · exact ⟨_, hs, post_vacuous hv⟩
    · exact ⟨res', hs.trans hs', hp'⟩

/-! ## Regions with rescue clauses -/

/-- The claim for the rescue clauses. -/
def SimForC (I : Interp σ) (f : Nat) (P : Code) (cl : Clauses) (x : Nat) (st : σ)
    (oo : Option Outc) (st' : σ) : Prop :=
  ∀ (u : Bool) (c : Ctx) (endL pc : Nat) (h : Option Entry) (r : Nat → Nat)
    (D : List (Nat × Unw)),
    OkC I u cl → Bare u h c.ens → (hasEnsC cl = true → Clean f D) → Good c.ens →
    r c.temp = x → Loc P pc (compC c endL pc cl) h →
    ∃ res, Star I f P (.inl ⟨pc, r, D, st⟩) res ∧
      match oo with
      | some o => Post I f P u c endL h h r D o st' res
      | none => res = .inl ⟨pc + (compC c endL pc cl).len, r, D, st'⟩

/-- The pieces of a clause. -/
theorem clause_layout {c : Ctx} {pc endL m : Nat} {b : Option Nat} {body : Stmt} {rest : Clauses}
    {h : Option Entry} (hE : Good c.ens) (H : Loc P pc (compC c endL pc (.cons m b body rest)) h) :
    ∃ T N : Nat, T = pc + (bindCode c.temp b).len ∧
      N = T + 2 + (comp c (T + 2) body).len + 1 ∧
      pc + (compC c endL pc (.cons m b body rest)).len = N + (compC c endL N rest).len ∧
      Loc P pc (bindCode c.temp b) h ∧ Loc P T (Code.one (.test m c.temp (T + 2))) h ∧
      Loc P (T + 1) (Code.one (.br N)) h ∧ Loc P (T + 2) (comp c (T + 2) body) h ∧
      Loc P (N - 1) (Code.one (.br endL)) h ∧ Loc P N (compC c endL N rest) h := by
  simp only [compC] at H ⊢
  have wK : Within pc (bindCode c.temp b) := by
    cases b
    · exact within_nil pc
    · exact within_one pc _
  generalize bindCode c.temp b = K at H wK ⊢
  rw [comp_len0 body hE 0 (pc + K.len + 2)] at H ⊢
  have wB := comp_within body c (pc + K.len + 2) hE
  generalize hKb : comp c (pc + K.len + 2) body = Kb at H wB ⊢
  have wR := compC_within rest c endL (pc + K.len + 2 + Kb.len + 1) hE
  generalize hKr : compC c endL (pc + K.len + 2 + Kb.len + 1) rest = Kr at H wR ⊢
  have H1 := loc_right H wK
  have H2 := loc_right H1 (within_one _ _)
  have H3 := loc_right H2 (within_one _ _)
  simp only [len_one] at H2 H3
  have H4 := loc_right H3 wB
  have H5 := loc_right H4 (within_one _ _)
  simp only [len_one] at H5
  have w4 : Within (pc + K.len + 1 + 1 + Kb.len) ((Code.one (.br endL)).app Kr) :=
    within_app (within_one _ _) (by simpa using wR)
  have w3 := within_app wB w4
  refine ⟨pc + K.len, pc + K.len + 2 + Kb.len + 1, rfl, ?_, ?_, ?_, ?_, ?_, ?_, ?_, ?_⟩
  · rw [hKb]
  · rw [hKr]; simp only [len_app, len_one]; omega
  · exact loc_left' H (within_app (within_one _ _) (within_app (within_one _ _) w3))
  · exact loc_left' H1 (within_app (within_one _ _) w3)
  · exact loc_left' H2 w3
  · rw [hKb]; exact loc_left' H3 w4
  · exact loc_left' H4 (by simpa using wR)
  · rw [hKr]; exact H5

theorem simC_nil (x : Nat) (s : σ) : SimForC I f P .nil x s none s := by
  intro u c endL pc h r D _ _ _ _ _ _
  exact ⟨_, .refl _, rfl⟩

/-- After a match: the body of the clause and the jump to the end. -/
theorem clause_body {body : Stmt} {s s' : σ} {o : Outc} (hb : SimFor I f P body s o s')
    {u : Bool} {c : Ctx} {endL T N : Nat} {h : Option Entry} {r : Nat → Nat}
    {D : List (Nat × Unw)} (hok : Ok I u body) (hbare : Bare u h c.ens)
    (hcl : hasEns body = true → Clean f D) (hE : Good c.ens)
    (hN : N = T + 2 + (comp c (T + 2) body).len + 1)
    (l1 : Loc P (T + 2) (comp c (T + 2) body) h) (l2 : Loc P (N - 1) (Code.one (.br endL)) h) :
    ∃ res, Star I f P (.inl ⟨T + 2, r, D, s⟩) res ∧ Post I f P u c endL h h r D o s' res := by
  obtain ⟨res, hs, hp⟩ := hb u c (T + 2) h r D hok hbare hcl hE l1
  by_cases ho : o = .norm
  · subst ho
    obtain ⟨r', hr, rfl⟩ := hp
    refine ⟨_, hs.trans ?_, r', hr, rfl⟩
    rw [show T + 2 + (comp c (T + 2) body).len = N - 1 by omega]
    exact Star.one (by rw [step_one l2]; rfl)
  · exact ⟨res, hs, hp.move ho⟩

theorem simC_hit {m : Nat} {body : Stmt} {rest : Clauses} {x : Nat} {s s1 s2 : σ} {o : Outc}
    (ht : I.test m x s = (.ok true, s1)) (hb : SimFor I f P body s1 o s2) :
    SimForC I f P (.cons m none body rest) x s (some o) s2 := by
  intro u c endL pc h r D hok hbare hcl hE hx hL
  obtain ⟨T, N, hT, hN, hlen, l1, l2, l3, l4, l5, l6⟩ := clause_layout hE hL
  obtain ⟨res, hs, hp⟩ := clause_body hb (r := r) (D := D) hok.2.1 hbare
    (fun hh => hcl (by simp [hasEnsC, hh])) hE hN l4 l5
  refine ⟨res, (Star.one (r := .inl ⟨T + 2, r, D, s1⟩) ?_).trans hs, hp⟩
  have : T = pc := by rw [hT]; rfl
  rw [← this, step_one l2]
  simp [exec, hx, ht]

theorem simC_hitBind {m v : Nat} {body : Stmt} {rest : Clauses} {x : Nat} {s s1 s2 : σ} {o : Outc}
    (ht : I.test m x s = (.ok true, s1)) (hb : SimFor I f P body (I.bind v x s1) o s2) :
    SimForC I f P (.cons m (some v) body rest) x s (some o) s2 := by
  intro u c endL pc h r D hok hbare hcl hE hx hL
  obtain ⟨T, N, hT, hN, hlen, l1, l2, l3, l4, l5, l6⟩ := clause_layout hE hL
  obtain ⟨k1, k2⟩ := hok.1 v rfl x s
  have e1 : s1 = s := by rw [k2] at ht; cases ht; rfl
  subst e1
  obtain ⟨res, hs, hp⟩ := clause_body hb (r := r) (D := D) hok.2.1 hbare
    (fun hh => hcl (by simp [hasEnsC, hh])) hE hN l4 l5
  have hT' : T = pc + 1 := by rw [hT]; rfl
  refine ⟨res, (Star.one (r := .inl ⟨T, r, D, I.bind v x s1⟩) ?_).trans
    ((Star.one (r := .inl ⟨T + 2, r, D, I.bind v x s1⟩) ?_).trans hs), hp⟩
  · rw [hT']
    have := step_one (I := I) (f := f) (i := .bind v c.temp) l1 r D s1
    rw [this]; simp [exec, hx]
  · rw [step_one l2]
    simp [exec, hx, k1]

theorem simC_miss {m : Nat} {b : Option Nat} {body : Stmt} {rest : Clauses} {x : Nat}
    {s s1 s2 : σ} {oo : Option Outc}
    (ht : I.test m x s = (.ok false, s1)) (hr : SimForC I f P rest x s1 oo s2) :
    SimForC I f P (.cons m b body rest) x s oo s2 := by
  intro u c endL pc h r D hok hbare hcl hE hx hL
  obtain ⟨T, N, hT, hN, hlen, l1, l2, l3, l4, l5, l6⟩ := clause_layout hE hL
  cases b with
  | some v =>
    obtain ⟨k1, k2⟩ := hok.1 v rfl x s
    rw [k2] at ht; cases ht
  | none =>
    obtain ⟨res, hs, hp⟩ := hr u c endL N h r D hok.2.2 hbare
      (fun hh => hcl (by simp [hasEnsC, hh])) hE hx l6
    have hT' : T = pc := by rw [hT]; rfl
    refine ⟨res, (Star.one (r := .inl ⟨T + 1, r, D, s1⟩) ?_).trans
      ((Star.one (r := .inl ⟨N, r, D, s1⟩) ?_).trans hs), ?_⟩
    · rw [← hT', step_one l2]; simp [exec, hx, ht]
    · rw [step_one l3]; rfl
    · cases oo with
      | none => rw [hlen]; exact hp
      | some o => exact hp

theorem simC_err {m : Nat} {b : Option Nat} {body : Stmt} {rest : Clauses} {x y : Nat} {s s1 : σ}
    (ht : I.test m x s = (.error y, s1)) :
    SimForC I f P (.cons m b body rest) x s (some (.exc y)) s1 := by
  intro u c endL pc h r D hok hbare hcl hE hx hL
  obtain ⟨T, N, hT, hN, hlen, l1, l2, l3, l4, l5, l6⟩ := clause_layout hE hL
  cases b with
  | some v =>
    obtain ⟨k1, k2⟩ := hok.1 v rfl x s
    rw [k2] at ht; cases ht
  | none =>
    have hT' : T = pc := by rw [hT]; rfl
    refine ⟨_, Star.one (by rw [← hT', step_one l2]), ?_⟩
    simp only [exec, hx, ht]
    exact ⟨T, r, Agree.refl _ _, rfl⟩

/-- The claim for `begin … rescue … else …`, without what comes after `no_match` and without the
ensure clause. -/
def SimForR (I : Interp σ) (f : Nat) (P : Code) (b : Stmt) (cl : Clauses) (el : Stmt) (st : σ)
    (o : Outc) (st' : σ) : Prop :=
  ∀ (u : Bool) (c : Ctx) (pc B M N L : Nat) (en : Option Nat) (hc hu h : Option Entry)
    (r : Nat → Nat) (D : List (Nat × Unw)),
    Ok I u b → OkC I u cl → Ok I u el → Good c.ens →
    Bare u (some ⟨pc, B, B + 1, en, c.temp⟩) c.ens → Bare u hc c.ens → Bare u h c.ens →
    (hasEns b = true ∨ hasEnsC cl = true ∨ hasEns el = true → Clean f D) →
    B = pc + (comp c pc b).len →
    M = B + 1 + (compC { c with retry := pc :: c.retry } L (B + 1) cl).len →
    L = N + 1 + (comp c (N + 1) el).len →
    Loc P pc (comp c pc b) (some ⟨pc, B, B + 1, en, c.temp⟩) →
    Loc P B (Code.one (.br (N + 1))) h →
    Loc P (B + 1) (compC { c with retry := pc :: c.retry } L (B + 1) cl) hc →
    Loc P (N + 1) (comp c (N + 1) el) h →
    (∀ s x s', Ev I el s (.exc x) s' → hc = h) →
    (∀ s w s', Ev I b s (.unw w) s' → en = hu.bind Entry.ens) →
    hc.bind Entry.ens = hu.bind Entry.ens →
    (∀ s w s', Ev I el s (.unw w) s' → h.bind Entry.ens = hu.bind Entry.ens) →
    ∃ res, Star I f P (.inl ⟨pc, r, D, st⟩) res ∧
      (Post I f P u c L hc hu r D o st' res ∨
        ∃ x, o = .exc x ∧ ∃ r', Agree c.temp r r' ∧ r' c.temp = x ∧ res = .inl ⟨M, r', D, st'⟩)

/-- `Post` with another, equivalent, pair of handlers. -/
theorem Post.handlers {u : Bool} {c : Ctx} {e : Nat} {hx hx' hu hu' : Option Entry}
    {r : Nat → Nat} {D : List (Nat × Unw)} {o : Outc} {s' : σ} {res : Out2 σ}
    (H : Post I f P u c e hx hu r D o s' res) (h1 : ∀ x, o = .exc x → hx = hx')
    (h2 : ∀ w, o = .unw w → hu.bind Entry.ens = hu'.bind Entry.ens) :
    Post I f P u c e hx' hu' r D o s' res := by
  cases o with
  | exc x => obtain ⟨p, r', a, rfl⟩ := H; exact ⟨p, r', a, by rw [h1 x rfl]⟩
  | unw w => obtain ⟨p, r', a, rfl⟩ := H; exact ⟨p, r', a, unwTo_congr (h2 w rfl) _ _⟩
  | norm => exact H
  | brk => exact H
  | nxt => exact H
  | retry => exact H
  | ret v => exact H

theorem simR_els {b : Stmt} {cl : Clauses} {el : Stmt} {s s1 s2 : σ} {o : Outc}
    (hb : SimFor I f P b s .norm s1) (hev : Ev I el s1 o s2) (he : SimFor I f P el s1 o s2) :
    SimForR I f P b cl el s o s2 := by
  intro u c pc B M N L en hc hu h r D okb okc oke hE ba1 ba2 ba3 hcl hB hM hLe l1 l2 l3 l4 k1 k2 k3 k4
  obtain ⟨_, hs, r', hr, rfl⟩ := hb u c pc _ r D okb ba1 (fun hh => hcl (.inl hh)) hE l1
  obtain ⟨res, hs', hp⟩ := he u c (N + 1) h r' D oke ba3 (fun hh => hcl (.inr (.inr hh))) hE l4
  rw [← hB] at hs
  refine ⟨res, hs.trans ((Star.one (r := .inl ⟨N + 1, r', D, s1⟩) ?_).trans hs'), .inl ?_⟩
  · rw [step_one l2]; rfl
  · rw [← hLe] at hp
    refine Post.handlers (hp.agree hr) ?_ ?_
    · rintro x rfl; exact (k1 _ _ _ hev).symm
    · rintro w rfl; exact k4 _ _ _ hev

/-- An exception in the body, up to the outcome of the clauses. -/
theorem simR_exc {b : Stmt} {cl : Clauses} {s s1 s2 : σ} {x : Nat} {oo : Option Outc}
    (hb : SimFor I f P b s (.exc x) s1) (hcl : SimForC I f P cl x s1 oo s2)
    {u : Bool} {c : Ctx} {pc B L : Nat} {en : Option Nat} {hc : Option Entry} {r : Nat → Nat}
    {D : List (Nat × Unw)} (okb : Ok I u b) (okc : OkC I u cl) (hE : Good c.ens)
    (ba1 : Bare u (some ⟨pc, B, B + 1, en, c.temp⟩) c.ens) (ba2 : Bare u hc c.ens)
    (hclean : hasEns b = true ∨ hasEnsC cl = true → Clean f D)
    (l1 : Loc P pc (comp c pc b) (some ⟨pc, B, B + 1, en, c.temp⟩))
    (l3 : Loc P (B + 1) (compC { c with retry := pc :: c.retry } L (B + 1) cl) hc) :
    ∃ r', Agree c.temp r r' ∧ r' c.temp = x ∧
    ∃ res, Star I f P (.inl ⟨pc, r, D, s⟩) res ∧
      match oo with
      | some o => Post I f P u { c with retry := pc :: c.retry } L hc hc r' D o s2 res
      | none => res = .inl ⟨B + 1 +
          (compC { c with retry := pc :: c.retry } L (B + 1) cl).len, r', D, s2⟩ := by
  obtain ⟨_, hs, p, r', hr, rfl⟩ := hb u c pc _ r D okb ba1 (fun hh => hclean (.inl hh)) hE l1
  obtain ⟨res, hs', hp⟩ := hcl u { c with retry := pc :: c.retry } L (B + 1) hc
    (setReg r' c.temp x) D okc ba2 (fun hh => hclean (.inr hh)) hE (by simp [setReg]) l3
  exact ⟨setReg r' c.temp x, hr.set (Nat.le_refl _), by simp [setReg], res, hs.trans hs', hp⟩

theorem simR_caught {b : Stmt} {cl : Clauses} {el : Stmt} {s s1 s2 : σ} {x : Nat} {o : Outc}
    (hb : SimFor I f P b s (.exc x) s1) (hcl : SimForC I f P cl x s1 (some o) s2)
    (ho : o ≠ .retry) : SimForR I f P b cl el s o s2 := by
  intro u c pc B M N L en hc hu h r D okb okc oke hE ba1 ba2 ba3 hclean hB hM hLe l1 l2 l3 l4 k1 k2 k3 k4
  obtain ⟨r', hr, _, res, hs, hp⟩ := simR_exc hb hcl (r := r) (D := D) okb okc hE ba1 ba2
    (fun hh => hclean (hh.elim .inl (.inr ∘ .inl))) l1 l3
  refine ⟨res, hs, .inl ?_⟩
  have hp' : Post I f P u c L hc hc r' D o s2 res := by
    cases o with
    | retry => exact absurd rfl ho
    | exc x => exact hp
    | unw w => exact hp
    | norm => exact hp
    | brk => exact hp
    | nxt => exact hp
    | ret v => exact hp
  exact Post.handlers (hp'.agree hr) (fun _ _ => rfl) (fun _ _ => k3)

theorem simR_again {b : Stmt} {cl : Clauses} {el : Stmt} {s s1 s2 s3 : σ} {x : Nat} {o : Outc}
    (hb : SimFor I f P b s (.exc x) s1) (hcl : SimForC I f P cl x s1 (some .retry) s2)
    (hr : SimForR I f P b cl el s2 o s3) : SimForR I f P b cl el s o s3 := by
  intro u c pc B M N L en hc hu h r D okb okc oke hE ba1 ba2 ba3 hclean hB hM hLe l1 l2 l3 l4 k1 k2 k3 k4
  obtain ⟨r', ha, _, res, hs, hp⟩ := simR_exc hb hcl (r := r) (D := D) okb okc hE ba1 ba2
    (fun hh => hclean (hh.elim .inl (.inr ∘ .inl))) l1 l3
  obtain ⟨r'', ha', rfl⟩ := hp pc c.retry rfl
  obtain ⟨res, hs', hp'⟩ := hr u c pc B M N L en hc hu h r'' D okb okc oke hE ba1 ba2 ba3 hclean
    hB hM hLe l1 l2 l3 l4 k1 k2 k3 k4
  have ag : Agree c.temp r r'' := ha.trans ha'
  refine ⟨res, hs.trans hs', ?_⟩
  rcases hp' with hp' | ⟨y, rfl, r3, ha3, hx, rfl⟩
  · exact .inl (hp'.agree ag)
  · exact .inr ⟨y, rfl, r3, ag.trans ha3, hx, rfl⟩

theorem simR_uncaught {b : Stmt} {cl : Clauses} {el : Stmt} {s s1 s2 : σ} {x : Nat}
    (hb : SimFor I f P b s (.exc x) s1) (hcl : SimForC I f P cl x s1 none s2) :
    SimForR I f P b cl el s (.exc x) s2 := by
  intro u c pc B M N L en hc hu h r D okb okc oke hE ba1 ba2 ba3 hclean hB hM hLe l1 l2 l3 l4 k1 k2 k3 k4
  obtain ⟨r', ha, hx, res, hs, rfl⟩ := simR_exc hb hcl (r := r) (D := D) okb okc hE ba1 ba2
    (fun hh => hclean (hh.elim .inl (.inr ∘ .inl))) l1 l3
  exact ⟨_, hs, .inr ⟨x, rfl, r', ha, hx, by rw [hM]⟩⟩

theorem simR_out {b : Stmt} {cl : Clauses} {el : Stmt} {s s1 : σ} {o : Outc}
    (hb : SimFor I f P b s o s1) (hev : Ev I b s o s1) (h1 : o ≠ .norm) (h2 : ∀ x, o ≠ .exc x) :
    SimForR I f P b cl el s o s1 := by
  intro u c pc B M N L en hc hu h r D okb okc oke hE ba1 ba2 ba3 hclean hB hM hLe l1 l2 l3 l4 k1 k2 k3 k4
  obtain ⟨res, hs, hp⟩ := hb u c pc _ r D okb ba1 (fun hh => hclean (.inl hh)) hE l1
  refine ⟨res, hs, .inl ?_⟩
  refine Post.handlers (Post.move h1 hp) (fun x hx => absurd hx (h2 x)) ?_
  rintro w rfl
  exact k2 _ _ _ hev

/-- Code of a region without ensure clause, after its parts. -/
theorem sim_beg {b : Stmt} {cl : Clauses} {el n : Stmt} {s s1 : σ} {o : Outc}
    (hr : SimForR I f P b cl el s o s1) : SimFor I f P (.beg false b cl el n) s o s1 := by
  intro u c pc h r D hok hbare hcl hE hL
  obtain ⟨okb, okc, oke, hnu⟩ := hok
  obtain ⟨B, M, N, L, hB, hM, hN, hLe, hlen, l1, l2, l3, _, l4, l5, _⟩ := beg_layout hE hL
  simp only [Bool.false_eq_true, if_false, Nat.add_zero] at *
  have hbareB : ∀ h', (u = false → h'.bind Entry.ens = none) → Bare u h' (blank :: c.ens) := by
    intro h' hh hu
    refine ⟨hh hu, ?_⟩
    intro g hg
    rcases List.mem_cons.1 hg with rfl | hg
    · rfl
    · exact (hbare hu).2 g hg
  obtain ⟨res, hs, hp⟩ := hr u { c with ens := blank :: c.ens } pc B M N L none h h h r D okb okc
    oke (good_blank hE) (hbareB _ (fun _ => rfl)) (hbareB _ (fun hu => (hbare hu).1))
    (hbareB _ (fun hu => (hbare hu).1)) (fun hh => hcl (by
      rcases hh with hh | hh | hh <;> simp [hasEns, hh])) hB hM hLe l1 l2 l3 l5 (fun _ _ _ _ => rfl)
    (by
      intro s w s' hev
      cases u with
      | true => exact absurd hev (hnu rfl s w s')
      | false => exact (hbare rfl).1.symm) rfl (fun _ _ _ _ => rfl)
  rw [hlen]
  rcases hp with hp | ⟨x, rfl, r', hr', hx, rfl⟩
  · refine ⟨res, hs, ?_⟩
    cases o with
    | norm => exact hp
    | exc x => exact hp
    | unw w => exact hp
    | retry => exact hp
    | brk =>
      intro l ls hl hd
      obtain ⟨p, r', rt, t, h', ha, ht, he, hLoc⟩ := hp l ls hl (by simp; omega)
      refine ⟨p, r', rt, t, h', ha, ht, he, ?_⟩
      rw [leaving_cons _ hd] at hLoc
      simpa [pend, blank, nil_app] using hLoc
    | nxt =>
      intro l ls hl hd
      obtain ⟨p, r', rt, t, h', ha, ht, he, hLoc⟩ := hp l ls hl (by simp; omega)
      refine ⟨p, r', rt, t, h', ha, ht, he, ?_⟩
      rw [leaving_cons _ hd] at hLoc
      simpa [pend, blank, nil_app] using hLoc
    | ret v =>
      rcases hp with ⟨p, r', lo, rt, t, h', k, ha, ht, he, hk, hv, hLoc⟩ | hp
      · refine .inl ⟨p, r', lo, rt, t, h', k, ha, ht, he, hk, hv, ?_⟩
        simpa [pend, blank, nil_app] using hLoc
      · exact .inr hp
  · refine ⟨raiseTo f h x ⟨N, r', D, s1⟩, hs.trans (Star.one ?_), N, r', hr', rfl⟩
    rw [← hN]
    rw [step_one l4]
    simp only [exec]
    rw [show r' c.temp = x from hx]

theorem sim_begEns {b : Stmt} {cl : Clauses} {el n : Stmt} {s s1 s2 : σ} {o e : Outc}
    (hr : SimForR I f P b cl el s o s1) (hev : EvR I b cl el s o s1) (hen : Ev I n s1 e s2)
    (hn : SimFor I f P n s1 e s2) : SimFor I f P (.beg true b cl el n) s (after o e) s2 := by
  intro u c pc h r D hok hbare hcl hE hL
  obtain ⟨okb, okc, oke, okn, hne, hfin, hf1, hf2, hnx, hnu⟩ := hok
  have he : e = .norm := hfin _ _ _ hen
  subst he
  have hD : Clean f D := hcl rfl
  rw [show after o .norm = o by simp [after]]
  obtain ⟨B, M, N, L, hB, hM, hN, hLe, hlen, l1, l2, l3, l3n, l4, l5, l6⟩ := beg_layout hE hL
  simp only [if_true] at *
  have l6 := l6 trivial
  have l3n := l3n trivial
  obtain ⟨res, hs, hp⟩ := hr true
    { c with ens := (fun lo rt t p => comp ⟨c.ens, lo, rt, t⟩ p n) :: c.ens } pc B M N L (some L)
    (some ⟨B + 1, M, M, some L, c.temp⟩) (some ⟨B + 1, M, M, some L, c.temp⟩) h r D okb okc
    oke (comp_clo hE n) (by intro h; cases h) (by intro h; cases h) (by intro h; cases h)
    (fun _ => hD) hB hM hLe l1 l2 l3 l5 (fun s x s' h => absurd h (hnx s x s'))
    (fun _ _ _ _ => rfl) rfl (fun s w s' h => absurd h (hnu s w s'))
  rw [hlen]
  have hexc : ∀ x r', Agree c.temp r r' → r' c.temp = x →
      ∃ res', Star I f P (.inl ⟨M, r', D, s1⟩) res' ∧
        Post I f P u c (L + ((comp c L n).len + 1)) h h r D (.exc x) s2 res' := by
    intro x r' hr' hx
    have l4' := l4
    rw [hN] at l4'
    obtain ⟨p', r'', hr'', hs'⟩ := copy_raise hE hn okn hne l3n l4' r' D hx
    exact ⟨_, hs', p', r'', hr'.trans hr'', rfl⟩
  rcases hp with hp | ⟨x, rfl, r', hr', hx, rfl⟩
  · cases o with
    | norm =>
      obtain ⟨r', hr, rfl⟩ := hp
      obtain ⟨r'', hr', hs'⟩ := tail_norm hE hn okn hne l6 r' hD
      exact ⟨_, hs.trans hs', r'', Agree.trans hr hr', rfl⟩
    | exc x =>
      obtain ⟨p, r', hr', rfl⟩ := hp
      obtain ⟨res', hs', hp'⟩ := hexc x (setReg r' c.temp x) (Agree.set hr' (Nat.le_refl _))
        (by simp [setReg])
      exact ⟨res', hs.trans hs', hp'⟩
    | unw w =>
      obtain ⟨p, r', hr, rfl⟩ := hp
      obtain ⟨p', r'', hr', hs'⟩ := tail_unw hE hn okn hne l6 (own := some ⟨B + 1, M, M, some L,
        c.temp⟩) rfl p r' hD w
      exact ⟨_, hs.trans hs', p', r'', Agree.trans hr hr', rfl⟩
    | retry =>
      rcases free_retryR hev rfl with hh | hh
      · rw [hf1] at hh; cases hh
      · rw [hf2] at hh; cases hh
    | brk =>
      rcases exit_region (u := u) (e' := L + ((comp c L n).len + 1)) (h := h) (h' := h) hE hn okn
        hne (.inl rfl) hp with hv | ⟨res', hs', hp'⟩
      · exact ⟨_, hs, post_vacuous hv⟩
      · exact ⟨res', hs.trans hs', hp'⟩
    | nxt =>
      rcases exit_region (u := u) (e' := L + ((comp c L n).len + 1)) (h := h) (h' := h) hE hn okn
        hne (.inr (.inl rfl)) hp with hv | ⟨res', hs', hp'⟩
      · exact ⟨_, hs, post_vacuous hv⟩
      · exact ⟨res', hs.trans hs', hp'⟩
    | ret v =>
      rcases exit_region (u := u) (e' := L + ((comp c L n).len + 1)) (h := h) (h' := h) hE hn okn
        hne (.inr (.inr ⟨v, rfl⟩)) hp with hv | ⟨res', hs', hp'⟩
      · exact ⟨_, hs, post_vacuous hv⟩
      · exact ⟨res', hs.trans hs', hp'⟩
  · obtain ⟨res', hs', hp'⟩ := hexc x r' hr' hx
    exact ⟨res', hs.trans hs', hp'⟩

mutual
theorem sim {s : Stmt} {a : σ} {o : Outc} {b : σ} (h : Ev I s a o b) : SimFor I f P s a o b := by
  match h with
  | .skip s => exact sim_skip s
  | .act k s => exact sim_act k s
  | .seq _ _ _ _ _ _ h1 h2 => exact sim_seq (sim h1) (sim h2)
  | .seqOut _ _ _ _ _ h1 h2 => exact sim_seqOut (sim h1) h2
  | .iteT _ _ _ _ _ _ _ h1 h2 => exact sim_iteT h1 (sim h2)
  | .iteF _ _ _ _ _ _ _ h1 h2 => exact sim_iteF h1 (sim h2)
  | .loopEnd _ _ _ _ h1 => exact sim_loopEnd h1
  | .loopMore _ _ _ _ _ _ _ _ h1 h2 h3 h4 => exact sim_loopMore h1 (sim h2) h3 (sim h4)
  | .loopBrk _ _ _ _ _ h1 h2 => exact sim_loopBrk h1 (sim h2)
  | .loopOut _ _ _ _ _ _ h1 h2 h3 h4 h5 => exact sim_loopOut h1 (sim h2) h3 h4 h5
  | .brk s => exact sim_brk s
  | .nxt s => exact sim_nxt s
  | .retry s => exact sim_retry s
  | .ret k s => exact sim_ret k s
  | .ens _ _ _ _ _ _ _ h1 h2 => exact sim_ens (sim h1) h1 h2 (sim h2)
  | .beg _ _ _ _ _ _ _ h1 => exact sim_beg (simR h1)
  | .begEns _ _ _ _ _ _ _ _ _ h1 h2 => exact sim_begEns (simR h1) h1 h2 (sim h2)

theorem simR {b : Stmt} {cl : Clauses} {el : Stmt} {s : σ} {o : Outc} {s' : σ}
    (h : EvR I b cl el s o s') : SimForR I f P b cl el s o s' := by
  match h with
  | .els _ _ _ _ _ _ _ h1 h2 => exact simR_els (sim h1) h2 (sim h2)
  | .caught _ _ _ _ _ _ _ _ h1 h2 h3 => exact simR_caught (sim h1) (simC h2) h3
  | .again _ _ _ _ _ _ _ _ _ h1 h2 h3 => exact simR_again (sim h1) (simC h2) (simR h3)
  | .uncaught _ _ _ _ _ _ _ h1 h2 => exact simR_uncaught (sim h1) (simC h2)
  | .out _ _ _ _ _ _ h1 h2 h3 => exact simR_out (sim h1) h1 h2 h3

theorem simC {cl : Clauses} {x : Nat} {s : σ} {oo : Option Outc} {s' : σ}
    (h : EvC I cl x s oo s') : SimForC I f P cl x s oo s' := by
  match h with
  | .nil x s => exact simC_nil x s
  | .hit _ _ _ _ _ _ _ _ h1 h2 => exact simC_hit h1 (sim h2)
  | .hitBind _ _ _ _ _ _ _ _ _ h1 h2 => exact simC_hitBind h1 (sim h2)
  | .miss _ _ _ _ _ _ _ _ _ h1 h2 => exact simC_miss h1 (simC h2)
  | .err _ _ _ _ _ _ _ _ h1 => exact simC_err h1
end

end Verif.Ensure
