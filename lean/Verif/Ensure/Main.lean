import Verif.Ensure.Sim

/-! # The simulation, by induction on the evaluation -/

namespace Verif.Ensure

variable {σ : Type} {I : Interp σ} {f : Nat} {P : Code}

/-! ## `retry` belongs to a clause -/

mutual
theorem free_retry {s : Stmt} {a : σ} {o : Outc} {b : σ} (h : Ev I s a o b) (ho : o = .retry) :
    freeRetry s = true := by
  match h with
  | .skip _ => cases ho
  | .act k s =>
    generalize I.act k s = q at ho
    obtain ⟨q, _⟩ := q
    cases q <;> cases ho
  | .seq _ _ _ _ _ _ _ h2 => simp [freeRetry, free_retry h2 ho]
  | .seqOut _ _ _ _ _ h1 _ => simp [freeRetry, free_retry h1 ho]
  | .iteT _ _ _ _ _ _ _ _ h2 => simp [freeRetry, free_retry h2 ho]
  | .iteF _ _ _ _ _ _ _ _ h2 => simp [freeRetry, free_retry h2 ho]
  | .loopEnd _ _ _ _ _ => cases ho
  | .loopMore _ _ _ _ _ _ _ _ _ _ _ h3 => exact free_retry h3 ho
  | .loopBrk _ _ _ _ _ _ _ => cases ho
  | .loopOut _ _ _ _ _ _ _ h2 _ _ _ => simp [freeRetry, free_retry h2 ho]
  | .brk _ => cases ho
  | .nxt _ => cases ho
  | .retry _ => rfl
  | .ret k s =>
    cases k <;> simp only [retOut] at ho
    · generalize I.act _ s = q at ho
      obtain ⟨q, _⟩ := q
      cases q <;> cases ho
    · cases ho
    · generalize I.act _ s = q at ho
      obtain ⟨q, _⟩ := q
      cases q <;> cases ho
  | .ens b n s o s1 e s2 h1 h2 =>
    have i1 := fun w => free_retry h1 w
    have i2 := fun w => free_retry h2 w
    unfold after at ho
    split at ho
    · simp [freeRetry, i1 ho]
    · simp [freeRetry, i2 ho]
  | .beg b cl el n s o s1 h1 =>
    have i1 := free_retryR h1 ho
    simp [freeRetry]
    rcases i1 with i | i <;> simp [i]
  | .begEns b cl el n s o s1 e s2 h1 h2 =>
    have i1 := fun w => free_retryR h1 w
    have i2 := fun w => free_retry h2 w
    unfold after at ho
    split at ho
    · rcases i1 ho with i | i <;> simp [freeRetry, i]
    · simp [freeRetry, i2 ho]

theorem free_retryR {b : Stmt} {cl : Clauses} {el : Stmt} {s : σ} {o : Outc} {s' : σ}
    (h : EvR I b cl el s o s') (ho : o = .retry) : freeRetry b = true ∨ freeRetry el = true := by
  match h with
  | .els _ _ _ _ _ _ _ _ h2 => exact .inr (free_retry h2 ho)
  | .caught _ _ _ _ _ _ _ _ _ _ h3 => exact absurd ho h3
  | .again _ _ _ _ _ _ _ _ _ _ _ h3 => exact free_retryR h3 ho
  | .uncaught _ _ _ _ _ _ _ _ _ => cases ho
  | .out _ _ _ _ _ _ h1 _ _ => exact .inl (free_retry h1 ho)
end

/-! ## The end of a region with an ensure clause -/

/-- The copy of the ensure clause at `ensure_label`, up to its `EnsureEnd`. -/
theorem tail_run {c : Ctx} {n : Stmt} {s1 s2 : σ} {L : Nat} {h : Option Entry}
    (hE : Good c.ens) (hn : SimFor I f P n s1 .norm s2) (hok : Ok I true n)
    (hne : hasEns n = false) (hL : Loc P L ((comp c L n).app (Code.one .ensureEnd)) h)
    (r : Nat → Nat) (D : List (Nat × Unw)) :
    ∃ r', Agree c.temp r r' ∧ Star I f P (.inl ⟨L, r, D, s1⟩)
      (finishEnsure f h ⟨L + (comp c L n).len, r', D, s2⟩) := by
  have h1 := loc_left' hL (within_one _ _)
  have h2 := loc_right hL (comp_within n c L hE)
  obtain ⟨res, hs, r', ha, rfl⟩ := hn true c L h r D hok (by intro h; cases h)
    (by rw [hne]; intro h; cases h) hE h1
  exact ⟨r', ha, hs.trans (Star.one (step_one h2 _ _ _))⟩

theorem tail_norm {c : Ctx} {n : Stmt} {s1 s2 : σ} {L : Nat} {h : Option Entry}
    (hE : Good c.ens) (hn : SimFor I f P n s1 .norm s2) (hok : Ok I true n)
    (hne : hasEns n = false) (hL : Loc P L ((comp c L n).app (Code.one .ensureEnd)) h)
    (r : Nat → Nat) {D : List (Nat × Unw)} (hD : Clean f D) :
    ∃ r', Agree c.temp r r' ∧ Star I f P (.inl ⟨L, r, D, s1⟩)
      (.inl ⟨L + (comp c L n).len + 1, r', D, s2⟩) := by
  obtain ⟨r', ha, hs⟩ := tail_run hE hn hok hne hL r D
  refine ⟨r', ha, ?_⟩
  have : finishEnsure f h ⟨L + (comp c L n).len, r', D, s2⟩ =
      .inl ⟨L + (comp c L n).len + 1, r', D, s2⟩ := by
    unfold finishEnsure
    match D, hD with
    | [], _ => rfl
    | (g, u) :: ds, hD =>
      dsimp only
      rw [if_neg (by rintro rfl; exact hD u ds rfl)]
  rwa [this] at hs

theorem tail_unw {c : Ctx} {n : Stmt} {s1 s2 : σ} {L : Nat} {h own : Option Entry}
    (hE : Good c.ens) (hn : SimFor I f P n s1 .norm s2) (hok : Ok I true n)
    (hne : hasEns n = false) (hL : Loc P L ((comp c L n).app (Code.one .ensureEnd)) h)
    (hown : own.bind Entry.ens = some L)
    (p : Nat) (r : Nat → Nat) {D : List (Nat × Unw)} (hD : Clean f D) (w : Unw) :
    ∃ p' r', Agree c.temp r r' ∧ Star I f P (unwTo f own w ⟨p, r, D, s1⟩)
      (unwTo f h w ⟨p', r', D, s2⟩) := by
  have hd : deferUnw f w D = (f, w) :: D := by
    match D, hD with
    | [], _ => rfl
    | (g, u) :: ds, hD =>
      simp only [deferUnw]
      rw [if_neg (by rintro rfl; exact hD u ds rfl)]
  have h0 : unwTo f own w ⟨p, r, D, s1⟩ = .inl ⟨L, r, (f, w) :: D, s1⟩ := by
    simp only [unwTo, hown, hd]
  obtain ⟨r', ha, hs⟩ := tail_run hE hn hok hne hL r ((f, w) :: D)
  refine ⟨L + (comp c L n).len, r', ha, ?_⟩
  rw [h0]
  have : finishEnsure f h ⟨L + (comp c L n).len, r', (f, w) :: D, s2⟩ =
      unwTo f h w ⟨L + (comp c L n).len, r', D, s2⟩ := by
    simp [finishEnsure]
  rwa [this] at hs

/-- The copy of the ensure clause on the path of an exception, and the `Raise` after it. -/
theorem copy_raise {c : Ctx} {n : Stmt} {s1 s2 : σ} {L : Nat} {h : Option Entry}
    (hE : Good c.ens) (hn : SimFor I f P n s1 .norm s2) (hok : Ok I true n)
    (hne : hasEns n = false)
    (h1 : Loc P L (comp { c with ens := blank :: c.ens, temp := c.temp + 1 } L n) h)
    (h2 : Loc P (L + (comp { c with ens := blank :: c.ens, temp := c.temp + 1 } L n).len)
      (Code.one (.raise c.temp)) h)
    (r : Nat → Nat) (D : List (Nat × Unw)) {x : Nat} (hx : r c.temp = x) :
    ∃ p' r', Agree c.temp r r' ∧ Star I f P (.inl ⟨L, r, D, s1⟩)
      (raiseTo f h x ⟨p', r', D, s2⟩) := by
  obtain ⟨res, hs, r', ha, rfl⟩ := hn true _ L h r D hok (by intro h; cases h)
    (by rw [hne]; intro h; cases h) (good_blank hE) h1
  refine ⟨L + (comp { c with ens := blank :: c.ens, temp := c.temp + 1 } L n).len, r',
    ha.mono (Nat.le_succ _), hs.trans (Star.one ?_)⟩
  rw [step_one h2]
  simp only [exec]
  rw [ha c.temp (Nat.lt_succ_self _), hx]

/-! ## The pieces of the code of a region -/

/-- `begin … ensure … end`. -/
theorem ens_layout {c : Ctx} {pc : Nat} {b n : Stmt} {h : Option Entry} (hE : Good c.ens)
    (H : Loc P pc (comp c pc (.ens b n)) h) :
    ∃ B N L : Nat,
      let cb : Ctx := { c with ens := (fun lo rt t p => comp ⟨c.ens, lo, rt, t⟩ p n) :: c.ens }
      let cx : Ctx := { c with ens := blank :: c.ens, temp := c.temp + 1 }
      B = pc + (comp cb pc b).len ∧ N = B + 1 + (comp cx (B + 1) n).len ∧ L = N + 1 ∧
      pc + (comp c pc (.ens b n)).len = L + (comp c L n).len + 1 ∧
      Loc P pc (comp cb pc b) (some ⟨pc, B, B + 1, some L, c.temp⟩) ∧
      Loc P B (Code.one (.br L)) h ∧
      Loc P (B + 1) (comp cx (B + 1) n) h ∧
      Loc P N (Code.one (.raise c.temp)) h ∧
      Loc P L ((comp c L n).app (Code.one .ensureEnd)) h := by
  simp only [comp] at H ⊢
  generalize hcb : ({ c with ens := (fun loops retry t p => comp ⟨c.ens, loops, retry, t⟩ p n)
    :: c.ens } : Ctx) = cb at H ⊢
  have hcbE : Good cb.ens := by rw [← hcb]; exact comp_clo hE n
  generalize hcx : ({ c with ens := blank :: c.ens, temp := c.temp + 1 } : Ctx) = cx at H ⊢
  have hcxE : Good cx.ens := by rw [← hcx]; exact good_blank hE
  rw [comp_len0 b hcbE 0 pc] at H ⊢
  have wB := comp_within b cb pc hcbE
  generalize comp cb pc b = Kb at H wB ⊢
  rw [comp_len0 n hcxE 0 (pc + Kb.len + 1)] at H ⊢
  have wN := comp_within n cx (pc + Kb.len + 1) hcxE
  generalize hKn : comp cx (pc + Kb.len + 1) n = Kn at H wN ⊢
  have wM := comp_within n c (pc + Kb.len + 1 + Kn.len + 1) hE
  generalize hKm : comp c (pc + Kb.len + 1 + Kn.len + 1) n = Km at H wM ⊢
  refine ⟨pc + Kb.len, pc + Kb.len + 1 + Kn.len, pc + Kb.len + 1 + Kn.len + 1, rfl, ?_, rfl, ?_,
    ?_, ?_, ?_, ?_, ?_⟩
  · rw [hKn]
  · rw [hKm]
    simp only [len_app, len_one, len_tab]; omega
  · have := loc_left (some ⟨pc, pc + Kb.len, pc + Kb.len + 1,
      some (pc + Kb.len + 1 + Kn.len + 1), c.temp⟩) H (by
        intro q h1 h2
        simp only [dest_app]
        rw [dest_none (within_one (pc + Kb.len) _) (Or.inl h2),
          dest_none wN (Or.inl (by omega)),
          dest_none (within_one (pc + Kb.len) _) (Or.inl h2)]
        simp [dest, h1, h2])
    simpa using this
  · have H1 := loc_right H wB
    have := loc_left none H1 (by
        intro q h1 h2
        simp only [len_one] at h2
        simp only [dest_app]
        rw [dest_none wN (Or.inl (by omega)), dest_none (within_one (pc + Kb.len + 1 + Kn.len) _)
          (Or.inl (by omega)), dest_none wM (Or.inl (by omega)),
          dest_none (within_one (pc + Kb.len + 1 + Kn.len) _) (Or.inl (by omega))]
        simp [dest]; intros; omega)
    simpa using this
  · rw [hKn]
    have H1 := loc_right (loc_right H wB) (within_one _ _)
    have := loc_left none H1 (by
        intro q h1 h2
        simp only [len_one] at h1 h2
        simp only [dest_app]
        rw [dest_none (within_one (pc + Kb.len + 1 + Kn.len) _)
          (Or.inl (by omega)), dest_none wM (Or.inl (by omega)),
          dest_none (within_one (pc + Kb.len + 1 + Kn.len) _) (Or.inl (by omega))]
        simp [dest]; intros; omega)
    simpa using this
  · have H1 := loc_right (loc_right (loc_right H wB) (within_one _ _)) (by simpa using wN)
    have := loc_left none H1 (by
        intro q h1 h2
        simp only [len_one] at h1 h2
        simp only [dest_app]
        rw [dest_none wM (Or.inl (by omega)),
          dest_none (within_one (pc + Kb.len + 1 + Kn.len + 1) _) (Or.inl (by omega))]
        simp [dest]; intros; omega)
    simpa using this
  · rw [hKm]
    have H1 := loc_right (loc_right (loc_right (loc_right H wB) (within_one _ _))
      (by simpa using wN)) (within_one _ _)
    have := loc_tab H1 (by
      intro q h1 h2
      simp only [len_one] at h1 h2
      simp [dest]; intros; omega)
    simpa using this

/-- `begin … rescue … else … [ensure …] end`. -/
theorem beg_layout {c : Ctx} {pc : Nat} {hb : Bool} {b : Stmt} {cl : Clauses} {el n : Stmt}
    {h : Option Entry} (hE : Good c.ens) (H : Loc P pc (comp c pc (.beg hb b cl el n)) h) :
    ∃ B M N L : Nat,
      let g : Clo := if hb then (fun lo rt t p => comp ⟨c.ens, lo, rt, t⟩ p n) else blank
      let cb : Ctx := { c with ens := g :: c.ens }
      let cr : Ctx := { c with ens := g :: c.ens, retry := pc :: c.retry }
      let cx : Ctx := { c with ens := blank :: c.ens, temp := c.temp + 1 }
      B = pc + (comp cb pc b).len ∧ M = B + 1 + (compC cr L (B + 1) cl).len ∧
      N = M + (if hb then (comp cx M n).len else 0) ∧
      L = N + 1 + (comp cb (N + 1) el).len ∧
      pc + (comp c pc (.beg hb b cl el n)).len =
        L + (if hb then (comp c L n).len + 1 else 0) ∧
      Loc P pc (comp cb pc b)
        (some ⟨pc, B, B + 1, if hb then some L else none, c.temp⟩) ∧
      Loc P B (Code.one (.br (N + 1))) h ∧
      Loc P (B + 1) (compC cr L (B + 1) cl)
        (if hb then some ⟨B + 1, M, M, some L, c.temp⟩ else h) ∧
      (hb = true → Loc P M (comp cx M n) h) ∧
      Loc P N (Code.one (.raise c.temp)) h ∧
      Loc P (N + 1) (comp cb (N + 1) el) h ∧
      (hb = true → Loc P L ((comp c L n).app (Code.one .ensureEnd)) h) := by
  simp only [comp] at H ⊢
  generalize hg0 : (if hb then fun loops retry t p => comp ⟨c.ens, loops, retry, t⟩ p n
        else blank : Clo) = g0 at H ⊢
  have hclo : SameLen g0 ∧ WithinClo g0 := by
    rw [← hg0]
    cases hb
    · exact ⟨blank_same, blank_within⟩
    · exact ⟨clo_same hE n, fun l r t p => comp_within n ⟨c.ens, l, r, t⟩ p hE⟩
  have hE1 := good_cons hclo hE
  have hE2 := good_blank hE
  generalize hcr : ({ c with ens := g0 :: c.ens, retry := pc :: c.retry } : Ctx) = cr at H ⊢
  have hcrE : Good cr.ens := by rw [← hcr]; exact hE1
  generalize hcb : ({ c with ens := g0 :: c.ens } : Ctx) = cb at H ⊢
  have hcbE : Good cb.ens := by rw [← hcb]; exact hE1
  generalize hcx : ({ c with ens := blank :: c.ens, temp := c.temp + 1 } : Ctx) = cx at H ⊢
  have hcxE : Good cx.ens := by rw [← hcx]; exact hE2
  rw [comp_len0 b hcbE 0 pc] at H ⊢
  have wB := comp_within b cb pc hcbE
  generalize comp cb pc b = Kb at H wB ⊢
  generalize hq : (compC cr 0 0 cl).len = q at H ⊢
  generalize hk : (if hb then (comp cx 0 n).len else 0) = k at H ⊢
  generalize hl : (comp cb 0 el).len = l at H ⊢
  have wC := compC_within cl cr (pc + Kb.len + 1 + q + k + 1 + l) (pc + Kb.len + 1) hcrE
  have lC : (compC cr (pc + Kb.len + 1 + q + k + 1 + l) (pc + Kb.len + 1) cl).len = q := by
    rw [← hq]
    exact compC_len cl cr.ens cr.loops cr.loops cr.retry cr.retry cr.temp cr.temp _ _ _ _
      hcrE.same rfl rfl
  have wN : Within (pc + Kb.len + 1 + q) (if hb then comp cx (pc + Kb.len + 1 + q) n
      else Code.nil) := by
    cases hb
    · exact within_nil _
    · exact comp_within n cx _ hcxE
  have lN : (if hb then comp cx (pc + Kb.len + 1 + q) n else Code.nil).len = k := by
    rw [← hk]
    cases hb
    · rfl
    · exact comp_len0 n hcxE _ _
  have wL := comp_within el cb (pc + Kb.len + 1 + q + k + 1) hcbE
  have lL : (comp cb (pc + Kb.len + 1 + q + k + 1) el).len = l := by
    rw [← hl]; exact comp_len0 el hcbE _ _
  have wM : Within (pc + Kb.len + 1 + q + k + 1 + l)
      (if hb then (comp c (pc + Kb.len + 1 + q + k + 1 + l) n).app (Code.one .ensureEnd)
      else Code.nil) := by
    cases hb
    · exact within_nil _
    · exact within_app (comp_within n c _ hE) (within_one _ _)
  refine ⟨pc + Kb.len, pc + Kb.len + 1 + q, pc + Kb.len + 1 + q + k,
    pc + Kb.len + 1 + q + k + 1 + l, rfl, ?_, ?_, ?_, ?_, ?_⟩
  · rw [lC]
  · have : (if hb then (comp cx (pc + Kb.len + 1 + q) n).len else 0) = k := by
      rw [← lN]; cases hb <;> rfl
    rw [this]
  · rw [lL]
  · simp only [len_app, len_one, len_tab, lC, lN, lL]
    cases hb <;> simp <;> omega
  have e1 : ∀ j i, j < pc + Kb.len ∨ pc + Kb.len + 1 ≤ j → dest (Code.one i).tab j = none :=
    fun j i _ => rfl
  -- entries of the region itself
  have own_b : ∀ j, pc ≤ j → j < pc + Kb.len → dest (⟨pc, pc + Kb.len, pc + Kb.len + 1,
      if hb then some (pc + Kb.len + 1 + q + k + 1 + l) else none, c.temp⟩ ::
      (if hb then [⟨pc + Kb.len + 1, pc + Kb.len + 1 + q, pc + Kb.len + 1 + q,
        some (pc + Kb.len + 1 + q + k + 1 + l), c.temp⟩] else [])) j =
      some ⟨pc, pc + Kb.len, pc + Kb.len + 1,
      if hb then some (pc + Kb.len + 1 + q + k + 1 + l) else none, c.temp⟩ := by
    intro j h1 h2
    unfold dest
    rw [List.find?_cons_of_pos (by simp; omega)]
  have own_c : ∀ j, pc + Kb.len + 1 ≤ j → j < pc + Kb.len + 1 + q →
      dest (⟨pc, pc + Kb.len, pc + Kb.len + 1,
      if hb then some (pc + Kb.len + 1 + q + k + 1 + l) else none, c.temp⟩ ::
      (if hb then [⟨pc + Kb.len + 1, pc + Kb.len + 1 + q, pc + Kb.len + 1 + q,
        some (pc + Kb.len + 1 + q + k + 1 + l), c.temp⟩] else [])) j =
      if hb then some ⟨pc + Kb.len + 1, pc + Kb.len + 1 + q, pc + Kb.len + 1 + q,
        some (pc + Kb.len + 1 + q + k + 1 + l), c.temp⟩ else none := by
    intro j h1 h2
    unfold dest
    rw [List.find?_cons_of_neg (by simp; omega)]
    cases hb
    · rfl
    · simp; omega
  have own_n : ∀ j, j = pc + Kb.len ∨ pc + Kb.len + 1 + q ≤ j →
      dest (⟨pc, pc + Kb.len, pc + Kb.len + 1,
      if hb then some (pc + Kb.len + 1 + q + k + 1 + l) else none, c.temp⟩ ::
      (if hb then [⟨pc + Kb.len + 1, pc + Kb.len + 1 + q, pc + Kb.len + 1 + q,
        some (pc + Kb.len + 1 + q + k + 1 + l), c.temp⟩] else [])) j = none := by
    intro j h1
    unfold dest
    rw [List.find?_cons_of_neg (by simp; omega)]
    cases hb
    · rfl
    · simp; omega
  have eOne : ∀ j i, dest (Code.one i).tab j = none := fun _ _ => rfl
  have hcx' : (hb = true → (if hb then comp cx (pc + Kb.len + 1 + q) n else Code.nil) =
      comp cx (pc + Kb.len + 1 + q) n) := by intro h; simp [h]
  have hm' : (hb = true → (if hb then (comp c (pc + Kb.len + 1 + q + k + 1 + l) n).app
      (Code.one .ensureEnd) else Code.nil) =
      (comp c (pc + Kb.len + 1 + q + k + 1 + l) n).app (Code.one .ensureEnd)) := by
    intro h; simp [h]
  generalize compC cr (pc + Kb.len + 1 + q + k + 1 + l) (pc + Kb.len + 1) cl = Kc at H wC lC ⊢
  generalize (if hb then comp cx (pc + Kb.len + 1 + q) n else Code.nil) = Kn at H wN lN hcx' ⊢
  generalize comp cb (pc + Kb.len + 1 + q + k + 1) el = Kl at H wL lL ⊢
  generalize (if hb then (comp c (pc + Kb.len + 1 + q + k + 1 + l) n).app (Code.one .ensureEnd)
      else Code.nil) = Km at H wM hm' ⊢
  generalize (⟨pc, pc + Kb.len, pc + Kb.len + 1,
      if hb then some (pc + Kb.len + 1 + q + k + 1 + l) else none, c.temp⟩ ::
      (if hb then [⟨pc + Kb.len + 1, pc + Kb.len + 1 + q, pc + Kb.len + 1 + q,
        some (pc + Kb.len + 1 + q + k + 1 + l), c.temp⟩] else []) : List Entry) = own
    at H own_b own_c own_n ⊢
  have H1 := loc_right H wB
  have H2 := loc_right H1 (within_one _ _)
  simp only [len_one] at H2
  have H3 := loc_right H2 wC
  rw [lC] at H3
  have H4 := loc_right H3 wN
  rw [lN] at H4
  have H5 := loc_right H4 (within_one _ _)
  simp only [len_one] at H5
  have H6 := loc_tab H5 (by intro j h1 h2; exact own_n j (Or.inr (by omega)))
  have H7 := loc_right H6 wL
  rw [lL] at H7
  refine ⟨?_, ?_, ?_, ?_, ?_, ?_, ?_⟩
  · have := loc_left (some ⟨pc, pc + Kb.len, pc + Kb.len + 1,
      if hb then some (pc + Kb.len + 1 + q + k + 1 + l) else none, c.temp⟩) H (by
        intro j h1 h2
        simp only [dest_app, eOne]
        rw [dest_none wC (Or.inl (by omega)), dest_none wN (Or.inl (by omega)), own_b j h1 h2]
        rfl)
    simpa using this
  · have := loc_left none H1 (by
        intro j h1 h2
        simp only [len_one] at h2
        simp only [dest_app, eOne]
        rw [dest_none wC (Or.inl (by omega)), dest_none wN (Or.inl (by omega)),
          own_n j (Or.inl (by omega)), dest_none wL (Or.inl (by omega)),
          dest_none wM (Or.inl (by omega))]
        rfl)
    simpa using this
  · have := loc_left (if hb then some ⟨pc + Kb.len + 1, pc + Kb.len + 1 + q, pc + Kb.len + 1 + q,
        some (pc + Kb.len + 1 + q + k + 1 + l), c.temp⟩ else none) H2 (by
        intro j h1 h2
        rw [lC] at h2
        simp only [dest_app, eOne]
        rw [dest_none wN (Or.inl (by omega)), own_c j h1 h2, dest_none wL (Or.inl (by omega)),
          dest_none wM (Or.inl (by omega))]
        cases hb <;> rfl)
    cases hb <;> simpa using this
  · intro hb'
    rw [← hcx' hb']
    have := loc_left none H3 (by
        intro j h1 h2
        rw [lN] at h2
        simp only [dest_app, eOne]
        rw [own_n j (Or.inr (by omega)), dest_none wL (Or.inl (by omega)),
          dest_none wM (Or.inl (by omega))]
        rfl)
    simpa using this
  · have := loc_left none H4 (by
        intro j h1 h2
        simp only [len_one] at h2
        simp only [dest_app]
        rw [own_n j (Or.inr (by omega)), dest_none wL (Or.inl (by omega)),
          dest_none wM (Or.inl (by omega))]
        rfl)
    simpa using this
  · exact loc_left' H6 (by rw [lL]; exact wM)
  · intro hb'
    rw [← hm' hb']
    exact H7

end Verif.Ensure
