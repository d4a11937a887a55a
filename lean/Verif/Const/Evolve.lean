import Verif.Const.Lemmas

/-! # What loading files and looking up constants may change -/

namespace Verif.Const

variable {home : Nat → Option Nat} {Q : Bool}

/-- The scopes a name may be defined in: names defined with the `class` or `module` keyword (those
with a `home`) have one scope, other names any. -/
def AllowedAt (home : Nat → Option Nat) (c n : Nat) : Prop := home n = none ∨ home n = some c

/-- A definition that keeps to `home`. -/
def Disc (home : Nat → Option Nat) : Def → Prop
  | .assign c n _ => AllowedAt home c n
  | .klass c n _ => home n = some c
  | .remove _ _ => True
  | .incl _ => True

def HomeOk (home : Nat → Option Nat) (w : World) : Prop :=
  ∀ c n h, home n = some h → w.tab c n ≠ none → c = h

/-- The effect of a file's body. -/
structure Ran (home : Nat → Option Nat) (w w' : World) : Prop where
  ver_le : w.ver ≤ w'.ver
  ep_le : ∀ n, w.epoch n ≤ w'.epoch n
  wild_le : w.wild ≤ w'.wild
  lex_eq : w'.lex = w.lex
  loaded_eq : w'.loaded = w.loaded
  log_eq : w'.log = w.log
  ver_eq : w'.ver = w.ver → (∀ n, w'.epoch n = w.epoch n) ∧ w'.wild = w.wild
  wild_eq : w'.wild = w.wild → w'.chain = w.chain
  tab_eq : ∀ n, w'.epoch n = w.epoch n → ∀ c, w'.tab c n = w.tab c n ∨
    (home n = some c ∧ isLoaded (w.tab c n) = false)
  ent : ∀ c n s', w'.tab c n = some s' → w.tab c n = some s' ∨ (isLoaded (some s') = true ∧
    ((s'.priv = false ∧ s'.depr = false) ∨
      ∃ s, w.tab c n = some s ∧ s'.priv = s.priv ∧ s'.depr = s.depr))
  home_ok : HomeOk home w → HomeOk home w'

theorem Ran.refl (w : World) : Ran home w w where
  ver_le := Nat.le_refl _
  ep_le := fun _ => Nat.le_refl _
  wild_le := Nat.le_refl _
  lex_eq := rfl
  loaded_eq := rfl
  log_eq := rfl
  ver_eq := fun _ => ⟨fun _ => rfl, rfl⟩
  wild_eq := fun _ => rfl
  tab_eq := fun _ _ _ => Or.inl rfl
  ent := fun _ _ _ h => Or.inl h
  home_ok := id

theorem Ran.trans {a b c : World} (h1 : Ran home a b) (h2 : Ran home b c) : Ran home a c where
  ver_le := Nat.le_trans h1.ver_le h2.ver_le
  ep_le := fun n => Nat.le_trans (h1.ep_le n) (h2.ep_le n)
  wild_le := Nat.le_trans h1.wild_le h2.wild_le
  lex_eq := h2.lex_eq.trans h1.lex_eq
  loaded_eq := h2.loaded_eq.trans h1.loaded_eq
  log_eq := h2.log_eq.trans h1.log_eq
  ver_eq := by
    intro h
    have l1 := h1.ver_le
    have l2 := h2.ver_le
    have e1 : b.ver = a.ver := by omega
    have e2 : c.ver = b.ver := by omega
    obtain ⟨p1, q1⟩ := h1.ver_eq e1
    obtain ⟨p2, q2⟩ := h2.ver_eq e2
    exact ⟨fun n => (p2 n).trans (p1 n), q2.trans q1⟩
  wild_eq := by
    intro h
    have l1 := h1.wild_le
    have l2 := h2.wild_le
    exact (h2.wild_eq (by omega)).trans (h1.wild_eq (by omega))
  tab_eq := by
    intro n h x
    have l1 := h1.ep_le n
    have l2 := h2.ep_le n
    have e1 : b.epoch n = a.epoch n := by omega
    have e2 : c.epoch n = b.epoch n := by omega
    rcases h1.tab_eq n e1 x with t1 | t1
    · rcases h2.tab_eq n e2 x with t2 | t2
      · exact Or.inl (t2.trans t1)
      · rw [t1] at t2; exact Or.inr t2
    · exact Or.inr t1
  ent := by
    intro x n s' h
    rcases h2.ent x n s' h with hb | ⟨hl, hf⟩
    · exact h1.ent x n s' hb
    · refine Or.inr ⟨hl, ?_⟩
      rcases hf with hf | ⟨s, hs, p, d⟩
      · exact Or.inl hf
      · rcases h1.ent x n s hs with ha | ⟨_, hf | ⟨t, ht, p', d'⟩⟩
        · exact Or.inr ⟨s, ha, p, d⟩
        · exact Or.inl ⟨p.trans hf.1, d.trans hf.2⟩
        · exact Or.inr ⟨t, ht, p.trans p', d.trans d'⟩
  home_ok := fun h => h2.home_ok (h1.home_ok h)

/-- Facts about a changed entry. -/
theorem storeConst_tab (w : World) (c n : Nat) (v : Val) (c' n' : Nat) :
    (storeConst w c n v).tab c' n' = if c' = c ∧ n' = n then
      some ⟨.loaded v, isPriv w c n, match w.tab c n with | some s => s.depr | none => false⟩
      else w.tab c' n' := by
  unfold storeConst isPriv
  cases h : w.tab c n <;> rfl

theorem storeConst_rest (w : World) (c n : Nat) (v : Val) :
    storeConst w c n v = { w with tab := (storeConst w c n v).tab } := by
  unfold storeConst
  cases h : w.tab c n <;> rfl

theorem storeConst_ent (w : World) (c n : Nat) (v : Val) (c' n' : Nat) (s' : CState)
    (h : (storeConst w c n v).tab c' n' = some s') :
    w.tab c' n' = some s' ∨ (isLoaded (some s') = true ∧
    ((s'.priv = false ∧ s'.depr = false) ∨
      ∃ s, w.tab c' n' = some s ∧ s'.priv = s.priv ∧ s'.depr = s.depr)) := by
  rw [storeConst_tab] at h
  split_ifs at h with hc
  · obtain ⟨rfl, rfl⟩ := hc
    injection h with h
    subst h
    refine Or.inr ⟨rfl, ?_⟩
    unfold isPriv
    cases ht : w.tab c' n' with
    | none => exact Or.inl ⟨rfl, rfl⟩
    | some s => exact Or.inr ⟨s, rfl, rfl, rfl⟩
  · exact Or.inl h

theorem storeConst_home (w : World) (c n : Nat) (v : Val) (ha : AllowedAt home c n)
    (h : HomeOk home w) : HomeOk home (storeConst w c n v) := by
  intro c' n' x hx ht
  rw [storeConst_tab] at ht
  split_ifs at ht with hc
  · obtain ⟨rfl, rfl⟩ := hc
    rcases ha with ha | ha
    · rw [ha] at hx; cases hx
    · rw [ha] at hx; injection hx
  · exact h c' n' x hx ht

theorem setConst_ran (w : World) (c n : Nat) (v : Val) (ha : AllowedAt home c n) :
    Ran home w (setConst w c n v) := by
  have hr : setConst w c n v = { w.bump n with tab := (storeConst (w.bump n) c n v).tab } :=
    storeConst_rest (w.bump n) c n v
  have hv : (setConst w c n v).ver = w.ver + 1 := by rw [hr]; rfl
  have he : ∀ m, (setConst w c n v).epoch m = if m = n then w.epoch n + 1 else w.epoch m := by
    intro m; rw [hr]; rfl
  refine ⟨by omega, ?_, by rw [hr]; exact Nat.le_refl _, by rw [hr]; rfl, by rw [hr]; rfl,
    by rw [hr]; rfl, by intro h; omega, by intro _; rw [hr]; rfl, ?_, ?_, ?_⟩
  · intro m; rw [he]; split_ifs with hm
    · subst hm; omega
    · exact Nat.le_refl _
  · intro m hm x
    rw [he] at hm
    split_ifs at hm with hn
    · subst hn; omega
    · left
      show (storeConst (w.bump n) c n v).tab x m = _
      rw [storeConst_tab, if_neg (fun h => hn h.2)]
      rfl
  · exact fun x m s' h => storeConst_ent (w.bump n) c n v x m s' h
  · exact fun h => storeConst_home (w.bump n) c n v ha h

theorem removeConst_ran (w : World) (c n : Nat) : Ran home w (removeConst w c n) := by
  have he : ∀ m, (removeConst w c n).epoch m = if m = n then w.epoch n + 1 else w.epoch m :=
    fun _ => rfl
  have ht : ∀ x m, (removeConst w c n).tab x m = if x = c ∧ m = n then none else w.tab x m :=
    fun _ _ => rfl
  have hv : (removeConst w c n).ver = w.ver + 1 := rfl
  refine ⟨by omega, ?_, Nat.le_refl _, rfl, rfl, rfl, by intro h; omega, fun _ => rfl, ?_, ?_, ?_⟩
  · intro m; rw [he]; split_ifs with hm
    · subst hm; omega
    · exact Nat.le_refl _
  · intro m hm x
    rw [he] at hm
    split_ifs at hm with hn
    · subst hn; omega
    · left; rw [ht, if_neg (fun h => hn h.2)]
  · intro x m s' h
    rw [ht] at h
    split_ifs at h with hc
    exact Or.inl h
  · intro h x m y hy hm
    rw [ht] at hm
    split_ifs at hm with hc
    · exact absurd rfl hm
    · exact h x m y hy hm

theorem includeMod_ran (w : World) (ch : Nat → List Nat) : Ran home w (includeMod w ch) := by
  have hv : (includeMod w ch).ver = w.ver + 1 := rfl
  have hw : (includeMod w ch).wild = w.wild + 1 := rfl
  exact ⟨by omega, fun _ => Nat.le_refl _, by omega, rfl, rfl, rfl, fun h => by omega,
    fun h => by omega, fun _ _ _ => Or.inl rfl, fun _ _ _ h => Or.inl h, id⟩

theorem klass_ran (w : World) (c n : Nat) (v : Val) (hh : home n = some c)
    (hl : isLoaded (w.tab c n) = false) : Ran home w (storeConst w c n v) := by
  have hr := storeConst_rest w c n v
  have ht := storeConst_tab w c n v
  have hent := storeConst_ent w c n v
  have hho := storeConst_home (home := home) w c n v (Or.inr hh)
  generalize storeConst w c n v = w' at *
  refine ⟨by rw [hr]; exact Nat.le_refl _, fun m => by rw [hr]; exact Nat.le_refl _,
    by rw [hr]; exact Nat.le_refl _, by rw [hr], by rw [hr], by rw [hr], ?_,
    by intro _; rw [hr], ?_, hent, hho⟩
  · intro _; rw [hr]; exact ⟨fun _ => rfl, rfl⟩
  · intro m _ x
    by_cases hc : x = c ∧ m = n
    · obtain ⟨rfl, rfl⟩ := hc; exact Or.inr ⟨hh, hl⟩
    · left; rw [ht, if_neg hc]

theorem verBump_ran (w : World) : Ran home w { w with ver := w.ver + 1 } :=
  ⟨Nat.le_succ _, fun _ => Nat.le_refl _, Nat.le_refl _, rfl, rfl, rfl, fun h => by
    simp only at h; omega, fun _ => rfl, fun _ _ _ => Or.inl rfl, fun _ _ _ h => Or.inl h, id⟩

theorem runDef_ran (w : World) (d : Def) (hd : Disc home d) : Ran home w (runDef w d) := by
  cases d with
  | assign c n v => exact (verBump_ran w).trans (setConst_ran _ c n v hd)
  | klass c n v =>
    show Ran home w (if isLoaded (w.tab c n) = true then w else storeConst w c n v)
    by_cases hl : isLoaded (w.tab c n) = true
    · rw [if_pos hl]; exact Ran.refl w
    · rw [if_neg hl]; exact klass_ran w c n v hd (by simpa using hl)
  | remove c n => exact removeConst_ran w c n
  | incl ch => exact includeMod_ran w ch

theorem runDefs_ran (ds : List Def) : ∀ (w : World) (_ : ∀ d ∈ ds, Disc home d),
    Ran home w (runDefs w ds) := by
  induction ds with
  | nil => exact fun w _ => Ran.refl w
  | cons d ds ih =>
    intro w h
    exact (runDef_ran w d (h d (by simp))).trans (ih _ fun x hx => h x (by simp [hx]))

/-- Every file keeps to `home`. -/
def EnvOk (home : Nat → Option Nat) (E : Env) : Prop := ∀ f, ∀ d ∈ (E.body f).1, Disc home d

/-- The state between operations. -/
structure WF (home : Nat → Option Nat) (Q : Bool) (w : World) : Prop where
  depr : ∀ c n s, w.tab c n = some s → s.depr = false
  priv : Q = false → ∀ c n s, w.tab c n = some s → s.priv = false
  auto : ∀ c n f st p d, w.tab c n = some ⟨.auto f st, p, d⟩ →
    st ≠ .loading ∧ (st = .consumed → f ∈ w.loaded)
  homeOk : HomeOk home w

theorem WF.noPriv {w : World} (h : WF home false w) : NoPriv w := by
  intro c n
  unfold isPriv
  split
  · exact h.priv rfl _ _ _ (by assumption)
  · rfl

/-- How an operation may change what lookups see: without a bump of the name, a value stays, and
(for a name without home) so does the absence. -/
structure Evolve (home : Nat → Option Nat) (w w' : World) : Prop where
  ver_le : w.ver ≤ w'.ver
  ep_le : ∀ n, w.epoch n ≤ w'.epoch n
  wild_le : w.wild ≤ w'.wild
  lex_eq : w'.lex = w.lex
  ver_eq : w'.ver = w.ver → (∀ n, w'.epoch n = w.epoch n) ∧ w'.wild = w.wild
  wild_eq : w'.wild = w.wild → w'.chain = w.chain
  keeps : ∀ n, w'.epoch n = w.epoch n → ∀ c r, pget (w.tab c n) = some r →
    (home n = none ∨ r ≠ none) → pget (w'.tab c n) = some r

theorem Evolve.refl (w : World) : Evolve home w w :=
  ⟨Nat.le_refl _, fun _ => Nat.le_refl _, Nat.le_refl _, rfl, fun _ => ⟨fun _ => rfl, rfl⟩,
    fun _ => rfl, fun _ _ _ _ h _ => h⟩

theorem Evolve.trans {a b c : World} (h1 : Evolve home a b) (h2 : Evolve home b c) :
    Evolve home a c where
  ver_le := Nat.le_trans h1.ver_le h2.ver_le
  ep_le := fun n => Nat.le_trans (h1.ep_le n) (h2.ep_le n)
  wild_le := Nat.le_trans h1.wild_le h2.wild_le
  lex_eq := h2.lex_eq.trans h1.lex_eq
  ver_eq := by
    intro h
    have l1 := h1.ver_le
    have l2 := h2.ver_le
    obtain ⟨p1, q1⟩ := h1.ver_eq (by omega)
    obtain ⟨p2, q2⟩ := h2.ver_eq (by omega)
    exact ⟨fun n => (p2 n).trans (p1 n), q2.trans q1⟩
  wild_eq := by
    intro h
    have l1 := h1.wild_le
    have l2 := h2.wild_le
    exact (h2.wild_eq (by omega)).trans (h1.wild_eq (by omega))
  keeps := by
    intro n h x r hr hh
    have l1 := h1.ep_le n
    have l2 := h2.ep_le n
    exact h2.keeps n (by omega) x r (h1.keeps n (by omega) x r hr hh) hh

theorem pget_loaded {s : Option CState} {v : Val} (h : pget s = some (some v)) :
    isLoaded s = true := by
  rcases s with _ | ⟨k, p, d⟩
  · simp [pget] at h
  · rcases k with u | ⟨f, st⟩
    · rfl
    · cases st <;> simp [pget] at h

theorem Ran.evolve {w w' : World} (h : Ran home w w') : Evolve home w w' where
  ver_le := h.ver_le
  ep_le := h.ep_le
  wild_le := h.wild_le
  lex_eq := h.lex_eq
  ver_eq := h.ver_eq
  wild_eq := h.wild_eq
  keeps := by
    intro n he c r hr hh
    rcases h.tab_eq n he c with ht | ⟨hh', hl⟩
    · rw [ht]; exact hr
    · rcases hh with hn | hn
      · rw [hn] at hh'; cases hh'
      · cases r with
        | none => exact absurd rfl hn
        | some v => rw [pget_loaded hr] at hl; cases hl

theorem Ran.wf {w w' : World} (h : Ran home w w') (hw : WF home Q w) : WF home Q w' where
  depr := by
    intro c n s hs
    rcases h.ent c n s hs with h1 | ⟨_, h1 | ⟨t, ht, _, hd⟩⟩
    · exact hw.depr c n s h1
    · exact h1.2
    · rw [hd]; exact hw.depr c n t ht
  priv := by
    intro hq c n s hs
    rcases h.ent c n s hs with h1 | ⟨_, h1 | ⟨t, ht, hp, _⟩⟩
    · exact hw.priv hq c n s h1
    · exact h1.1
    · rw [hp]; exact hw.priv hq c n t ht
  auto := by
    intro c n f st p d hs
    rcases h.ent c n _ hs with h1 | ⟨hl, _⟩
    · rw [h.loaded_eq]; exact hw.auto c n f st p d h1
    · simp [isLoaded] at hl
  homeOk := h.home_ok hw.homeOk

theorem markState_some {a : AState} {s : Option CState} {t : CState} (h : markState a s = some t) :
    ∃ s0, s = some s0 ∧ t.priv = s0.priv ∧ t.depr = s0.depr ∧
      ((∃ v, t.kind = .loaded v ∧ s0.kind = .loaded v) ∨
        ∃ g b, t.kind = .auto g a ∧ s0.kind = .auto g b) := by
  rcases s with _ | ⟨k, p, d⟩
  · simp [markState] at h
  · rcases k with v | ⟨g, b⟩
    · simp [markState] at h
      subst h
      exact ⟨_, rfl, rfl, rfl, Or.inl ⟨v, rfl, rfl⟩⟩
    · simp [markState] at h
      subst h
      exact ⟨_, rfl, rfl, rfl, Or.inr ⟨g, b, rfl, rfl⟩⟩

/-- Without side effects to read, an entry is not one of a feature that is being loaded. -/
theorem not_auto {w : World} (hw : WF home Q w) {c n f : Nat} {r : Option Val}
    (hf : f ∉ w.loaded) (h : pget (w.tab c n) = some r) : isAuto f (w.tab c n) = false := by
  rcases ht : w.tab c n with _ | ⟨k, p, d⟩
  · rfl
  · rcases k with v | ⟨g, st⟩
    · rfl
    · obtain ⟨h1, h2⟩ := hw.auto c n g st p d ht
      rw [ht] at h
      cases st with
      | idle => simp [pget] at h
      | loading => exact absurd rfl h1
      | consumed =>
        have := h2 rfl
        simp only [isAuto, beq_eq_false_iff_ne, ne_eq]
        rintro rfl
        exact hf this

/-- Loading a file: the net effect. -/
theorem load_net {w w2 w3 : World} {f : Nat} {a : AState} (hw : WF home Q w) (hf : f ∉ w.loaded)
    (hr : Ran home (startLoad w f) w2)
    (ha : a = .idle ∨ a = .consumed) (hl : a = .consumed → f ∈ w3.loaded)
    (hsub : ∀ g ∈ w.loaded, g ∈ w3.loaded)
    (htab : w3.tab = (markAll (autosOf w f) a w2).tab)
    (hver : w3.ver = w2.ver) (hep : w3.epoch = w2.epoch) (hwild : w3.wild = w2.wild)
    (hlex : w3.lex = w2.lex) (hchain : w3.chain = w2.chain) :
    Evolve home w w3 ∧ WF home Q w3 := by
  have htab' : ∀ c n, w3.tab c n = if isAuto f (w.tab c n) = true then markState a (w2.tab c n)
      else w2.tab c n := by intro c n; rw [htab]; rfl
  have hsrc : ∀ c n s, w3.tab c n = some s → ∃ s2, w2.tab c n = some s2 ∧ s.priv = s2.priv ∧
      s.depr = s2.depr := by
    intro c n s hs
    rw [htab'] at hs
    split_ifs at hs with hm
    · obtain ⟨s0, h0, hp, hd, _⟩ := markState_some hs
      exact ⟨s0, h0, hp, hd⟩
    · exact ⟨s, hs, rfl, rfl⟩
  have hent : ∀ c n s, w2.tab c n = some s →
      (∃ s0, w.tab c n = some s0 ∧ s.priv = s0.priv ∧ s.depr = s0.depr) ∨
      (s.priv = false ∧ s.depr = false) := by
    intro c n s hs
    have hflag : ∀ t, (if isAuto f (w.tab c n) = true then markState AState.loading (w.tab c n)
        else w.tab c n) = some t → ∃ s0, w.tab c n = some s0 ∧ t.priv = s0.priv ∧
          t.depr = s0.depr := by
      intro t ht
      split_ifs at ht with hm
      · obtain ⟨s0, h0, hp, hd, _⟩ := markState_some ht
        exact ⟨s0, h0, hp, hd⟩
      · exact ⟨t, ht, rfl, rfl⟩
    rcases hr.ent c n s hs with h1 | ⟨_, h1 | ⟨t, ht, hp, hd⟩⟩
    · exact Or.inl (hflag s h1)
    · exact Or.inr h1
    · obtain ⟨s0, h0, hp', hd'⟩ := hflag t ht
      exact Or.inl ⟨s0, h0, hp.trans hp', hd.trans hd'⟩
  constructor
  · refine ⟨by rw [hver]; exact hr.ver_le, fun n => by rw [hep]; exact hr.ep_le n,
      by rw [hwild]; exact hr.wild_le, by rw [hlex]; exact hr.lex_eq, ?_, ?_, ?_⟩
    · rw [hver, hep, hwild]; exact hr.ver_eq
    · rw [hwild, hchain]; exact hr.wild_eq
    · intro n he c r hp hh
      have hm := not_auto hw hf hp
      rw [htab', hm]
      rw [hep] at he
      simp only [Bool.false_eq_true, if_false]
      have := hr.evolve.keeps n he c r (by
        show pget (if isAuto f (w.tab c n) = true then _ else w.tab c n) = _
        rw [hm]; exact hp) hh
      exact this
  · refine ⟨?_, ?_, ?_, ?_⟩
    · intro c n s hs
      obtain ⟨s2, h2, _, hd⟩ := hsrc c n s hs
      rcases hent c n s2 h2 with ⟨s0, h0, _, hd'⟩ | h'
      · rw [hd, hd']; exact hw.depr c n s0 h0
      · rw [hd]; exact h'.2
    · intro hq c n s hs
      obtain ⟨s2, h2, hp, _⟩ := hsrc c n s hs
      rcases hent c n s2 h2 with ⟨s0, h0, hp', _⟩ | h'
      · rw [hp, hp']; exact hw.priv hq c n s0 h0
      · rw [hp]; exact h'.1
    · intro c n g st p d hs
      rw [htab'] at hs
      split_ifs at hs with hm
      · obtain ⟨s0, h0, _, _, ⟨v, hv, _⟩ | ⟨g', b, hk, hk0⟩⟩ := markState_some hs
        · cases hv
        · injection hk with hg hst
          subst hst
          refine ⟨by rcases ha with rfl | rfl <;> simp, fun hc => ?_⟩
          rcases hr.ent c n s0 h0 with h1 | ⟨hl', _⟩
          · have h1' : (if isAuto f (w.tab c n) = true then markState AState.loading (w.tab c n)
                else w.tab c n) = some s0 := h1
            rw [if_pos hm] at h1'
            obtain ⟨t0, ht0, _, _, ⟨v, hv, _⟩ | ⟨g2, b2, hk2, hk3⟩⟩ := markState_some h1'
            · rw [hk0] at hv; cases hv
            · rw [hk0] at hk2
              injection hk2 with hg2 _
              have hfg : f = g := by
                rw [ht0] at hm
                rcases t0 with ⟨k, p0, d0⟩
                simp only at hk3
                subst hk3
                simp only [isAuto, beq_iff_eq] at hm
                rw [hm, ← hg2, ← hg]
              rw [← hfg]; exact hl hc
          · rcases s0 with ⟨k, p0, d0⟩
            simp only at hk0
            subst hk0
            simp [isLoaded] at hl'
      · rcases hr.ent c n _ hs with h1 | ⟨hl', _⟩
        · have h1' : (if isAuto f (w.tab c n) = true then markState AState.loading (w.tab c n)
                else w.tab c n) = some _ := h1
          rw [if_neg hm] at h1'
          obtain ⟨h2, h3⟩ := hw.auto c n g st p d h1'
          exact ⟨h2, fun hc => hsub g (h3 hc)⟩
        · simp [isLoaded] at hl'
    · intro c n h hh ht
      have h2 : w2.tab c n ≠ none := by
        intro h0
        apply ht
        rw [htab', h0]
        split_ifs <;> rfl
      refine hr.home_ok ?_ c n h hh h2
      intro c' n' h' hh' ht'
      apply hw.homeOk c' n' h' hh'
      intro h0
      apply ht'
      show (if isAuto f (w.tab c' n') = true then markState AState.loading (w.tab c' n')
                else w.tab c' n') = none
      rw [h0]; rfl

theorem require_net (E : Env) (hE : EnvOk home E) {w : World} (hw : WF home Q w) (f : Nat) :
    Evolve home w (require E w f).2 ∧ WF home Q (require E w f).2 := by
  have hr := runDefs_ran (home := home) (E.body f).1
    (startLoad w f) (hE f)
  unfold require endLoad
  split_ifs with hf hb
  · exact ⟨Evolve.refl w, hw⟩
  · refine load_net hw hf hr (a := .consumed) (Or.inr rfl) ?_ ?_ rfl rfl rfl rfl rfl rfl
    · intro _
      show f ∈ (runDefs _ _).loaded
      rw [hr.loaded_eq]; exact List.mem_cons_self
    · intro g hg
      show g ∈ (runDefs _ _).loaded
      rw [hr.loaded_eq]; exact List.mem_cons_of_mem _ hg
  · exact load_net hw hf hr (a := .idle) (Or.inl rfl) (by simp) (fun g hg => hg)
      rfl rfl rfl rfl rfl rfl

/-- Marking the entry before the `require` makes no difference to a file that is run. -/
theorem require_marked (E : Env) (w : World) (c n f : Nat) (hf : f ∉ w.loaded)
    (ha : isAuto f (w.tab c n) = true) :
    require E (w.put c n (markState .loading (w.tab c n))) f = require E w f := by
  have hi : ∀ s a, isAuto f (markState a s) = isAuto f s := by
    intro s a
    rcases s with _ | ⟨k, p, d⟩
    · rfl
    · cases k <;> rfl
  have hm : autosOf (w.put c n (markState .loading (w.tab c n))) f = autosOf w f := by
    funext c' n'
    show isAuto f (if c' = c ∧ n' = n then _ else _) = isAuto f (w.tab c' n')
    split_ifs with h
    · obtain ⟨rfl, rfl⟩ := h; exact hi _ _
    · rfl
  have hs : startLoad (w.put c n (markState .loading (w.tab c n))) f = startLoad w f := by
    unfold startLoad
    rw [hm]
    unfold markAll World.put
    simp only [World.mk.injEq, and_self, and_true]
    funext c' n'
    by_cases h : c' = c ∧ n' = n
    · obtain ⟨rfl, rfl⟩ := h
      have ha' : autosOf w f c' n' = true := ha
      rw [if_pos ha']
      simp only [and_self, if_true, ha']
      rcases w.tab c' n' with _ | ⟨k, p, d⟩
      · rfl
      · cases k <;> rfl
    · rw [if_neg h]
  unfold require
  have hl : (w.put c n (markState .loading (w.tab c n))).loaded = w.loaded := rfl
  rw [hl, if_neg hf, if_neg hf, hm, hs]

theorem put_self (w : World) (c n : Nat) : w.put c n (w.tab c n) = w := by
  unfold World.put
  have : (fun c' n' => if c' = c ∧ n' = n then w.tab c n else w.tab c' n') = w.tab := by
    funext c' n'
    split_ifs with h
    · rw [h.1, h.2]
    · rfl
  rw [this]

theorem require_false_idle (E : Env) (w w' : World) (c n f : Nat)
    (h : require E w f = (false, w')) (ha : isAuto f (w.tab c n) = true) :
    markState .idle (w'.tab c n) = w'.tab c n := by
  unfold require endLoad at h
  split_ifs at h with hf hb
  · injection h with h1 _; cases h1
  · injection h with h1 _; cases h1
  · injection h with _ h2
    rw [← h2]
    show markState _ (if isAuto f (w.tab c n) = true then markState _ ((runDefs _ _).tab c n) else _)
      = if isAuto f (w.tab c n) = true then markState _ ((runDefs _ _).tab c n) else _
    rw [if_pos ha]
    rcases (runDefs _ _).tab c n with _ | ⟨k, p, d⟩
    · rfl
    · cases k <;> rfl

theorem removeConst_put (w : World) (c n : Nat) (s : Option CState) :
    removeConst (w.put c n s) c n = removeConst w c n := by
  unfold removeConst World.put World.bump
  simp only [World.mk.injEq, and_self, and_true]
  funext c' n'
  split_ifs <;> rfl

/-- `autoload` in terms of `require`. -/
theorem autoload_eq (E : Env) (w : World) (c n f : Nat) (p d : Bool)
    (ht : w.tab c n = some ⟨.auto f .idle, p, d⟩) :
    autoload E w c n f = if f ∈ w.loaded then (.ok none, removeConst w c n) else
      match require E w f with
      | (true, w') => afterLoad w' c n
      | (false, w') => (.error (.load f), w') := by
  have ha : isAuto f (w.tab c n) = true := by rw [ht]; simp [isAuto]
  unfold autoload
  split_ifs with hf
  · have hr : require E (w.put c n (markState .loading (w.tab c n))) f =
        (true, w.put c n (markState .loading (w.tab c n))) := by
      unfold require
      have hl : (w.put c n (markState .loading (w.tab c n))).loaded = w.loaded := rfl
      rw [hl, if_pos hf]
    rw [hr]
    simp only
    unfold afterLoad
    have hx : (w.put c n (markState .loading (w.tab c n))).tab c n =
        some ⟨.auto f .loading, p, d⟩ := by
      show (if c = c ∧ n = n then _ else _) = _
      rw [if_pos ⟨rfl, rfl⟩, ht]; rfl
    rw [hx]
    simp only
    rw [removeConst_put]
  · rw [require_marked E w c n f hf ha]
    rcases hr : require E w f with ⟨b, w'⟩
    cases b with
    | true => rfl
    | false =>
      simp only
      rw [require_false_idle E w w' c n f hr ha, put_self]

/-- Reading one entry. -/
theorem getConst_net (E : Env) (hE : EnvOk home E) {w : World} (hw : WF home Q w) (c n : Nat) :
    Evolve home w (getConst E w c n).2 ∧ WF home Q (getConst E w c n).2 ∧
    ∀ x, (getConst E w c n).1 = .ok x → pget ((getConst E w c n).2.tab c n) = some x := by
  rcases hp : pget (w.tab c n) with _ | x
  · rcases ht : w.tab c n with _ | ⟨k, p, d⟩
    · rw [ht] at hp; simp [pget] at hp
    · rcases k with v | ⟨f, st⟩
      · cases d with
        | false => rw [ht] at hp; simp [pget] at hp
        | true => have := hw.depr c n _ ht; cases this
      · cases st with
        | loading => rw [ht] at hp; simp [pget] at hp
        | consumed => rw [ht] at hp; simp [pget] at hp
        | idle =>
          have hg : getConst E w c n = autoload E w c n f := by unfold getConst; rw [ht]
          rw [hg, autoload_eq E w c n f p d ht]
          have hrem : ∀ u : World, (removeConst u c n).tab c n = none := by
            intro u
            show (if c = c ∧ n = n then none else _) = none
            rw [if_pos ⟨rfl, rfl⟩]
          have hremr : ∀ u : World, WF home Q u → Evolve home u (removeConst u c n) ∧
              WF home Q (removeConst u c n) := fun u hu =>
            ⟨(removeConst_ran u c n).evolve, (removeConst_ran u c n).wf hu⟩
          split_ifs with hf
          · refine ⟨(hremr w hw).1, (hremr w hw).2, ?_⟩
            intro x hx
            simp only [Except.ok.injEq] at hx
            rw [hrem, ← hx]; rfl
          · obtain ⟨hev, hwf⟩ := require_net E hE hw f
            rcases hr : require E w f with ⟨b, w'⟩
            rw [hr] at hev hwf
            simp only at hev hwf
            cases b with
            | false => exact ⟨hev, hwf, by intro x hx; cases hx⟩
            | true =>
              simp only
              unfold afterLoad
              rcases ht' : w'.tab c n with _ | ⟨k', p', d'⟩
              · refine ⟨hev, hwf, ?_⟩
                intro x hx
                simp only [Except.ok.injEq] at hx
                simp only [ht', ← hx, pget]
              · rcases k' with v | ⟨f', st'⟩
                · refine ⟨hev, hwf, ?_⟩
                  intro x hx
                  simp only [Except.ok.injEq] at hx
                  have hd := hwf.depr c n _ ht'
                  simp only at hd
                  subst hd
                  simp only [ht', ← hx, pget]
                · refine ⟨hev.trans (hremr w' hwf).1, (hremr w' hwf).2, ?_⟩
                  intro x hx
                  simp only [Except.ok.injEq] at hx
                  rw [hrem, ← hx]; rfl
  · rw [getConst_pure E w c n x hp]
    exact ⟨Evolve.refl w, hw, by intro y hy; simp only [Except.ok.injEq] at hy; rw [hp, hy]⟩

end Verif.Const
