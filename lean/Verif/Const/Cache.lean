import Verif.Const.Evolve

/-! # Walks, references, and the invariant of the caches -/

namespace Verif.Const

variable {home : Nat → Option Nat} {Q : Bool}

/-- A name with a home that is absent there is absent everywhere. -/
theorem absent_everywhere {w : World} (hh : HomeOk home w) {n h : Nat} (hn : home n = some h)
    (hp : pget (w.tab h n) = some none) (cs : List Nat) : pfirst w n cs = some none := by
  induction cs with
  | nil => rfl
  | cons c cs ih =>
    unfold pfirst
    by_cases hc : c = h
    · rw [hc, hp]; exact ih
    · have : w.tab c n = none := by
        by_contra h0
        exact hc (hh c n h hn h0)
      rw [this]; exact ih

theorem keeps_none {w w' : World} (he : Evolve home w w') (h1 : HomeOk home w)
    (h2 : HomeOk home w') {n c : Nat} (hep : w'.epoch n = w.epoch n)
    (hp : pget (w.tab c n) = some none) {cs : List Nat} (hs : pfirst w n cs ≠ some none) :
    pget (w'.tab c n) = some none := by
  cases hn : home n with
  | none => exact he.keeps n hep c none hp (Or.inl hn)
  | some h =>
    by_cases hc : c = h
    · subst hc
      exact absurd (absent_everywhere h1 hn hp cs) hs
    · have : w'.tab c n = none := by
        by_contra h0
        exact hc (h2 c n h hn h0)
      rw [this]; rfl

theorem transfer_first {w w' : World} (he : Evolve home w w') (h1 : HomeOk home w)
    (h2 : HomeOk home w') {n : Nat} (hep : w'.epoch n = w.epoch n) {v : Val} {cs : List Nat}
    (h : pfirst w n cs = some (some v)) : pfirst w' n cs = some (some v) := by
  induction cs with
  | nil => simp [pfirst] at h
  | cons c cs ih =>
    unfold pfirst at h ⊢
    rcases hp : pget (w.tab c n) with _ | x
    · rw [hp] at h; simp at h
    · rw [hp] at h
      cases x with
      | some u =>
        simp only [Option.some.injEq] at h
        subst h
        rw [he.keeps n hep c (some u) hp (Or.inr (by simp))]
      | none =>
        simp only at h
        rw [keeps_none he h1 h2 hep hp (cs := cs) (by rw [h]; simp)]
        exact ih h

theorem getFirst_net (E : Env) (hE : EnvOk home E) (n : Nat) (cs : List Nat) :
    ∀ {w : World}, WF home Q w →
    Evolve home w (getFirst E w n cs).2 ∧ WF home Q (getFirst E w n cs).2 ∧
    ∀ v, (getFirst E w n cs).1 = .ok (some v) → (getFirst E w n cs).2.ver = w.ver →
      pfirst (getFirst E w n cs).2 n cs = some (some v) := by
  induction cs with
  | nil => intro w hw; exact ⟨Evolve.refl w, hw, by intro v h; simp [getFirst] at h⟩
  | cons c cs ih =>
    intro w hw
    obtain ⟨e1, wf1, p1⟩ := getConst_net E hE hw c n
    unfold getFirst
    rcases hg : getConst E w c n with ⟨r, w1⟩
    rw [hg] at e1 wf1 p1
    simp only at e1 wf1 p1
    rcases r with e | x
    · exact ⟨e1, wf1, by intro v h; cases h⟩
    · cases x with
      | some u =>
        refine ⟨e1, wf1, ?_⟩
        intro v h _
        simp only [Except.ok.injEq, Option.some.injEq] at h
        subst h
        simp only
        unfold pfirst
        rw [p1 _ rfl]
      | none =>
        obtain ⟨e2, wf2, p2⟩ := ih wf1
        refine ⟨e1.trans e2, wf2, ?_⟩
        intro v h hv
        simp only at h hv ⊢
        have l1 := e1.ver_le
        have l2 := e2.ver_le
        have hv1 : (getFirst E w1 n cs).2.ver = w1.ver := by omega
        have hp := p2 v h hv1
        unfold pfirst
        rw [keeps_none e2 wf1.homeOk wf2.homeOk ((e2.ver_eq hv1).1 n) (p1 _ rfl) (cs := cs)]
        · exact hp
        · intro h0
          rw [getFirst_pure E w1 n cs _ h0] at h
          cases h

/-- The scopes after the lexical ones. -/
def lateScopes (w : World) (i : Nat) : List Nat :=
  w.chain (lexClass w i) ++ if lexClass w i = BASIC then [OBJECT] else []

theorem viaAncestors_eq (E : Env) (w : World) (c n : Nat) :
    viaAncestors E w c n = getFirst E w n (w.chain c ++ if c = BASIC then [OBJECT] else []) := by
  rw [getFirst_append]
  unfold viaAncestors
  rcases getFirst E w n (w.chain c) with ⟨r, w1⟩
  rcases r with e | x
  · rfl
  · cases x with
    | some v => rfl
    | none =>
      simp only
      split_ifs with hb
      · unfold getFirst getFirst
        rcases getConst E w1 OBJECT n with ⟨r, w2⟩
        rcases r with e | x
        · rfl
        · cases x <;> rfl
      · rfl

theorem scopes_eq {w w' : World} (he : Evolve home w w') (hc : w'.wild = w.wild) (i : Nat) :
    scopes w' i = scopes w i := by
  unfold scopes lexClass
  rw [he.lex_eq, he.wild_eq hc]

theorem qualChain_eq {w w' : World} (he : Evolve home w w') (hc : w'.wild = w.wild) (c : Nat) :
    qualChain w' c = qualChain w c := by
  unfold qualChain
  rw [he.wild_eq hc]

theorem search_net (E : Env) (hE : EnvOk home E) (i n : Nat) {w : World} (hw : WF home Q w) :
    Evolve home w (search E w i n).2 ∧ WF home Q (search E w i n).2 ∧
    ∀ v, (search E w i n).1 = .ok (some v) → (search E w i n).2.ver = w.ver →
      pfirst (search E w i n).2 n (scopes (search E w i n).2 i) = some (some v) := by
  obtain ⟨e1, wf1, p1⟩ := getFirst_net E hE n (w.lex i) hw
  have happ := getFirst_append E n (w.lex i) (lateScopes w i) w
  have hall := getFirst_net E hE n (scopes w i) hw
  unfold search
  have hsc : scopes w i = w.lex i ++ lateScopes w i := rfl
  rw [hsc, happ] at hall
  rcases hg : getFirst E w n (w.lex i) with ⟨r, w1⟩
  rw [hg] at e1 wf1 p1 hall
  simp only at e1 wf1 p1 hall
  rcases r with e | x
  · exact ⟨e1, wf1, by intro v h; cases h⟩
  · cases x with
    | some u =>
      refine ⟨e1, wf1, ?_⟩
      intro v h hv
      simp only at h hv ⊢
      have := hall.2.2 v h hv
      rw [scopes_eq e1 (e1.ver_eq hv).2]
      exact this
    | none =>
      simp only
      rw [viaAncestors_eq]
      have hlc : lexClass w1 i = lexClass w i := by unfold lexClass; rw [e1.lex_eq]
      obtain ⟨e2, wf2, _⟩ := getFirst_net E hE n
        (w1.chain (lexClass w1 i) ++ if lexClass w1 i = BASIC then [OBJECT] else []) wf1
      refine ⟨e1.trans e2, wf2, ?_⟩
      intro v h hv
      have l1 := e1.ver_le
      have l2 := e2.ver_le
      have hv1 : w1.ver = w.ver := by omega
      have hls : (w1.chain (lexClass w1 i) ++ if lexClass w1 i = BASIC then [OBJECT] else []) =
          lateScopes w i := by
        unfold lateScopes
        rw [hlc, e1.wild_eq (e1.ver_eq hv1).2]
      rw [hls] at h hv e2 ⊢
      have e12 := e1.trans e2
      rw [scopes_eq e12 (e12.ver_eq hv).2]
      exact hall.2.2 v h hv

theorem say_evolve (w : World) (e : Event) : Evolve home w (w.say e) :=
  ⟨Nat.le_refl _, fun _ => Nat.le_refl _, Nat.le_refl _, rfl, fun _ => ⟨fun _ => rfl, rfl⟩,
    fun _ => rfl, fun _ _ _ _ h _ => h⟩

theorem say_wf {w : World} (h : WF home Q w) (e : Event) : WF home Q (w.say e) :=
  ⟨h.depr, h.priv, h.auto, h.homeOk⟩

/-- `const_missing` is not redefined. -/
def NoHook (E : Env) : Prop := ∀ l c n, E.hook l c n = none

theorem missing_noHook {E : Env} (hH : NoHook E) (w : World) (c n : Nat) :
    missing E w c n = (.error .name, w.say (.hook c n)) := by
  unfold missing
  rw [hH]

theorem missing_net (E : Env) {w : World} (hw : WF home Q w) (c n : Nat) :
    Evolve home w (missing E w c n).2 ∧ WF home Q (missing E w c n).2 := by
  unfold missing
  split
  · exact ⟨say_evolve w _, say_wf hw _⟩
  · exact ⟨say_evolve w _, say_wf hw _⟩

theorem searchChecked_net (E : Env) (hE : EnvOk home E) (hH : NoHook E) (i n : Nat) {w : World}
    (hw : WF home Q w) :
    Evolve home w (searchChecked E w i n).2 ∧ WF home Q (searchChecked E w i n).2 ∧
    ∀ v, (searchChecked E w i n).1 = .ok v → (searchChecked E w i n).2.ver = w.ver →
      pfirst (searchChecked E w i n).2 n (scopes (searchChecked E w i n).2 i) =
        some (some v) := by
  obtain ⟨e1, wf1, p1⟩ := search_net E hE i n hw
  unfold searchChecked
  rcases hg : search E w i n with ⟨r, w1⟩
  rw [hg] at e1 wf1 p1
  simp only at e1 wf1 p1
  rcases r with e | x
  · exact ⟨e1, wf1, by intro v h; cases h⟩
  · cases x with
    | some u =>
      refine ⟨e1, wf1, ?_⟩
      intro v h hv
      simp only [Except.ok.injEq] at h
      exact p1 v (by rw [h]) hv
    | none =>
      simp only
      rw [missing_noHook hH]
      exact ⟨e1.trans (say_evolve w1 _), say_wf wf1 _, by intro v h; cases h⟩

theorem qualified_net (E : Env) (hE : EnvOk home E) (hH : NoHook E) (c n : Nat) {w : World}
    (hw : WF home Q w) :
    Evolve home w (qualified E w c n).2 ∧ WF home Q (qualified E w c n).2 ∧
    ∀ v, (qualified E w c n).1 = .ok v → (qualified E w c n).2.ver = w.ver →
      pfirst (qualified E w c n).2 n (qualChain (qualified E w c n).2 c) = some (some v) := by
  obtain ⟨e1, wf1, p1⟩ := getFirst_net E hE n (qualChain w c) hw
  unfold qualified
  rcases hg : getFirst E w n (qualChain w c) with ⟨r, w1⟩
  rw [hg] at e1 wf1 p1
  simp only at e1 wf1 p1
  rcases r with e | x
  · exact ⟨e1, wf1, by intro v h; cases h⟩
  · cases x with
    | some u =>
      refine ⟨e1, wf1, ?_⟩
      intro v h hv
      simp only [Except.ok.injEq] at h
      simp only at hv ⊢
      rw [qualChain_eq e1 (e1.ver_eq hv).2]
      exact p1 v (by rw [h]) hv
    | none =>
      simp only
      rw [missing_noHook hH]
      exact ⟨e1.trans (say_evolve w1 _), say_wf wf1 _, by intro v h; cases h⟩

theorem finalPart_net (E : Env) (hE : EnvOk home E) (hH : NoHook E) (c n : Nat) {w : World}
    (hw : WF home Q w) :
    Evolve home w (finalPart E w c n).2 ∧ WF home Q (finalPart E w c n).2 ∧
    ∀ v, (finalPart E w c n).1 = .ok v → (finalPart E w c n).2.ver = w.ver →
      pfirst (finalPart E w c n).2 n (qualChain (finalPart E w c n).2 c) = some (some v) := by
  unfold finalPart
  split_ifs with hp
  · rw [missing_noHook hH]
    exact ⟨say_evolve w _, say_wf hw _, by intro v h; cases h⟩
  · exact qualified_net E hE hH c n hw

theorem midPart_net (E : Env) (hE : EnvOk home E) (hH : NoHook E) (c n : Nat) {w : World}
    (hw : WF home Q w) :
    Evolve home w (midPart E w c n).2 ∧ WF home Q (midPart E w c n).2 ∧
    ∀ d, (midPart E w c n).1 = .ok d → (midPart E w c n).2.ver = w.ver →
      pfirst (midPart E w c n).2 n (qualChain (midPart E w c n).2 c) = some (some (.mod d)) := by
  unfold midPart
  split_ifs with hp
  · exact ⟨Evolve.refl w, hw, by intro v h; cases h⟩
  · obtain ⟨e1, wf1, p1⟩ := qualified_net E hE hH c n hw
    rcases hg : qualified E w c n with ⟨r, w1⟩
    rw [hg] at e1 wf1 p1
    simp only at e1 wf1 p1
    rcases r with e | x
    · exact ⟨e1, wf1, by intro v h; cases h⟩
    · refine ⟨e1, wf1, ?_⟩
      intro d h hv
      cases x with
      | obj k => cases h
      | mod c' =>
        simp only [asMod, Except.ok.injEq] at h
        subst h
        exact p1 _ rfl hv

theorem path_net (E : Env) (hE : EnvOk home E) (hH : NoHook E) (n : Nat) (pre : List Nat) :
    ∀ (c : Nat) {w : World}, WF home Q w →
    Evolve home w (path E w c pre n).2 ∧ WF home Q (path E w c pre n).2 ∧
    ∀ v, (path E w c pre n).1 = .ok v → (path E w c pre n).2.ver = w.ver →
      ppath (path E w c pre n).2 c pre n = some v := by
  induction pre with
  | nil =>
    intro c w hw
    obtain ⟨e1, wf1, p1⟩ := finalPart_net E hE hH c n hw
    refine ⟨e1, wf1, ?_⟩
    intro v h hv
    show valOf (pfirst (finalPart E w c n).2 n (qualChain (finalPart E w c n).2 c)) = some v
    rw [p1 v h hv]; rfl
  | cons m pre ih =>
    intro c w hw
    obtain ⟨e1, wf1, p1⟩ := midPart_net E hE hH c m hw
    unfold path
    rcases hg : midPart E w c m with ⟨r, w1⟩
    rw [hg] at e1 wf1 p1
    simp only at e1 wf1 p1
    rcases r with e | d
    · exact ⟨e1, wf1, by intro v h; cases h⟩
    · obtain ⟨e2, wf2, p2⟩ := ih d wf1
      refine ⟨e1.trans e2, wf2, ?_⟩
      intro v h hv
      simp only at h hv ⊢
      have l1 := e1.ver_le
      have l2 := e2.ver_le
      have hv1 : w1.ver = w.ver := by omega
      have hv2 : (path E w1 d pre n).2.ver = w1.ver := by omega
      have hm := p1 d rfl hv1
      have hm' := transfer_first e2 wf1.homeOk wf2.homeOk ((e2.ver_eq hv2).1 m) hm
      unfold ppath
      rw [qualChain_eq e2 (e2.ver_eq hv2).2, hm']
      exact p2 v h hv2

/-- A lookup: its net effect, and if it did not move the version, its value can be found again
without effects. -/
theorem find_net (E : Env) (hE : EnvOk home E) (hH : NoHook E) (s : Site) (b : Val) {w : World}
    (hw : WF home Q w) :
    Evolve home w (find E w s b).2 ∧ WF home Q (find E w s b).2 ∧
    ∀ v, (find E w s b).1 = .ok v → (find E w s b).2.ver = w.ver →
      pfind (find E w s b).2 s b = some v := by
  unfold find
  by_cases hd : s.dyn = true
  · rw [if_pos hd]
    cases b with
    | obj k =>
      simp only [asMod]
      exact ⟨Evolve.refl w, hw, by intro v h; cases h⟩
    | mod c =>
      simp only [asMod]
      obtain ⟨e1, wf1, p1⟩ := path_net E hE hH s.name s.pre c hw
      refine ⟨e1, wf1, ?_⟩
      intro v h hv
      unfold pfind
      rw [if_pos hd]
      exact p1 v h hv
  · rw [if_neg hd]
    by_cases ht : s.top = true
    · rw [if_pos ht]
      obtain ⟨e1, wf1, p1⟩ := path_net E hE hH s.name s.pre OBJECT hw
      refine ⟨e1, wf1, ?_⟩
      intro v h hv
      unfold pfind
      rw [if_neg hd, if_pos ht]
      exact p1 v h hv
    · rw [if_neg ht]
      cases hpre : s.pre with
      | nil =>
        simp only
        obtain ⟨e1, wf1, p1⟩ := searchChecked_net E hE hH s.code s.name hw
        refine ⟨e1, wf1, ?_⟩
        intro v h hv
        unfold pfind
        rw [if_neg hd, if_neg ht, hpre]
        simp only
        rw [p1 v h hv]; rfl
      | cons m pre =>
        simp only
        obtain ⟨e1, wf1, p1⟩ := searchChecked_net E hE hH s.code m hw
        rcases hg : searchChecked E w s.code m with ⟨r, w1⟩
        rw [hg] at e1 wf1 p1
        simp only at e1 wf1 p1
        rcases r with e | x
        · exact ⟨e1, wf1, by intro v h; cases h⟩
        · cases x with
          | obj k =>
            simp only [asMod]
            exact ⟨e1, wf1, by intro v h; cases h⟩
          | mod c =>
            simp only [asMod]
            obtain ⟨e2, wf2, p2⟩ := path_net E hE hH s.name pre c wf1
            refine ⟨e1.trans e2, wf2, ?_⟩
            intro v h hv
            have l1 := e1.ver_le
            have l2 := e2.ver_le
            have hv1 : w1.ver = w.ver := by omega
            have hv2 : (path E w1 c pre s.name).2.ver = w1.ver := by omega
            have hm' := transfer_first e2 wf1.homeOk wf2.homeOk ((e2.ver_eq hv2).1 m)
              (p1 _ rfl hv1)
            unfold pfind
            rw [if_neg hd, if_neg ht, hpre]
            simp only
            rw [scopes_eq e2 (e2.ver_eq hv2).2, hm']
            exact p2 v h hv2

theorem ppath_transfer {w w' : World} (he : Evolve home w w') (h1 : HomeOk home w)
    (h2 : HomeOk home w') (hw : w'.wild = w.wild) (n : Nat) (v : Val) (pre : List Nat) :
    ∀ (_ : ∀ m ∈ pre ++ [n], w'.epoch m = w.epoch m) (c : Nat),
    ppath w c pre n = some v → ppath w' c pre n = some v := by
  induction pre with
  | nil =>
    intro hep c h
    have h' := valOf_some h
    unfold ppath
    rw [qualChain_eq he hw, transfer_first he h1 h2 (hep n (by simp)) h']
    rfl
  | cons m pre ih =>
    intro hep c h
    unfold ppath at h ⊢
    rcases hm : modOf (pfirst w m (qualChain w c)) with _ | d
    · rw [hm] at h; simp at h
    · rw [hm] at h
      rw [qualChain_eq he hw, transfer_first he h1 h2 (hep m (by simp)) (modOf_some hm)]
      exact ih (fun x hx => hep x (by
        rcases List.mem_append.1 hx with hx | hx
        · simp [hx]
        · simp at hx; simp [hx])) d h

/-- What a site finds depends on the names in it, and on the ancestors. -/
theorem pfind_transfer {w w' : World} (he : Evolve home w w') (h1 : HomeOk home w)
    (h2 : HomeOk home w') (hw : w'.wild = w.wild) (s : Site)
    (hep : ∀ m ∈ s.names, w'.epoch m = w.epoch m) (b v : Val) (h : pfind w s b = some v) :
    pfind w' s b = some v := by
  unfold Site.names at hep
  unfold pfind at h ⊢
  by_cases hd : s.dyn = true
  · rw [if_pos hd] at h ⊢
    cases b with
    | obj k => simp at h
    | mod c => exact ppath_transfer he h1 h2 hw _ _ _ hep _ h
  · rw [if_neg hd] at h ⊢
    by_cases ht : s.top = true
    · rw [if_pos ht] at h ⊢
      exact ppath_transfer he h1 h2 hw _ _ _ hep _ h
    · rw [if_neg ht] at h ⊢
      cases hpre : s.pre with
      | nil =>
        rw [hpre] at h hep
        simp only at h ⊢
        rw [scopes_eq he hw,
          transfer_first he h1 h2 (hep _ (by simp)) (valOf_some h)]
        rfl
      | cons m pre =>
        rw [hpre] at h hep
        simp only at h ⊢
        rcases hm : modOf (pfirst w m (scopes w s.code)) with _ | c
        · rw [hm] at h; simp at h
        · rw [hm] at h
          rw [scopes_eq he hw, transfer_first he h1 h2 (hep m (by simp)) (modOf_some hm)]
          exact ppath_transfer he h1 h2 hw _ _ _ (fun x hx => hep x (by
            rcases List.mem_append.1 hx with hx | hx
            · simp [hx]
            · simp at hx; simp [hx])) _ h

/-! ## Histories -/

/-- Operations after which caches are right: definitions that keep to `home`, `autoload` of names
with a home, and visibility only where no site is qualified. -/
def Plain (home : Nat → Option Nat) (Q : Bool) (L : Nat → List Nat) : Op → Prop
  | .def_ d => Disc home d
  | .constSet c n _ => AllowedAt home c n
  | .require _ => True
  | .priv _ _ _ => Q = true
  | .depr _ _ => False
  | .auto c n _ => home n = some c
  | .stamp i l => L i = l
  | .ref _ _ => True

structure Inv (home : Nat → Option Nat) (Q : Bool) (L : Nat → List Nat) (P : Nat → Site)
    (σ : St) : Prop where
  wf : WF home Q σ.w
  lex : σ.w.lex = L
  old : ∀ k c, σ.cache k = some c → c.ver ≤ σ.w.ver
  good : ∀ k c, σ.cache k = some c → c.ver = σ.w.ver → ∀ b, c.base = baseOf (P k) b →
    pfind σ.w (P k) b = some c.val

variable {L : Nat → List Nat} {P : Nat → Site}

theorem Inv.evolve {σ : St} (h : Inv home Q L P σ) {w' : World} (he : Evolve home σ.w w')
    (hw : WF home Q w') : Inv home Q L P ⟨w', σ.cache⟩ where
  wf := hw
  lex := he.lex_eq.trans h.lex
  old := fun k c hc => Nat.le_trans (h.old k c hc) he.ver_le
  good := by
    intro k c hc hv b hb
    have h1 := h.old k c hc
    have h2 := he.ver_le
    simp only at hv
    have hv' : w'.ver = σ.w.ver := by omega
    obtain ⟨hep, hwl⟩ := he.ver_eq hv'
    exact pfind_transfer he h.wf.homeOk hw.homeOk hwl (P k) (fun m _ => hep m) b c.val
      (h.good k c hc (by omega) b hb)

theorem setPriv_net {w : World} (hw : WF home true w) (c n : Nat) (p : Bool) :
    Evolve home w (setPriv w c n p) ∧ WF home true (setPriv w c n p) := by
  unfold setPriv
  split
  · rename_i s hs
    have ht : ∀ x m, (w.put c n (some { s with priv := p })).tab x m =
        if x = c ∧ m = n then some { s with priv := p } else w.tab x m := fun _ _ => rfl
    have hpg : pget (some { s with priv := p }) = pget (some s) := by
      rcases s with ⟨k, q, d⟩
      rcases k with v | ⟨f, st⟩
      · cases d <;> rfl
      · cases st <;> rfl
    constructor
    · refine ⟨Nat.le_refl _, fun _ => Nat.le_refl _, Nat.le_refl _, rfl, fun _ => ⟨fun _ => rfl, rfl⟩,
        fun _ => rfl, ?_⟩
      intro m _ x r hr _
      rw [ht]
      split_ifs with hc
      · rw [hpg, ← hs, ← hc.1, ← hc.2]; exact hr
      · exact hr
    · refine ⟨?_, by simp, ?_, ?_⟩
      · intro x m t htt
        rw [ht] at htt
        split_ifs at htt with hc
        · injection htt with htt
          rw [← htt]
          exact hw.depr c n s hs
        · exact hw.depr x m t htt
      · intro x m f st q d htt
        rw [ht] at htt
        split_ifs at htt with hc
        · injection htt with htt
          rcases s with ⟨k, q0, d0⟩
          simp only [CState.mk.injEq] at htt
          obtain ⟨rfl, -, -⟩ := htt
          exact hw.auto c n f st q0 d0 hs
        · exact hw.auto x m f st q d htt
      · intro x m h hh htt
        rw [ht] at htt
        split_ifs at htt with hc
        · rw [hc.1]
          exact hw.homeOk c n h (hc.2 ▸ hh) (by rw [hs]; simp)
        · exact hw.homeOk x m h hh htt
  · exact ⟨Evolve.refl w, hw⟩

theorem put_idle_net {w : World} (hw : WF home Q w) (c n f : Nat) (p d : Bool)
    (hh : home n = some c) (hl : isLoaded (w.tab c n) = false)
    (hf : (p = false ∧ d = false) ∨ ∃ s, w.tab c n = some s ∧ p = s.priv ∧ d = s.depr) :
    Evolve home w (w.put c n (some ⟨.auto f .idle, p, d⟩)) ∧
    WF home Q (w.put c n (some ⟨.auto f .idle, p, d⟩)) := by
  have ht : ∀ x m, (w.put c n (some ⟨.auto f .idle, p, d⟩)).tab x m =
      if x = c ∧ m = n then some ⟨.auto f .idle, p, d⟩ else w.tab x m := fun _ _ => rfl
  constructor
  · refine ⟨Nat.le_refl _, fun _ => Nat.le_refl _, Nat.le_refl _, rfl, fun _ => ⟨fun _ => rfl, rfl⟩,
      fun _ => rfl, ?_⟩
    intro m _ x r hr hn
    rw [ht]
    split_ifs with hc
    · obtain ⟨rfl, rfl⟩ := hc
      rcases hn with hn | hn
      · rw [hh] at hn; cases hn
      · cases r with
        | none => exact absurd rfl hn
        | some v => rw [pget_loaded hr] at hl; cases hl
    · exact hr
  · refine ⟨?_, ?_, ?_, ?_⟩
    · intro x m t htt
      rw [ht] at htt
      split_ifs at htt with hc
      · injection htt with htt
        rw [← htt]
        rcases hf with hf | ⟨s, hs, _, hd⟩
        · exact hf.2
        · simp only; rw [hd]; exact hw.depr c n s hs
      · exact hw.depr x m t htt
    · intro hq x m t htt
      rw [ht] at htt
      split_ifs at htt with hc
      · injection htt with htt
        rw [← htt]
        rcases hf with hf | ⟨s, hs, hp, _⟩
        · exact hf.1
        · simp only; rw [hp]; exact hw.priv hq c n s hs
      · exact hw.priv hq x m t htt
    · intro x m g st q e htt
      rw [ht] at htt
      split_ifs at htt with hc
      · injection htt with htt
        simp only [CState.mk.injEq, Kind.auto.injEq] at htt
        obtain ⟨⟨_, rfl⟩, _, _⟩ := htt
        simp
      · exact hw.auto x m g st q e htt
    · intro x m h hx htt
      rw [ht] at htt
      split_ifs at htt with hc
      · rw [hc.2, hh] at hx
        injection hx with hx
        rw [hc.1, hx]
      · exact hw.homeOk x m h hx htt

theorem register_net {w : World} (hw : WF home Q w) (c n f : Nat) (hh : home n = some c) :
    Evolve home w (register w c n f) ∧ WF home Q (register w c n f) := by
  unfold register
  split_ifs with hf
  · exact ⟨Evolve.refl w, hw⟩
  · rcases ht : w.tab c n with _ | ⟨k, p, d⟩
    · exact put_idle_net hw c n f false false hh (by rw [ht]; rfl) (Or.inl ⟨rfl, rfl⟩)
    · rcases k with v | ⟨g, st⟩
      · exact ⟨Evolve.refl w, hw⟩
      · have hp := put_idle_net hw c n f p d hh (by rw [ht]; rfl) (Or.inr ⟨_, ht, rfl, rfl⟩)
        cases st with
        | idle => exact hp
        | consumed => exact hp
        | loading => exact absurd rfl (hw.auto c n g _ p d ht).1

theorem reference_inv (E : Env) (hE : EnvOk home E) (hH : NoHook E) {σ : St}
    (h : Inv home Q L P σ) (k : Nat) (b : Val) : Inv home Q L P (reference E P σ k b).2 := by
  unfold reference
  rcases hit σ (P k) k b with _ | v
  · obtain ⟨e1, wf1, p1⟩ := find_net E hE hH (P k) b h.wf
    rcases hg : find E σ.w (P k) b with ⟨r, w1⟩
    rw [hg] at e1 wf1 p1
    simp only at e1 wf1 p1
    have hI := h.evolve e1 wf1
    rcases r with e | v
    · exact hI
    · refine ⟨wf1, hI.lex, ?_, ?_⟩
      · intro j c hc
        simp only at hc
        split_ifs at hc with hj
        · injection hc with hc
          rw [← hc]
          exact e1.ver_le
        · exact hI.old j c hc
      · intro j c hc hv b' hb'
        simp only at hc
        split_ifs at hc with hj
        · injection hc with hc
          subst hj
          rw [← hc] at hv hb' ⊢
          simp only at hv hb' ⊢
          have hp := p1 v rfl hv.symm
          unfold baseOf at hb'
          cases hd : (P j).dyn with
          | true =>
            rw [hd] at hb'
            simp only [if_true, Option.some.injEq] at hb'
            rw [← hb']; exact hp
          | false =>
            unfold pfind at hp ⊢
            rw [hd] at hp ⊢
            exact hp
        · exact hI.good j c hc hv b' hb'
  · exact h

theorem step_inv (E : Env) (hE : EnvOk home E) (hH : NoHook E) {σ : St} (h : Inv home Q L P σ)
    (o : Op) (ho : Plain home Q L o) : Inv home Q L P (step E P σ o) := by
  cases o with
  | def_ d => exact h.evolve (runDef_ran σ.w d ho).evolve ((runDef_ran σ.w d ho).wf h.wf)
  | constSet c n v =>
    exact h.evolve (setConst_ran σ.w c n v ho).evolve ((setConst_ran σ.w c n v ho).wf h.wf)
  | require f => exact h.evolve (require_net E hE h.wf f).1 (require_net E hE h.wf f).2
  | priv c n p =>
    have hq : Q = true := ho
    subst hq
    exact h.evolve (setPriv_net h.wf c n p).1 (setPriv_net h.wf c n p).2
  | depr c n => exact absurd ho id
  | auto c n f => exact h.evolve (register_net h.wf c n f ho).1 (register_net h.wf c n f ho).2
  | stamp i l =>
    have hl : L i = l := ho
    have : stamp σ.w i l = σ.w := by
      unfold stamp
      have hx : (fun j => if j = i then l else σ.w.lex j) = σ.w.lex := by
        funext j
        split_ifs with hj
        · rw [hj, h.lex, hl]
        · rfl
      rw [hx]
    show Inv home Q L P { σ with w := stamp σ.w i l }
    rw [this]
    exact h
  | ref k b => exact reference_inv E hE hH h k b

theorem step_evolve (E : Env) (hE : EnvOk home E) (hH : NoHook E) {σ : St} (h : Inv home Q L P σ)
    (o : Op) (ho : Plain home Q L o) : Evolve home σ.w (step E P σ o).w := by
  cases o with
  | def_ d => exact (runDef_ran σ.w d ho).evolve
  | constSet c n v => exact (setConst_ran σ.w c n v ho).evolve
  | require f => exact (require_net E hE h.wf f).1
  | priv c n p =>
    have hq : Q = true := ho
    subst hq
    exact (setPriv_net h.wf c n p).1
  | depr c n => exact absurd ho id
  | auto c n f => exact (register_net h.wf c n f ho).1
  | stamp i l =>
    refine ⟨Nat.le_refl _, fun _ => Nat.le_refl _, Nat.le_refl _, ?_, fun _ => ⟨fun _ => rfl, rfl⟩,
      fun _ => rfl, fun _ _ _ _ h _ => h⟩
    show (fun j => if j = i then l else σ.w.lex j) = σ.w.lex
    funext j
    have hl : L i = l := ho
    split_ifs with hj
    · rw [hj, h.lex, hl]
    · rfl
  | ref k b =>
    have e1 := (find_net E hE hH (P k) b h.wf).1
    show Evolve home σ.w (reference E P σ k b).2.w
    unfold reference
    rcases hit σ (P k) k b with _ | v
    · rcases hg : find E σ.w (P k) b with ⟨r, w1⟩
      rw [hg] at e1
      rcases r with e | v
      · exact e1
      · exact e1
    · exact Evolve.refl _

theorem run_inv (E : Env) (hE : EnvOk home E) (hH : NoHook E) (os : List Op) :
    ∀ {σ : St}, Inv home Q L P σ → (∀ o ∈ os, Plain home Q L o) → Inv home Q L P (run E P σ os) := by
  induction os with
  | nil => exact fun h _ => h
  | cons o os ih =>
    intro σ h ho
    exact ih (step_inv E hE hH h o (ho o (by simp))) fun x hx => ho x (by simp [hx])

theorem start_inv {w : World} (hw : WF home Q w) : Inv home Q w.lex P ⟨w, fun _ => none⟩ :=
  ⟨hw, rfl, fun _ _ h => (by cases h), fun _ _ h => (by cases h)⟩

end Verif.Const
