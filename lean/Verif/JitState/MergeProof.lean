import Verif.JitState.Merge
import Verif.JitState.Block

/-! The meet only weakens; a bridge carries the frame to the joined state. -/

namespace Verif.JitState

/-! ### Weakening -/

/-- `b` promises no more about a value than `a` does, registers apart. -/
def Le (a : Mode) : Mode → Prop
  | .S g => a.live = true ∧ (g = .value ∨ a.guarded = some g)
  | .F _ => a.isF = true ∨ ∃ f, a = .C (.flo f)
  | .Sf _ g => (∃ x, a = .F x ∧ g ≠ .fixnum) ∨ (∃ x h, a = .Sf x h ∧ (g = h ∨ g = .both)) ∨
      ∃ v h, a = .C v ∧ SfG.ofVal v = some h ∧ (g = h ∨ g = .both)
  | .C v => a = .C v
  | _ => True

theorem Le.refl (a : Mode) : Le a a := by
  cases a with
  | S g => exact ⟨rfl, .inr rfl⟩
  | F x => exact .inl rfl
  | Sf x g => exact .inr (.inl ⟨x, g, rfl, .inl rfl⟩)
  | C v => rfl
  | _ => trivial

theorem Le.live {a b : Mode} (h : Le a b) (hb : b.live = true) : a.live = true := by
  cases b with
  | S g => exact h.1
  | F x =>
    rcases h with h | ⟨f, rfl⟩
    · cases a <;> simp [Mode.isF] at h <;> rfl
    · rfl
  | Sf x g =>
    rcases h with ⟨x, rfl, _⟩ | ⟨x, h', rfl, _⟩ | ⟨v, h', rfl, _⟩ <;> rfl
  | C v => rw [show a = .C v from h]; rfl
  | _ => simp [Mode.live] at hb

theorem ofVal_toG {v : Val} {h : SfG} (e : SfG.ofVal v = some h) : Guarded.ofVal v = h.toG := by
  cases v <;> simp [SfG.ofVal] at e <;> subst e <;> rfl

theorem Le.trans {a b c : Mode} (h1 : Le a b) (h2 : Le b c) : Le a c := by
  cases c with
  | S g =>
    refine ⟨h1.live h2.1, ?_⟩
    rcases h2.2 with h | h
    · exact .inl h
    · cases b with
      | S g' =>
        simp only [Mode.guarded, Option.some.injEq] at h
        subst h; exact h1.2
      | F x =>
        simp only [Mode.guarded, Option.some.injEq] at h
        subst h
        rcases h1 with h | ⟨f, rfl⟩
        · cases a <;> simp [Mode.isF] at h
          exact .inr rfl
        · exact .inr rfl
      | Sf x g' =>
        simp only [Mode.guarded, Option.some.injEq] at h
        subst h
        rcases h1 with ⟨x, rfl, h⟩ | ⟨x, k, rfl, h⟩ | ⟨v, k, rfl, hv, h⟩
        · cases g' with
          | fixnum => exact absurd rfl h
          | float => exact .inr rfl
          | both => exact .inl rfl
        · rcases h with rfl | rfl
          · exact .inr rfl
          · exact .inl rfl
        · rcases h with rfl | rfl
          · exact .inr (by rw [Mode.guarded, ofVal_toG hv])
          · exact .inl rfl
      | C v => rw [show a = .C v from h1]; exact .inr h
      | V => simp [Le, Mode.live] at h2
      | none => simp [Le, Mode.live] at h2
      | maybeNone => simp [Le, Mode.live] at h2
  | F y =>
    rcases h2 with h | ⟨f, rfl⟩
    · cases b <;> simp [Mode.isF] at h
      exact h1
    · exact .inr ⟨f, h1⟩
  | Sf y g =>
    rcases h2 with ⟨x, rfl, h⟩ | ⟨x, k, rfl, h⟩ | ⟨v, k, rfl, hv, h⟩
    · rcases h1 with h' | ⟨f, rfl⟩
      · cases a <;> simp [Mode.isF] at h'
        exact .inl ⟨_, rfl, h⟩
      · refine .inr (.inr ⟨_, .float, rfl, rfl, ?_⟩)
        cases g with
        | fixnum => exact absurd rfl h
        | float => exact .inl rfl
        | both => exact .inr rfl
    · rcases h1 with ⟨x, rfl, h'⟩ | ⟨x, k', rfl, h'⟩ | ⟨v, k', rfl, hv, h'⟩
      · refine .inl ⟨x, rfl, ?_⟩
        rcases h with rfl | rfl
        · exact h'
        · simp
      · refine .inr (.inl ⟨x, k', rfl, ?_⟩)
        rcases h with rfl | rfl
        · exact h'
        · exact .inr rfl
      · refine .inr (.inr ⟨v, k', rfl, hv, ?_⟩)
        rcases h with rfl | rfl
        · exact h'
        · exact .inr rfl
    · exact .inr (.inr ⟨v, k, h1, hv, h⟩)
  | C v =>
    rw [show b = .C v from h2] at h1
    exact h1
  | V => trivial
  | none => trivial
  | maybeNone => trivial

theorem Le.demote {x : FReg} {g : SfG} : Le (.Sf x g) (.S g.toG) := ⟨rfl, .inr rfl⟩

/-! ### What the meet does to the state -/

/-- Other slots: unchanged, or demoted to their stack home. -/
def Others (st st' : St) (s : Slot) : Prop := ∀ t, t ≠ s → Demoted st st' t

theorem Demoted.le {st st' : St} {t : Slot} (h : Demoted st st' t) : Le (st.mode t) (st'.mode t) := by
  rcases h with h | ⟨y, g, h1, h2⟩
  · rw [h]; exact Le.refl _
  · rw [h1, h2]; exact Le.demote

structure JoinOk (st st' : St) (s : Slot) (o : Mode) : Prop where
  wf : WF st'
  n : st'.n = st.n
  gp : st'.gp = st.gp ∨ ∀ r, st'.gp r = none
  others : Others st st' s
  lhs : Le (st.mode s) (st'.mode s)
  rhs : Le o (st'.mode s)
  live : (st.mode s).live = true → o.live = true → (st'.mode s).live = true

theorem tryAlloc_alloc {st st' : St} {x : FReg} (h : st.tryAlloc = some (st', x)) : st.alloc = (st', x) := by
  unfold St.alloc; rw [h]

/-- a relink, or an allocation and a relink -/
theorem joinOk_relink {st : St} (w : WF st) (hgp : ∀ r, st.gp r = none) {s : Slot} {M o : Mode}
    (hs : s < st.n ∨ M = .V) (hM : ∀ y, M.reg = some y → y < st.vf.length) (h1 : Le (st.mode s) M) (h2 : Le o M)
    (h3 : (st.mode s).live = true → o.live = true → M.live = true) : JoinOk st (st.relink s M) s o := by
  obtain ⟨f1, f2, f3, f4, f5⟩ := relink_fields st s M
  refine ⟨relink_wf w hs hM, f1, .inr ?_, ?_, ?_, ?_, ?_⟩
  · intro r; rw [f3]; simp [St.invalidate, hgp]
  · intro t ht; left; rw [f4, upd_ne _ _ ht]
  all_goals rw [f4, upd_same]; assumption

theorem joinOk_fresh {st st' : St} {x : FReg} (w : WF st) (hgp : ∀ r, st.gp r = none) {s : Slot} {M o : Mode}
    (ha : st.tryAlloc = some (st', x)) (hx : M.reg = some x)
    (hs : s < st.n) (h1 : Le (st.mode s) M) (h2 : Le o M)
    (h3 : (st.mode s).live = true → o.live = true → M.live = true) : JoinOk st (st'.relink s M) s o := by
  obtain ⟨w', sp⟩ := alloc_spec w
  rw [tryAlloc_alloc ha] at w' sp
  simp only at w' sp
  obtain ⟨f1, f2, f3, f4, f5⟩ := relink_fields st' s M
  refine ⟨relink_wf w' (.inl (by rw [sp.n]; exact hs)) (fun y hy => ?_), by rw [f1, sp.n], .inr ?_, ?_, ?_, ?_, ?_⟩
  · rw [hx] at hy; cases hy; exact sp.lt
  · intro r; rw [f3]; simp [St.invalidate, sp.gp, hgp]
  · intro t ht
    unfold Demoted
    rw [f4, upd_ne _ _ ht]
    rcases sp.mode t with h | ⟨g, h, h'⟩
    · exact .inl h
    · exact .inr ⟨x, g, h, h'⟩
  all_goals rw [f4, upd_same]; assumption

/-- what a decision needs and promises -/
def actSpec (a b : Mode) : JoinAct → Prop
  | .nop => Le b a
  | .setMaybeNone => b.live = false
  | .discard => b.live = false
  | .freshFKeep => Le b a ∧ ∀ x, Le a (.F x) ∧ Le b (.F x)
  | .freshFElseS => (∀ x, Le a (.F x) ∧ Le b (.F x)) ∧ Le a (.S .float) ∧ Le b (.S .float)
  | .setSf x g => a.reg = some x ∧ Le a (.Sf x g) ∧ Le b (.Sf x g)
  | .freshSfElseKeep x g => a.reg = some x ∧ ∀ x, Le a (.Sf x g) ∧ Le b (.Sf x g)
  | .freshSfElseS g => (∀ x, Le a (.Sf x g) ∧ Le b (.Sf x g)) ∧ Le a (.S g.toG) ∧ Le b (.S g.toG)
  | .setS g => Le a (.S g) ∧ Le b (.S g)

theorem join_left (g h : SfG) : g.join h = g ∨ g.join h = .both := by
  cases g <;> cases h <;> simp [SfG.join]
theorem join_right (g h : SfG) : g.join h = h ∨ g.join h = .both := by
  cases g <;> cases h <;> simp [SfG.join]

theorem le_F_Sf {x y : FReg} {g : SfG} (h : g = .float ∨ g = .both) : Le (.F x) (.Sf y g) :=
  .inl ⟨x, rfl, by rcases h with rfl | rfl <;> simp⟩
theorem le_Sf_Sf {x y : FReg} {g h : SfG} (e : g = h ∨ g = .both) : Le (.Sf x h) (.Sf y g) :=
  .inr (.inl ⟨x, h, rfl, e⟩)
theorem le_C_Sf {v : Val} {y : FReg} {g h : SfG} (hv : SfG.ofVal v = some h) (e : g = h ∨ g = .both) :
    Le (.C v) (.Sf y g) := .inr (.inr ⟨v, h, rfl, hv, e⟩)
theorem Le.toS {a : Mode} {x : FReg} {g : SfG} (h : Le a (.Sf x g)) : Le a (.S g.toG) := h.trans Le.demote

theorem joinS_spec {a b : Mode} {act : JoinAct} (ha : a.live = true) (hb : b.live = true)
    (h : joinS a b = some act) : actSpec a b act := by
  unfold joinS at h
  cases hga : a.guarded with
  | none => simp [hga] at h
  | some g =>
    cases hgb : b.guarded with
    | none => simp [hga, hgb] at h
    | some k =>
      simp only [hga, hgb, Option.some.injEq] at h
      subst h
      show Le a (.S (g.join k)) ∧ Le b (.S (g.join k))
      by_cases e : g = k
      · subst e
        rw [show g.join g = g from if_pos rfl]
        exact ⟨⟨ha, .inr hga⟩, ⟨hb, .inr hgb⟩⟩
      · rw [show g.join k = .value from if_neg e]
        exact ⟨⟨ha, .inl rfl⟩, ⟨hb, .inl rfl⟩⟩

theorem joinSf_spec {a b : Mode} {x y : FReg} {g h : SfG} (ha : a.reg = some x)
    (h1 : ∀ z, Le a (.Sf z (g.join h))) (h2 : ∀ z, Le b (.Sf z (g.join h))) : actSpec a b (joinSf x y g h) := by
  unfold joinSf
  split
  · exact ⟨ha, h1 _, h2 _⟩
  · exact ⟨ha, fun z => ⟨h1 z, h2 z⟩⟩

theorem le_flo_F (f : Flt) (x : FReg) : Le (.C (.flo f)) (.F x) := .inr ⟨f, rfl⟩
theorem le_F_F (x y : FReg) : Le (.F x) (.F y) := .inl rfl
theorem le_flo_S (f : Flt) : Le (.C (.flo f)) (.S .float) := ⟨rfl, .inr rfl⟩
theorem le_F_S (x : FReg) : Le (.F x) (.S .float) := ⟨rfl, .inr rfl⟩

theorem decide_spec {a b : Mode} {act : JoinAct} (h : decideJoin a b = some act) : actSpec a b act := by
  unfold decideJoin at h
  split at h <;> try simp only [Option.some.injEq] at h
  all_goals try subst h
  case h_1 => exact trivial
  case h_2 => exact trivial
  case h_3 => exact rfl
  case h_4 => exact trivial
  case h_5 => exact rfl
  case h_6 =>
    split
    · exact ⟨le_F_F _ _, fun x => ⟨le_F_F _ _, le_F_F _ _⟩⟩
    · exact (.inl rfl : Le (.F _) (.F _))
  case h_7 => exact (.inr ⟨_, rfl⟩ : Le (.C (.flo _)) (.F _))
  case h_8 => exact joinSf_spec rfl (fun _ => le_F_Sf (join_left .float _)) (fun _ => le_Sf_Sf (join_right .float _))
  case h_9 => exact joinSf_spec rfl (fun _ => le_Sf_Sf (join_left _ _)) (fun _ => le_Sf_Sf (join_right _ _))
  case h_10 => exact joinSf_spec rfl (fun _ => le_Sf_Sf (join_left _ _)) (fun _ => le_F_Sf (join_right _ .float))
  case h_11 => exact ⟨rfl, le_Sf_Sf (join_left _ _), le_C_Sf rfl (join_right _ .float)⟩
  case h_12 => exact ⟨rfl, le_Sf_Sf (join_left _ _), le_C_Sf rfl (join_right _ .fixnum)⟩
  case h_13 => exact ⟨fun x => ⟨le_flo_F _ _, le_F_F _ _⟩, le_flo_S _, le_F_S _⟩
  case h_14 =>
    have h1 : ∀ f x g, Le (.C (.flo f)) (.Sf x (SfG.float.join g)) := fun f x g => le_C_Sf rfl (join_left .float g)
    have h2 : ∀ x y g, Le (.Sf x g) (.Sf y (SfG.float.join g)) := fun x y g => le_Sf_Sf (join_right .float g)
    exact ⟨fun x => ⟨h1 _ _ _, h2 _ _ _⟩, (h1 _ 0 _).toS, (h2 _ 0 _).toS⟩
  case h_15 =>
    have h1 : ∀ i x g, Le (.C (.fix i)) (.Sf x (SfG.fixnum.join g)) := fun f x g => le_C_Sf rfl (join_left .fixnum g)
    have h2 : ∀ x y g, Le (.Sf x g) (.Sf y (SfG.fixnum.join g)) := fun x y g => le_Sf_Sf (join_right .fixnum g)
    exact ⟨fun x => ⟨h1 _ _ _, h2 _ _ _⟩, (h1 _ 0 _).toS, (h2 _ 0 _).toS⟩
  case h_16 =>
    split at h
    · rename_i e
      subst e
      simp only [Option.some.injEq] at h
      subst h
      exact (rfl : Mode.C _ = Mode.C _)
    · split at h
      · simp only [Option.some.injEq] at h
        subst h
        exact ⟨fun x => ⟨le_flo_F _ _, le_flo_F _ _⟩, le_flo_S _, le_flo_S _⟩
      · exact joinS_spec rfl rfl h
  case h_17 hh1 hh2 hh3 hh4 hh5 hh6 hh7 hh8 hh9 hh10 hh11 hh12 hh13 hh14 hh15 hh16 =>
    refine joinS_spec ?_ ?_ h
    · cases ha : a with
      | none => subst ha; simp [joinS, Mode.guarded] at h
      | maybeNone => exact absurd ha (by assumption)
      | V => exact absurd ha (by assumption)
      | _ => rfl
    · cases hb : b with
      | none => subst hb; cases a <;> simp [joinS, Mode.guarded] at h
      | maybeNone => exact absurd hb (by assumption)
      | V => exact absurd hb (by assumption)
      | _ => rfl

theorem applyJoin_ok {st st' : St} (w : WF st) (hgp : ∀ r, st.gp r = none) {s : Slot} (hs : s < st.n) {b : Mode}
    {act : JoinAct} (hact : actSpec (st.mode s) b act) (hb : act = .nop → (st.mode s).live = true → b.live = true → True)
    (h : st.applyJoin s act = some st') : JoinOk st st' s b := by
  have regLt : ∀ x, (st.mode s).reg = some x → x < st.vf.length := fun x hx => St.slots_lt ((w.vf x s).2 hx)
  have self : Le b (st.mode s) → JoinOk st st s b := fun h =>
    ⟨w, rfl, .inl rfl, fun t _ => .inl rfl, Le.refl _, h, fun h _ => h⟩
  cases act with
  | nop => cases h; exact self hact
  | setMaybeNone =>
    simp only [St.applyJoin, Option.some.injEq] at h
    subst h
    exact joinOk_relink (M := .maybeNone) w hgp (.inl hs) (by simp [Mode.reg]) trivial trivial
      (fun _ h => by rw [show b.live = false from hact] at h; simp at h)
  | discard =>
    obtain ⟨_, _, rfl⟩ := discard_some h
    rw [clear_eq]
    exact joinOk_relink (M := .V) w hgp (.inl hs) (by simp [Mode.reg]) trivial trivial
      (fun _ h => by rw [show b.live = false from hact] at h; simp at h)
  | freshFKeep =>
    simp only [St.applyJoin, Option.some.injEq, St.tryNewF] at h
    cases ha : st.tryAlloc with
    | none => rw [ha] at h; cases h; exact self hact.1
    | some q =>
      obtain ⟨st1, x⟩ := q
      rw [ha] at h
      simp only [Option.map_some, Option.getD_some] at h
      subst h
      exact joinOk_fresh (M := .F x) w hgp ha rfl hs (hact.2 x).1 (hact.2 x).2 (fun _ _ => rfl)
  | freshFElseS =>
    simp only [St.applyJoin, Option.some.injEq, St.tryNewF] at h
    cases ha : st.tryAlloc with
    | none =>
      rw [ha] at h; cases h
      exact joinOk_relink (M := .S .float) w hgp (.inl hs) (by simp [Mode.reg]) hact.2.1 hact.2.2 (fun _ _ => rfl)
    | some q =>
      obtain ⟨st1, x⟩ := q
      rw [ha] at h
      simp only [Option.map_some, Option.getD_some] at h
      subst h
      exact joinOk_fresh (M := .F x) w hgp ha rfl hs (hact.1 x).1 (hact.1 x).2 (fun _ _ => rfl)
  | setSf x g =>
    cases h
    refine joinOk_relink (M := .Sf x g) w hgp (.inl hs) ?_ hact.2.1 hact.2.2 (fun _ _ => rfl)
    intro y hy; cases hy; exact regLt _ hact.1
  | freshSfElseKeep x g =>
    simp only [St.applyJoin, Option.some.injEq, St.tryNewSf] at h
    cases ha : st.tryAlloc with
    | none =>
      rw [ha] at h; cases h
      refine joinOk_relink (M := .Sf x g) w hgp (.inl hs) ?_ (hact.2 x).1 (hact.2 x).2 (fun _ _ => rfl)
      intro y hy; cases hy; exact regLt _ hact.1
    | some q =>
      obtain ⟨st1, y⟩ := q
      rw [ha] at h
      simp only [Option.map_some, Option.getD_some] at h
      subst h
      exact joinOk_fresh (M := .Sf y g) w hgp ha rfl hs (hact.2 y).1 (hact.2 y).2 (fun _ _ => rfl)
  | freshSfElseS g =>
    simp only [St.applyJoin, Option.some.injEq, St.tryNewSf] at h
    cases ha : st.tryAlloc with
    | none =>
      rw [ha] at h; cases h
      exact joinOk_relink (M := .S g.toG) w hgp (.inl hs) (by simp [Mode.reg]) hact.2.1 hact.2.2 (fun _ _ => rfl)
    | some q =>
      obtain ⟨st1, y⟩ := q
      rw [ha] at h
      simp only [Option.map_some, Option.getD_some] at h
      subst h
      exact joinOk_fresh (M := .Sf y g) w hgp ha rfl hs (hact.1 y).1 (hact.1 y).2 (fun _ _ => rfl)
  | setS g =>
    cases h
    exact joinOk_relink (M := .S g) w hgp (.inl hs) (by simp [Mode.reg]) hact.1 hact.2 (fun _ _ => rfl)

/-- The meet: well-formed, and weaker than both sides. -/
theorem joinFrom_ok {other : St} : ∀ (k s : Nat) (st st' : St), WF st → (∀ r, st.gp r = none) → s + k = st.n →
    st.joinFrom other k s = some st' →
    WF st' ∧ st'.n = st.n ∧ (∀ r, st'.gp r = none) ∧ (∀ t, Le (st.mode t) (st'.mode t)) ∧
    (∀ t, s ≤ t → t < st.n → Le (other.mode t) (st'.mode t)) ∧
    (∀ t, (st.mode t).live = true → (other.mode t).live = true → (st'.mode t).live = true) := by
  intro k
  induction k with
  | zero =>
    intro s st st' w hgp hn h
    cases h
    exact ⟨w, rfl, hgp, fun _ => Le.refl _, fun t h1 h2 => by omega, fun _ h _ => h⟩
  | succ k ih =>
    intro s st st' w hgp hn h
    unfold St.joinFrom at h
    cases hd : decideJoin (st.mode s) (other.mode s) with
    | none => simp [hd] at h
    | some act =>
      cases ha : st.applyJoin s act with
      | none => simp [hd, ha] at h
      | some st1 =>
        simp only [hd, ha] at h
        have hs : s < st.n := by omega
        have j := applyJoin_ok w hgp hs (decide_spec hd) (fun _ _ _ => trivial) ha
        have hgp1 : ∀ r, st1.gp r = none := by
          rcases j.gp with h | h
          · intro r; rw [h]; exact hgp r
          · exact h
        obtain ⟨r1, r2, r3, r4, r5, r6⟩ := ih (s + 1) st1 st' j.wf hgp1 (by rw [j.n]; omega) h
        have hle : ∀ t, Le (st.mode t) (st1.mode t) := by
          intro t
          by_cases ht : t = s
          · subst ht; exact j.lhs
          · exact (j.others t ht).le
        refine ⟨r1, by rw [r2, j.n], r3, fun t => (hle t).trans (r4 t), ?_, ?_⟩
        · intro t h1 h2
          by_cases ht : t = s
          · subst ht; exact j.rhs.trans (r4 t)
          · exact r5 t (by omega) (by rw [j.n]; exact h2)
        · intro t h1 h2
          refine r6 t ?_ h2
          by_cases ht : t = s
          · subst ht; exact j.live h1 h2
          · rw [(j.others t ht).live]; exact h1

theorem join2_ok {a b T : St} (wa : WF a) (wb : WF b) (ga : ∀ r, a.gp r = none) (gb : ∀ r, b.gp r = none)
    (hn : a.n = b.n) (h : join2 a b = some T) :
    WF T ∧ T.n = a.n ∧ (∀ r, T.gp r = none) ∧ (∀ t, Le (a.mode t) (T.mode t)) ∧ (∀ t, Le (b.mode t) (T.mode t)) ∧
    (∀ t, (a.mode t).live = true → (b.mode t).live = true → (T.mode t).live = true) := by
  unfold join2 St.join at h
  cases h1 : b.joinFrom a b.n 0 with
  | none => simp [h1] at h
  | some t1 =>
    simp only [h1, Option.bind_some] at h
    obtain ⟨r1, r2, r3, r4, r5, r6⟩ := joinFrom_ok _ _ _ _ wb gb (by omega) h1
    obtain ⟨q1, q2, q3, q4, q5, q6⟩ := joinFrom_ok _ _ _ _ r1 r3 (by omega) h
    refine ⟨q1, by rw [q2, r2, hn], q3, ?_, fun t => (r4 t).trans (q4 t), fun t h1 h2 => q6 t (r6 t h2 h1) h2⟩
    intro t
    by_cases ht : t < b.n
    · exact (r5 t (Nat.zero_le _) ht).trans (q4 t)
    · rw [q1.big t (by rw [q2, r2]; exact Nat.not_lt.1 ht)]; trivial

end Verif.JitState
