import Verif.JitState.ProgRun

/-! When no two variables share a register and no literal meets a register, a bridge ends
with every variable in its register. -/

namespace Verif.JitState

/-- no two variables share a register -/
def Apart (st : St) : Prop := ∀ s t x, (st.mode s).reg = some x → (st.mode t).reg = some x → s = t

/-- no literal of `st` meets a register of `T` -/
def NoLit (st T : St) : Prop := ∀ s v, st.mode s = .C v → (T.mode s).reg = none

/-- What one bridge step does to the registers: none moves but the slot's own, or two are
exchanged. -/
structure Placed (st st' : St) (T : Mode) (s : Slot) : Prop where
  wf : WF st'
  gp : ∀ r, st'.gp r = none
  n : st'.n = st.n
  len : st'.vf.length = st.vf.length
  at_ : ∀ x, T.reg = some x → (st'.mode s).reg = some x
  move : (∀ t, t ≠ s → st'.mode t = st.mode t) ∧
      (∀ x, (st'.mode s).reg = some x → ∀ t, t ≠ s → (st.mode t).reg ≠ some x) ∨
    ∃ l r, (st.mode s).reg = some l ∧ T.reg = some r ∧ ∀ t, t ≠ s → st'.mode t = (st.mode t).swap l r

theorem placed_relink {st : St} (w : WF st) (hgp : ∀ r, st.gp r = none) {s : Slot} {M T : Mode} (hs : s < st.n)
    (hM : ∀ y, M.reg = some y → y < st.vf.length) (hT : ∀ x, T.reg = some x → M.reg = some x)
    (hv : ∀ x, M.reg = some x → ∀ t, t ≠ s → (st.mode t).reg ≠ some x) : Placed st (st.relink s M) T s := by
  obtain ⟨f1, f2, f3, f4, f5⟩ := relink_fields st s M
  refine ⟨relink_wf w (.inl hs) hM, ?_, f1, f5, ?_, .inl ⟨fun t ht => ?_, ?_⟩⟩
  · intro r; rw [f3]; simp [St.invalidate, hgp]
  · rw [f4, upd_same]; exact hT
  · rw [f4, upd_ne _ _ ht]
  · rw [f4, upd_same]; exact hv

theorem placed_same {st : St} (w : WF st) (ap : Apart st) (hgp : ∀ r, st.gp r = none) {s : Slot} {T : Mode}
    (hT : ∀ x, T.reg = some x → (st.mode s).reg = some x) : Placed st st T s :=
  ⟨w, hgp, rfl, rfl, hT, .inl ⟨fun _ _ => rfl, fun x hx t ht h => ht (ap t s x h hx)⟩⟩

theorem placed_swap {st : St} (w : WF st) (hgp : ∀ r, st.gp r = none) {s : Slot} {T : Mode} {l r : FReg}
    (hl : (st.mode s).reg = some l) (hT : T.reg = some r) (hr : r < st.vf.length) : Placed st (st.fprSwap l r) T s := by
  have hll := reg_lt w hl
  refine ⟨swap_wf w hll hr hgp, hgp, rfl, by simp [St.fprSwap], ?_, .inr ⟨l, r, hl, hT, fun _ _ => rfl⟩⟩
  intro x hx
  rw [hT] at hx; cases hx
  show ((st.mode s).swap l r).reg = some r
  rw [swap_reg, hl]
  simp [swapReg]

theorem placed_swap_relink {st : St} (w : WF st) (ap : Apart st) (hgp : ∀ r, st.gp r = none) {s : Slot} {T M : Mode} {l r : FReg}
    (hs : s < st.n) (hl : (st.mode s).reg = some l) (hT : T.reg = some r) (hM : M.reg = some r) (hr : r < st.vf.length) :
    Placed st ((st.fprSwap l r).relink s M) T s := by
  have p := placed_swap w hgp hl hT hr
  obtain ⟨f1, f2, f3, f4, f5⟩ := relink_fields (st.fprSwap l r) s M
  refine ⟨relink_wf p.wf (.inl hs) (fun y hy => ?_), ?_, f1, by rw [f5, p.len], ?_, .inr ⟨l, r, hl, hT, fun t ht => ?_⟩⟩
  · rw [hM] at hy; cases hy; rw [p.len]; exact hr
  · intro q; rw [f3]; simp [St.invalidate, p.gp]
  · intro x hx; rw [f4, upd_same, hM, ← hT, hx]
  · rw [f4, upd_ne _ _ ht]; rfl

theorem toSf_placed {st : St} (w : WF st) (hgp : ∀ r, st.gp r = none) {s : Slot} {T : Mode} {l r : FReg} (g : SfG)
    (hs : s < st.n) (hl : (st.mode s).reg = some l) (hT : T.reg = some r) (hr : r < st.vf.length) :
    Placed st (st.toSf s l r g).1 T s := by
  unfold St.toSf
  by_cases hv : st.vacant r = true
  · rw [if_pos hv]
    refine placed_relink (M := .Sf r g) w hgp hs (fun y hy => by cases hy; exact hr) (fun x hx => by rw [hT] at hx; exact hx) ?_
    intro x hx t _ h
    cases hx
    exact vacant_ne w hv t r h rfl
  · rw [if_neg hv]
    exact placed_swap w hgp hl hT hr

theorem bridge1_placed {st st' : St} {T : Mode} {s : Slot} {ins : List Ins}
    (w : WF st) (ap : Apart st) (hgp : ∀ r, st.gp r = none) (hs : s < st.n) (hle : Le (st.mode s) T)
    (hlit : ∀ v, st.mode s = .C v → T.reg = none) (e : st.bridge1 T s = some (st', ins)) : Placed st st' T s := by
  unfold St.bridge1 at e
  by_cases hlen : T.beyond st.vf.length = true
  · rw [if_pos hlen] at e; cases e
  rw [if_neg hlen] at e
  have same := placed_same (T := T) w ap hgp (s := s)
  have gone : ∀ M : Mode, T.reg = none → M.reg = none → Placed st (st.relink s M) T s := fun M h1 h2 =>
    placed_relink w hgp hs (fun y hy => by rw [h2] at hy; cases hy) (fun y hy => by rw [h1] at hy; cases hy)
      (fun y hy => by rw [h2] at hy; cases hy)
  have keep : ∀ (M : Mode) (l : FReg), (st.mode s).reg = some l → M.reg = some l → (∀ x, T.reg = some x → x = l) →
      Placed st (st.relink s M) T s := fun M l h1 h2 h3 =>
    placed_relink w hgp hs (fun y hy => by rw [h2] at hy; cases hy; exact reg_lt w h1)
      (fun x hx => by rw [h3 x hx]; exact h2)
      (fun x hx t ht h => ht (ap t s x h (by rw [h1, ← h2, hx])))
  have fresh : ∀ (M : Mode) (r : FReg), T.reg = some r → M.reg = some r → r < st.vf.length → st.vacant r = true →
      Placed st (st.relink s M) T s := fun M r h1 h2 hr hv =>
    placed_relink w hgp hs (fun y hy => by rw [h2] at hy; cases hy; exact hr) (fun x hx => by rw [h2, ← h1, hx])
      (fun x hx t _ h => by rw [h2] at hx; cases hx; exact vacant_ne w hv t r h rfl)
  cases T with
  | V =>
    have key : Placed st (st.relink s .V) .V s := gone .V rfl rfl
    cases hm : st.mode s with
    | V =>
      simp only [hm, Option.some.injEq, Prod.mk.injEq] at e
      obtain ⟨rfl, _⟩ := e
      exact same (fun x hx => by cases hx)
    | _ =>
      simp only [hm, Option.map_eq_some_iff, Prod.mk.injEq] at e
      obtain ⟨st1, hd, rfl, _⟩ := e
      obtain ⟨_, _, rfl⟩ := discard_some hd
      rw [clear_eq]; exact key
  | F r =>
    have hr : r < st.vf.length := by
      simp only [Mode.beyond, decide_eq_true_eq] at hlen
      exact Nat.lt_of_not_le hlen
    cases hm : st.mode s with
    | F l =>
      simp only [hm] at e
      have hl : (st.mode s).reg = some l := by rw [hm]; rfl
      split_ifs at e with h1 h2 <;> simp only [Option.some.injEq, Prod.mk.injEq] at e <;> obtain ⟨rfl, _⟩ := e
      · subst h1; exact same (fun x hx => by rw [hl]; exact hx)
      · rw [setF_eq]; exact fresh _ r rfl rfl hr h2
      · exact placed_swap w hgp hl rfl hr
    | Sf l g =>
      simp only [hm] at e
      have hl : (st.mode s).reg = some l := by rw [hm]; rfl
      split_ifs at e with h1 h2 <;> simp only [Option.some.injEq, Prod.mk.injEq] at e <;> obtain ⟨rfl, _⟩ := e
      · subst h1; rw [setF_eq]; exact keep _ l hl rfl (fun x hx => by cases hx; rfl)
      · rw [setF_eq]; exact fresh _ r rfl rfl hr h2
      · rw [setF_eq]; exact placed_swap_relink w ap hgp hs hl rfl rfl hr
    | C v => exact absurd (hlit v hm) (by simp [Mode.reg])
    | S g => rw [hm] at hle; rcases hle with h | ⟨f, h⟩ <;> simp [Mode.isF] at h
    | V => rw [hm] at hle; rcases hle with h | ⟨f, h⟩ <;> simp [Mode.isF] at h
    | none => rw [hm] at hle; rcases hle with h | ⟨f, h⟩ <;> simp [Mode.isF] at h
    | maybeNone => rw [hm] at hle; rcases hle with h | ⟨f, h⟩ <;> simp [Mode.isF] at h
  | Sf r g =>
    have hr : r < st.vf.length := by
      simp only [Mode.beyond, decide_eq_true_eq] at hlen
      exact Nat.lt_of_not_le hlen
    cases hm : st.mode s with
    | F l =>
      have hl : (st.mode s).reg = some l := by rw [hm]; rfl
      have hg : g ≠ .fixnum := by
        rw [hm] at hle
        rcases hle with ⟨x, _, hg⟩ | ⟨x, h, hx, _⟩ | ⟨v, h, hx, _⟩
        · exact hg
        · cases hx
        · cases hx
      have e' : (if l = r then some (st.setSf s l g, [Ins.x2s l s])
          else let q := st.toSf s l r g; some (q.1, .x2s l s :: q.2)) = some (st', ins) := by
        cases g with
        | fixnum => exact absurd rfl hg
        | float => simpa only [hm] using e
        | both => simpa only [hm] using e
      split_ifs at e' with h1 <;> simp only [Option.some.injEq, Prod.mk.injEq] at e' <;> obtain ⟨rfl, _⟩ := e'
      · subst h1; rw [setSf_eq]; exact keep _ l hl rfl (fun x hx => by cases hx; rfl)
      · exact toSf_placed w hgp g hs hl rfl hr
    | Sf l g' =>
      have hl : (st.mode s).reg = some l := by rw [hm]; rfl
      simp only [hm] at e
      split_ifs at e with h1
      · simp only [Option.some.injEq, Prod.mk.injEq] at e
        obtain ⟨rfl, _⟩ := e
        subst h1; exact same (fun x hx => by rw [hl]; exact hx)
      · have := toSf_placed (T := .Sf r g) w hgp g hs hl rfl hr
        simp only [Option.some.injEq] at e
        rw [e] at this
        exact this
    | C v => exact absurd (hlit v hm) (by simp [Mode.reg])
    | S k => rw [hm] at hle; rcases hle with ⟨_, h, _⟩ | ⟨_, _, h, _⟩ | ⟨_, _, h, _⟩ <;> cases h
    | V => rw [hm] at hle; rcases hle with ⟨_, h, _⟩ | ⟨_, _, h, _⟩ | ⟨_, _, h, _⟩ <;> cases h
    | none => rw [hm] at hle; rcases hle with ⟨_, h, _⟩ | ⟨_, _, h, _⟩ | ⟨_, _, h, _⟩ <;> cases h
    | maybeNone => rw [hm] at hle; rcases hle with ⟨_, h, _⟩ | ⟨_, _, h, _⟩ | ⟨_, _, h, _⟩ <;> cases h
  | S g =>
    cases hm : st.mode s with
    | F l =>
      simp only [hm, St.writeBackSlot] at e
      have hmi : (st.invalidate s).mode = st.mode := rfl
      rw [hmi, hm] at e
      simp only [Option.some.injEq, Prod.mk.injEq] at e
      obtain ⟨rfl, _⟩ := e
      have hinv : st.invalidate s = st := by
        unfold St.invalidate
        have : (fun r => match st.gp r with
          | some h => if h.slot = s then none else some h
          | none => none) = st.gp := by
          funext r; rw [hgp r]
        cases st; simp_all
      rw [hinv, setSf_eq]
      exact keep _ l (by rw [hm]; rfl) rfl (fun x hx => by cases hx)
    | Sf l k =>
      simp only [hm, Option.some.injEq, Prod.mk.injEq] at e
      obtain ⟨rfl, _⟩ := e
      exact gone (.S k.toG) rfl rfl
    | S k =>
      simp only [hm] at e
      split_ifs at e with h1 <;> simp only [Option.some.injEq, Prod.mk.injEq] at e <;> obtain ⟨rfl, _⟩ := e
      · exact gone (.S g) rfl rfl
      · exact same (fun x hx => by cases hx)
    | C v =>
      have hsp : st' = st.setMode s (.S (Guarded.ofVal v)) := by
        cases v <;> simp only [hm, Option.some.injEq, Prod.mk.injEq] at e <;> exact e.1.symm
      subst hsp
      refine ⟨?_, hgp, rfl, rfl, fun x hx => (by cases hx), .inl ⟨fun t ht => (by simp [St.setMode, ht]), ?_⟩⟩
      · have hmode : ∀ t, (st.setMode s (.S (Guarded.ofVal v))).mode t = if t = s then .S (Guarded.ofVal v) else st.mode t := fun _ => rfl
        refine ⟨fun x t => ?_, w.inj, w.lt, fun r h hg => (by rw [show (st.setMode s (.S (Guarded.ofVal v))).gp r = st.gp r from rfl, hgp] at hg; cases hg), fun t ht => ?_⟩
        · rw [hmode]
          have : (st.setMode s (.S (Guarded.ofVal v))).slots x = st.slots x := rfl
          rw [this, w.vf]
          by_cases ht : t = s
          · subst ht; rw [hm, if_pos rfl]; simp [Mode.reg]
          · rw [if_neg ht]
        · rw [hmode, if_neg]
          · exact w.big t ht
          · rintro rfl
            have hs' : t < st.n := hs
            have ht' : st.n ≤ t := ht
            omega
      · intro x hx; simp [St.setMode, Mode.reg] at hx
    | V => have := hle.1; rw [hm] at this; cases this
    | none => have := hle.1; rw [hm] at this; cases this
    | maybeNone => have := hle.1; rw [hm] at this; cases this
  | C v =>
    have hm : st.mode s = .C v := hle
    have e' : st' = st := by
      cases v <;> simp [hm] at e <;> exact e.1.symm
    subst e'
    exact same (fun x hx => by cases hx)
  | none =>
    have e' : st' = st := by
      cases hm : st.mode s <;> simp only [hm] at e <;> try cases e
      · rfl
    subst e'
    exact same (fun x hx => by cases hx)
  | maybeNone =>
    have e' : st' = st := by
      cases hm : st.mode s <;> simp only [hm] at e <;> try cases e
      · rfl
    subst e'
    exact same (fun x hx => by cases hx)

theorem swapReg_ne {l r x : FReg} (h1 : x ≠ l) (h2 : x ≠ r) : swapReg l r x = x := by simp [swapReg, h1, h2]

theorem Placed.apart {st st' : St} {T : Mode} {s : Slot} (p : Placed st st' T s) (ap : Apart st) : Apart st' := by
  rcases p.move with ⟨hs, hv⟩ | ⟨l, r, hl, hr, hs⟩
  · intro a b x ha hb
    by_cases h1 : a = s
    · by_cases h2 : b = s
      · rw [h1, h2]
      · subst h1; rw [hs b h2] at hb; exact absurd hb (hv x ha b h2)
    · by_cases h2 : b = s
      · subst h2; rw [hs a h1] at ha; exact absurd ha (hv x hb a h1)
      · rw [hs a h1] at ha; rw [hs b h2] at hb; exact ap a b x ha hb
  · -- in every slot, the new register is the old one renamed
    have key : ∀ t x, (st'.mode t).reg = some x → ∃ y, (st.mode t).reg = some y ∧ x = swapReg l r y := by
      intro t x hx
      by_cases ht : t = s
      · subst ht
        have := p.at_ r hr
        rw [this] at hx; cases hx
        exact ⟨l, hl, by simp [swapReg]⟩
      · rw [hs t ht, swap_reg, Option.map_eq_some_iff] at hx
        obtain ⟨y, hy, rfl⟩ := hx
        exact ⟨y, hy, rfl⟩
    intro a b x ha hb
    obtain ⟨y, hy, h1⟩ := key a x ha
    obtain ⟨z, hz, h2⟩ := key b x hb
    have : y = z := by rw [← swapReg_inv l r y, ← swapReg_inv l r z, ← h1, ← h2]
    subst this
    exact ap a b y hy hz

theorem bridgeSafeFrom_apart {T : St} (aT : Apart T) : ∀ (k : Nat) (s : Nat) (st st' : St) (ins : List Ins),
    WF st → Apart st → (∀ r, st.gp r = none) → s + k = st.n →
    (∀ t : Nat, s ≤ t → Le (st.mode t) (T.mode t)) →
    (∀ (t : Nat) v, s ≤ t → st.mode t = .C v → (T.mode t).reg = none) →
    (∀ (t : Nat) x, t < s → (T.mode t).reg = some x → (st.mode t).reg = some x) →
    st.bridgeFrom T k s = some (st', ins) → bridgeSafeFrom T st k s = true := by
  intro k
  induction k with
  | zero =>
    intro s st st' ins w ap hgp hn hle hlit hdone e
    unfold bridgeSafeFrom
    rw [List.all_eq_true]
    intro t ht
    rw [List.mem_range] at ht
    unfold regMatch
    cases hx : (T.mode t).reg with
    | none => rfl
    | some x => simp only [decide_eq_true_eq]; exact hdone t x (by omega) hx
  | succ k ih =>
    intro s st st' ins w ap hgp hn hle hlit hdone e
    unfold St.bridgeFrom at e
    unfold bridgeSafeFrom
    cases hb : st.bridge1 (T.mode s) s with
    | none => simp [hb] at e
    | some q =>
      obtain ⟨st1, i1⟩ := q
      simp only [hb, Option.map_eq_some_iff, Prod.mk.injEq] at e
      obtain ⟨⟨st2, i2⟩, e, rfl, rfl⟩ := e
      have hs : s < st.n := by omega
      have p := bridge1_placed w ap hgp hs (hle s (Nat.le_refl s)) (fun v hv => hlit s v (Nat.le_refl s) hv) hb
      have hfree : litFree st (T.mode s) s = true := by
        unfold litFree
        cases hm : st.mode s with
        | C v =>
          have := hlit s v (Nat.le_refl s) hm
          cases hT : T.mode s <;> rw [hT] at this <;> simp [Mode.reg] at this <;> rfl
        | _ => rfl
      have hmode : ∃ l r, ∀ t, t ≠ s → st1.mode t = (st.mode t).swap l r := by
        rcases p.move with ⟨h, _⟩ | ⟨l, r, _, _, h⟩
        · exact ⟨0, 0, fun t ht => by rw [h t ht, Mode.swap_self]⟩
        · exact ⟨l, r, h⟩
      have rest := ih (s + 1) st1 st2 i2 p.wf (p.apart ap) p.gp (by rw [p.n]; omega)
        (fun t ht => by
          obtain ⟨l, r, h⟩ := hmode
          have hts : t ≠ s := by intro h; omega
          rw [h t hts]; exact swap_le (hle t (by omega)))
        (fun t v ht hv => by
          obtain ⟨l, r, h⟩ := hmode
          have hts : t ≠ s := by intro h; omega
          rw [h t hts] at hv
          refine hlit t v (by omega) ?_
          cases hm : st.mode t <;> rw [hm] at hv <;> simp [Mode.swap] at hv
          rw [hv])
        (fun t x ht hx => by
          by_cases hts : t = s
          · subst hts; exact p.at_ x hx
          · have hlt : t < s := by omega
            have hold := hdone t x hlt hx
            rcases p.move with ⟨h, _⟩ | ⟨l, r, hl, hr, h⟩
            · rw [h t hts]; exact hold
            · rw [h t hts, swap_reg, hold]
              have h1 : x ≠ l := by rintro rfl; exact hts (ap t s x hold hl)
              have h2 : x ≠ r := by rintro rfl; exact hts (aT t s x hx hr)
              rw [Option.map_some, swapReg_ne h1 h2]) e
      simp only [hfree, hb, Bool.true_and]
      exact rest

/-- A bridge between states without sharing is safe. -/
theorem bridgeSafe_apart {st T st' : St} {ins : List Ins} (w : WF st) (hgp : ∀ r, st.gp r = none)
    (ap : Apart st) (aT : Apart T) (hlit : NoLit st T) (hle : ∀ t, Le (st.mode t) (T.mode t))
    (e : st.bridge T = some (st', ins)) : bridgeSafe st T = true :=
  bridgeSafeFrom_apart aT st.n 0 (st.growTo T.vf.length) st' ins (growTo_wf w _) ap hgp (Nat.zero_add _)
    (fun t _ => hle t) (fun t v _ h => hlit t v h) (fun t x h => absurd h (Nat.not_lt_zero t)) e

/-! ### The meet keeps variables apart -/

theorem alloc_apart {st : St} (w : WF st) (ap : Apart st) : Apart st.alloc.1 := by
  have sp := (alloc_spec w).2
  intro a b x ha hb
  have key : ∀ t, (st.alloc.1.mode t).reg = some x → (st.mode t).reg = some x := by
    intro t ht
    rcases sp.mode t with h | ⟨g, h, h'⟩
    · rw [← h]; exact ht
    · rw [h'] at ht; cases ht
  exact ap a b x (key a ha) (key b hb)

theorem relink_apart {st : St} (ap : Apart st) {s : Slot} {M : Mode}
    (hM : ∀ x, M.reg = some x → ∀ t, t ≠ s → (st.mode t).reg ≠ some x) : Apart (st.relink s M) := by
  obtain ⟨_, _, _, f4, _⟩ := relink_fields st s M
  intro a b x ha hb
  rw [f4] at ha hb
  by_cases h1 : a = s
  · by_cases h2 : b = s
    · rw [h1, h2]
    · subst h1; rw [upd_same] at ha; rw [upd_ne _ _ h2] at hb; exact absurd hb (hM x ha b h2)
  · by_cases h2 : b = s
    · subst h2; rw [upd_same] at hb; rw [upd_ne _ _ h1] at ha; exact absurd ha (hM x hb a h1)
    · rw [upd_ne _ _ h1] at ha; rw [upd_ne _ _ h2] at hb; exact ap a b x ha hb

theorem applyJoin_apart {st st' : St} (w : WF st) (ap : Apart st) {s : Slot} {b : Mode}
    {act : JoinAct} (hact : actSpec (st.mode s) b act) (h : st.applyJoin s act = some st') : Apart st' := by
  have gone : ∀ M : Mode, M.reg = none → Apart (st.relink s M) := fun M hM =>
    relink_apart ap (fun x hx => by rw [hM] at hx; cases hx)
  have keep : ∀ (M : Mode) (x : FReg), (st.mode s).reg = some x → M.reg = some x → Apart (st.relink s M) :=
    fun M x h1 h2 => relink_apart ap (fun y hy t ht h => ht (ap t s y h (by rw [h1, ← h2, hy])))
  have fresh : ∀ (st1 : St) (x : FReg) (M : Mode), st.tryAlloc = some (st1, x) → M.reg = some x → Apart (st1.relink s M) := by
    intro st1 x M ha hM
    have h1 := alloc_apart w ap
    have sp := (alloc_spec w).2
    rw [tryAlloc_alloc ha] at h1 sp
    exact relink_apart h1 (fun y hy t _ h => by rw [hM] at hy; cases hy; exact sp.vacant t h)
  cases act with
  | nop => cases h; exact ap
  | setMaybeNone =>
    simp only [St.applyJoin, Option.some.injEq] at h
    subst h
    exact gone .maybeNone rfl
  | discard =>
    obtain ⟨_, _, rfl⟩ := discard_some h
    rw [clear_eq]; exact gone .V rfl
  | freshFKeep =>
    simp only [St.applyJoin, Option.some.injEq, St.tryNewF] at h
    cases ha : st.tryAlloc with
    | none => rw [ha] at h; cases h; exact ap
    | some q => obtain ⟨st1, x⟩ := q; rw [ha] at h; cases h; exact fresh st1 x (.F x) ha rfl
  | freshFElseS =>
    simp only [St.applyJoin, Option.some.injEq, St.tryNewF] at h
    cases ha : st.tryAlloc with
    | none => rw [ha] at h; cases h; exact gone (.S .float) rfl
    | some q => obtain ⟨st1, x⟩ := q; rw [ha] at h; cases h; exact fresh st1 x (.F x) ha rfl
  | setSf x g => cases h; exact keep (.Sf x g) x hact.1 rfl
  | freshSfElseKeep x g =>
    simp only [St.applyJoin, Option.some.injEq, St.tryNewSf] at h
    cases ha : st.tryAlloc with
    | none => rw [ha] at h; cases h; exact keep (.Sf x g) x hact.1 rfl
    | some q => obtain ⟨st1, y⟩ := q; rw [ha] at h; cases h; exact fresh st1 y (.Sf y g) ha rfl
  | freshSfElseS g =>
    simp only [St.applyJoin, Option.some.injEq, St.tryNewSf] at h
    cases ha : st.tryAlloc with
    | none => rw [ha] at h; cases h; exact gone (.S g.toG) rfl
    | some q => obtain ⟨st1, y⟩ := q; rw [ha] at h; cases h; exact fresh st1 y (.Sf y g) ha rfl
  | setS g => cases h; exact gone (.S g) rfl

theorem joinFrom_apart {other : St} : ∀ (k s : Nat) (st st' : St), WF st → (∀ r, st.gp r = none) → s + k = st.n →
    Apart st → st.joinFrom other k s = some st' → Apart st' := by
  intro k
  induction k with
  | zero => intro s st st' _ _ _ ap h; cases h; exact ap
  | succ k ih =>
    intro s st st' w hgp hn ap h
    unfold St.joinFrom at h
    cases hd : decideJoin (st.mode s) (other.mode s) with
    | none => simp [hd] at h
    | some act =>
      cases ha : st.applyJoin s act with
      | none => simp [hd, ha] at h
      | some st1 =>
        simp only [hd, ha] at h
        have hs : s < st.n := by omega
        have j := applyJoin_ok w hgp hs (decide_spec hd) (fun _ _ _ => trivial) ha
        have hgp1 : ∀ r, st1.gp r = none := by
          rcases j.gp with h | h
          · intro r; rw [h]; exact hgp r
          · exact h
        exact ih (s + 1) st1 st' j.wf hgp1 (by rw [j.n]; omega) (applyJoin_apart w ap (decide_spec hd) ha) h

theorem join2_apart {a b T : St} (wb : WF b) (gb : ∀ r, b.gp r = none) (ap : Apart b)
    (h : join2 a b = some T) : Apart T := by
  unfold join2 St.join at h
  cases h1 : b.joinFrom a b.n 0 with
  | none => simp [h1] at h
  | some t1 =>
    simp only [h1, Option.bind_some] at h
    obtain ⟨w1, n1, g1, _⟩ := joinFrom_ok b.n 0 b t1 wb gb (Nat.zero_add _) h1
    exact joinFrom_apart t1.n 0 t1 T w1 g1 (Nat.zero_add _) (joinFrom_apart b.n 0 b t1 wb gb (Nat.zero_add _) ap h1) h

/-! ### Programs -/

/-- No hazard inside a block; at the end of a branch no two variables share a register,
and no variable that is a literal there is in a register after the merge. -/
def progPlain (P : Prim) : St → Prog → Prop
  | st, .blk ops => blockSafe P st ops = true
  | st, .seq p q => progPlain P st p ∧ ∀ st1 cp, compileProg P st p = some (st1, cp) → progPlain P st1 q
  | st, .ite _ p q => progPlain P st.flushGp.1 p ∧ progPlain P st.flushGp.1 q ∧
      ∀ sp cp sq cq T, compileProg P st.flushGp.1 p = some (sp, cp) → compileProg P st.flushGp.1 q = some (sq, cq) →
        join2 sp.flushGp.1 sq.flushGp.1 = some T → Apart sp ∧ Apart sq ∧ NoLit sp T ∧ NoLit sq T

theorem plain_safe {P : Prim} : ∀ (p : Prog) (st stf : St) (code : Code), WF st →
    compileProg P st p = some (stf, code) → progPlain P st p → progSafe P st p = true := by
  intro p
  induction p with
  | blk ops => intro st stf code _ _ h; exact h
  | seq p q ihp ihq =>
    intro st stf code w h hp
    obtain ⟨st1, cp, cq, h1, h2, _⟩ := seqC h
    have s1 := ihp st st1 cp w h1 hp.1
    have s2 := ihq st1 stf cq (compileProg_wf _ _ _ _ w s1 h1).1 h2 (hp.2 st1 cp h1)
    unfold progSafe
    simp only [h1, s1, s2, Bool.and_self]
  | ite c p q ihp ihq =>
    intro st T code w h hp
    obtain ⟨x⟩ := iteC h
    have s1 := ihp _ _ _ (flushGp_wf w) x.hp hp.1
    have s2 := ihq _ _ _ (flushGp_wf w) x.hq hp.2.1
    obtain ⟨w1, n1⟩ := compileProg_wf _ _ _ _ (flushGp_wf w) s1 x.hp
    obtain ⟨w2, n2⟩ := compileProg_wf _ _ _ _ (flushGp_wf w) s2 x.hq
    obtain ⟨wT, nT, g, l1, l2, l3⟩ := join2_ok (flushGp_wf w1) (flushGp_wf w2) (flush_gp _) (flush_gp _)
      (by rw [flush_n, flush_n, n1, n2]) x.join
    obtain ⟨a1, a2, a3, a4⟩ := hp.2.2 _ _ _ _ _ x.hp x.hq x.join
    have aT := join2_apart (flushGp_wf w2) (flush_gp _) (show Apart x.sq.flushGp.1 from a2) x.join
    have b1 := bridgeSafe_apart (st := x.sp.flushGp.1) (flushGp_wf w1) (flush_gp _) a1 aT a3 l1 x.bridgeP
    have b2 := bridgeSafe_apart (st := x.sq.flushGp.1) (flushGp_wf w2) (flush_gp _) a2 aT a4 l2 x.bridgeQ
    unfold progSafe
    simp only [x.hp, x.hq, x.join, s1, s2, b1, b2, Bool.and_self]

end Verif.JitState
