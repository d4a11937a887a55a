import Verif.Sync.Basic
import Verif.Sync.Spec

/-!
# The owner recorded in a mutex is its holder
-/

namespace Verif.Sync

/-- The holder of `m` according to `@owner` (`locked?`, l.405-410). -/
def World.holder (w : World) (m : MId) : List Nat :=
  match (w.mx m).owner with
  | none => []
  | some t => if (w.th t).status = .dead then [] else [t]

def Own (w : World) : Prop := ∀ m, holders w.log m = w.holder m

theorem holders_rets {t : Nat} {l : List Ev} (h : ∀ e ∈ l, IsRet t e) (log : List Ev) (m : MId) :
    holders (log ++ l) m = holders log m := by
  induction l generalizing log with
  | nil => simp
  | cons e l ih =>
    have e1 : log ++ e :: l = log ++ [e] ++ l := by simp
    rw [e1, ih (fun x hx => h x (by simp [hx])), holders_snoc]
    obtain ⟨c, r, rfl⟩ := h e (by simp)
    rfl

theorem Loc.dead' {t : Nat} {w w' : World} (h : Loc t w w') (u : Nat) :
    (w'.th u).status = .dead ↔ (w.th u).status = .dead := by
  by_cases e : u = t
  · subst e; exact h.dead
  · rw [h.th u e]

theorem Loc.own {t : Nat} {w w' : World} (h : Loc t w w') (o : Own w) : Own w' := by
  intro m
  obtain ⟨l, e, hl⟩ := h.log
  rw [e, holders_rets hl, o m]
  unfold World.holder
  rw [h.owner m]
  cases (w.mx m).owner with
  | none => rfl
  | some x => simp only [h.dead' x]

/-- A step that changes neither owners, nor the living, nor the holders. -/
theorem Own.same {w w' : World} (o : Own w) (h1 : ∀ m, (w'.mx m).owner = (w.mx m).owner)
    (h2 : ∀ u, (w'.th u).status = .dead ↔ (w.th u).status = .dead)
    (h3 : ∀ m, holders w'.log m = holders w.log m) : Own w' := by
  intro m
  rw [h3, o m]
  unfold World.holder
  rw [h1]
  cases (w.mx m).owner with
  | none => rfl
  | some x => simp only [h2 x]

theorem wake_mx (w : World) (x : Nat) : (w.wake x).mx = w.mx := by
  unfold World.wake; split <;> rfl
theorem wake_cv (w : World) (x : Nat) : (w.wake x).cv = w.cv := by
  unfold World.wake; split <;> rfl
theorem wake_qu (w : World) (x : Nat) : (w.wake x).qu = w.qu := by
  unfold World.wake; split <;> rfl
theorem wake_log (w : World) (x : Nat) : (w.wake x).log = w.log := by
  unfold World.wake; split <;> rfl
theorem wake_pc (w : World) (x u : Nat) : ((w.wake x).th u).pc = (w.th u).pc := by
  unfold World.wake
  split
  · rfl
  · by_cases e : u = x
    · subst e; simp
    · rw [setTh_ne _ _ e]
  · by_cases e : u = x
    · subst e; simp
    · rw [setTh_ne _ _ e]

theorem wake_call (w : World) (x u : Nat) : ((w.wake x).th u).call = (w.th u).call := by
  unfold World.wake
  split
  · rfl
  · by_cases e : u = x
    · subst e; simp
    · rw [setTh_ne _ _ e]
  · by_cases e : u = x
    · subst e; simp
    · rw [setTh_ne _ _ e]

theorem wake_ne (w : World) {x u : Nat} (h : u ≠ x) : (w.wake x).th u = w.th u := by
  unfold World.wake
  split
  · rfl
  · rw [setTh_ne _ _ h]
  · rw [setTh_ne _ _ h]

theorem wake_isDead (w : World) (x u : Nat) :
    ((w.wake x).th u).status = .dead ↔ (w.th u).status = .dead := by
  by_cases e : u = x
  · subst e
    unfold World.wake
    split
    · rfl
    · next h => simp [h]
    · next h => simp
  · rw [wake_ne w e]

theorem Prim.isDead {t : Nat} {w w1 : World} (p : Prim t w w1) (u : Nat) :
    (w1.th u).status = .dead ↔ (w.th u).status = .dead := by
  cases p <;> first | exact .rfl | (rw [wake_isDead]; exact .rfl)

theorem Prim.own {t : Nat} {w w1 : World} (p : Prim t w w1) (ht : (w.th t).status ≠ .dead)
    (o : Own w) : Own w1 := by
  have hd := p.isDead
  cases p with
  | none => exact o
  | acquire m h =>
    intro m'
    have := o m'
    unfold World.holder at this ⊢
    rw [ev_log, setMx_log, holders_snoc, this]
    by_cases e : m' = m
    · subst e; simp [held, h, ht]
    · have e' : m ≠ m' := fun h => e h.symm
      simp [held, e', setMx_ne w _ e]
      cases (w.mx m').owner <;> rfl
  | reclaim m x h hx =>
    have hx' : (w.th x).status = .dead := by simpa [World.alive] using hx
    intro m'
    have := o m'
    unfold World.holder at this ⊢
    rw [setMx_log, this]
    by_cases e : m' = m
    · subst e; simp [h, hx']
    · simp [setMx_ne w _ e]
      cases (w.mx m').owner <;> rfl
  | release m h =>
    intro m'
    have := o m'
    unfold World.holder at this ⊢
    rw [ev_log, setMx_log, holders_snoc, this]
    by_cases e : m' = m
    · subst e; simp [held, h, ht]
    · have e' : m ≠ m' := fun h => e h.symm
      simp [held, e', setMx_ne w _ e]
      cases (w.mx m').owner <;> rfl
  | enlist m x h hx =>
    refine o.same (fun m' => ?_) hd fun _ => rfl
    by_cases e : m' = m
    · subst e; simp
    · simp [setMx_ne w _ e]
  | wakeMx m x xs h =>
    refine o.same (fun m' => ?_) hd fun _ => by rw [wake_log]; rfl
    rw [wake_mx]
    by_cases e : m' = m
    · subst e; simp
    · simp [setMx_ne w _ e]
  | cvAdd c => exact o.same (fun _ => rfl) hd fun _ => rfl
  | wakeCv c x xs h =>
    exact o.same (fun m' => by rw [wake_mx]; rfl) hd fun _ => by rw [wake_log]; rfl
  | ins q v _ _ _ => exact o.same (fun _ => rfl) hd fun _ => by rw [ev_log, holders_snoc]; rfl
  | took q op _ => exact o.same (fun _ => rfl) hd fun _ => by rw [ev_log, holders_snoc]; rfl
  | cleared q op _ => exact o.same (fun _ => rfl) hd fun _ => by rw [ev_log, holders_snoc]; rfl
  | closed q _ => exact o.same (fun _ => rfl) hd fun _ => by rw [ev_log, holders_snoc]; rfl
  | resized q n old _ _ => exact o.same (fun _ => rfl) hd fun _ => by rw [ev_log, holders_snoc]; rfl

/-! ## Every action -/

/-- What an action does: the thread that acts makes a change others see and goes on by itself, or
ends, or a thread is woken or sent an interrupt. -/
inductive Moves (w : World) : World → Prop
  | by_ (t : Nat) (w1 w' : World) (h : (w.th t).status ≠ .dead) (p : Prim t w w1) (l : Loc t w1 w') :
    Moves w w'
  | ends (t : Nat) (hp : (w.th t).pc = .user) (hs : (w.th t).status = .run) :
    Moves w ((w.setTh t fun x => { x with status := .dead }).ev (.ended t))

theorem step_moves {w w' : World} {a : Act} (h : w.step a = some w') : Moves w w' := by
  cases a with
  | call t c d =>
    simp only [World.step] at h
    split_ifs at h with hf
    have hs : (w.th t).status = .run := by
      simp only [World.free, Bool.and_eq_true, beq_iff_eq] at hf; exact hf.1
    have l0 : Loc t w (w.setTh t fun x => { x with call := some c }) := Loc.setTh .rfl
    refine .by_ t w w' (by simp [hs]) .none (l0.trans ?_)
    split at h
    · obtain rfl := Option.some.inj h
      exact loc_parkNap _ _ _ _ (by simp [hs])
    · obtain rfl := Option.some.inj h
      exact Loc.setPc ..
  | step t d =>
    simp only [World.step] at h
    split_ifs at h with ha hi
    · have hs : (w.th t).status = .run := by
        simp only [World.active, Bool.and_eq_true, beq_iff_eq] at ha; exact ha.1
      obtain rfl := Option.some.inj h
      exact .by_ t w _ (by simp [hs]) .none
        ((loc_takeIntr w t).trans (loc_raiseAt _ _ _ (by simp [World.takeIntr, hs])))
    · have hs : (w.th t).status = .run := by
        simp only [World.active, Bool.and_eq_true, beq_iff_eq] at ha; exact ha.1
      obtain rfl := Option.some.inj h
      obtain ⟨w1, p, l⟩ := go_prim w t d (by simp [hs])
      exact .by_ t w1 _ (by simp [hs]) p (l (by rw [Ne, p.isDead]; simp [hs]))
  | exit t =>
    simp only [World.step] at h
    split_ifs at h with hf
    obtain rfl := Option.some.inj h
    simp only [World.free, Bool.and_eq_true, beq_iff_eq] at hf
    exact .ends t hf.2 hf.1
  | wakeup t =>
    simp only [World.step] at h
    split at h
    · next b hs =>
      obtain rfl := Option.some.inj h
      exact .by_ t w _ (by simp [hs]) .none (Loc.setTh (by simp [hs]))
    · cases h
  | timeout t =>
    simp only [World.step] at h
    split at h
    · next hs =>
      obtain rfl := Option.some.inj h
      exact .by_ t w _ (by simp [hs]) .none (Loc.setTh (by simp [hs]))
    · cases h
  | send t =>
    simp only [World.step] at h
    split at h
    · cases h
    · next b hs =>
      split_ifs at h
      · obtain rfl := Option.some.inj h
        exact .by_ t w _ (by simp [hs]) .none (Loc.setTh (by simp [hs]))
      · obtain rfl := Option.some.inj h
        exact .by_ t w _ (by simp [hs]) .none (Loc.setTh (by simp))
    · next hs =>
      obtain rfl := Option.some.inj h
      exact .by_ t w _ (by simp [hs]) .none (Loc.setTh (by simp))

theorem Moves.own {w w' : World} (h : Moves w w') (o : Own w) : Own w' := by
  cases h with
  | by_ t w1 w' ht p l => exact l.own (p.own ht o)
  | ends t hp hs =>
    intro m
    have := o m
    unfold World.holder at this ⊢
    rw [ev_log, setTh_log, holders_snoc, this]
    rw [ev_mx, setTh_mx]
    cases e : (w.mx m).owner with
    | none => simp [held]
    | some x =>
      simp only [held, ev_th]
      by_cases ex : x = t
      · subst ex; simp [hs]
      · have e2 := setTh_ne w (fun x => { x with status := .dead }) ex
        simp only [e2]
        by_cases hx : (w.th x).status = .dead <;> simp [hx, ex]

theorem init_own (caps : Nat → Option Nat) : Own (init caps) := fun _ => rfl

/-- Induction over runs. -/
theorem run_induct {P : World → Prop} {w : World} (h0 : P w)
    (hs : ∀ w w' a, P w → w.step a = some w' → P w') :
    ∀ {as w'}, w.run as = some w' → P w' := by
  intro as
  induction as generalizing w with
  | nil => intro w' h; cases h; exact h0
  | cons a as ih =>
    intro w' h
    simp only [World.run] at h
    split at h
    · next w1 e => exact ih (hs w w1 a h0 e) h
    · cases h

end Verif.Sync
