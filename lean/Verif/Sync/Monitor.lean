import Mathlib.Tactic.SplitIfs
import Mathlib.Tactic.ByContra

/-!
# Monitor

`Monitor` (monoruby/builtins/monitor.rb l.8-66).  The methods are a few assignments and calls of
built-in methods without a poll in between, so each is one step.  `synchronize` (l.48-55) is `enter`,
the block, and `exit` in an `ensure`.  `MonitorMixin` (l.109-166) passes everything to a `Monitor` and is
not modelled.
-/

namespace Verif.Sync

inductive MonOp
  | enter
  | exit
  | tryEnter
  | owned
  | locked
deriving DecidableEq, Repr

inductive MonRes
  | self
  | bool (b : Bool)
  | notOwner
deriving DecidableEq, Repr

/-- `@owner` and `@count` (l.9-12). -/
structure Mon where
  owner : Option Nat := none
  count : Nat := 0
deriving DecidableEq, Repr

/-- A call by thread `t`: `enter` (l.14-18), `exit` (l.21-30), `try_enter` (l.33-44), `owned?`
(l.58-60), `locked?` (l.63-65). -/
def Mon.step (s : Mon) (t : Nat) : MonOp → Mon × MonRes
  | .enter => ({ owner := some t, count := s.count + 1 }, .self)
  | .exit =>
    if s.owner ≠ some t ∧ s.count > 0 then (s, .notOwner)
    else if s.count > 0 then
      if s.count - 1 = 0 then ({ owner := none, count := 0 }, .self)
      else ({ s with count := s.count - 1 }, .self)
    else (s, .self)
  | .tryEnter =>
    if s.owner = some t then ({ s with count := s.count + 1 }, .bool true)
    else if s.owner = none then ({ owner := some t, count := 1 }, .bool true)
    else (s, .bool false)
  | .owned => (s, .bool (decide (s.owner = some t)))
  | .locked => (s, .bool (decide (s.count > 0)))

/-- What happened: thread, method, result. -/
abbrev MonEv := Nat × MonOp × MonRes

def Mon.run (s : Mon) : List (Nat × MonOp) → List MonEv × Mon
  | [] => ([], s)
  | (t, op) :: l =>
    let (s', r) := s.step t op
    let (log, s'') := s'.run l
    ((t, op, r) :: log, s'')

/-- How often `t` is inside, after an event. -/
def inside (t : Nat) (d : Nat) : MonEv → Nat
  | (u, .enter, .self) => if u = t then d + 1 else d
  | (u, .tryEnter, .bool true) => if u = t then d + 1 else d
  | (u, .exit, .self) => if u = t then d - 1 else d
  | _ => d

/-- How often `t` is inside the monitor: calls of `enter` and successful calls of `try_enter`, less
calls of `exit`. -/
def depth (log : List MonEv) (t : Nat) : Nat := log.foldl (inside t) 0

/-- Every `enter` was made while no other thread was inside. -/
def Polite (log : List MonEv) : Prop :=
  ∀ l₁ t r l₂, log = l₁ ++ (t, .enter, r) :: l₂ → ∀ u, u ≠ t → depth l₁ u = 0

/-- The state agrees with what happened. -/
structure MonInv (s : Mon) (log : List MonEv) : Prop where
  depth : ∀ t, Verif.Sync.depth log t = if s.owner = some t then s.count else 0
  free : s.owner = none ↔ s.count = 0

theorem depth_snoc (log : List MonEv) (e : MonEv) (t : Nat) :
    depth (log ++ [e]) t = inside t (depth log t) e := by
  simp [depth]

theorem monInv_step {s : Mon} {log : List MonEv} (h : MonInv s log) (t : Nat) (op : MonOp)
    (hp : op = .enter → ∀ u, u ≠ t → depth log u = 0) :
    MonInv (s.step t op).1 (log ++ [(t, op, (s.step t op).2)]) := by
  have h1 := h.depth
  have h2 := h.free
  obtain ⟨o, c⟩ := s
  simp only at h1 h2
  cases op with
  | enter =>
    have hp := hp rfl
    refine ⟨fun u => ?_, ?_⟩
    · rw [depth_snoc]
      simp only [Mon.step, inside, Option.some.injEq]
      by_cases e : t = u
      · subst e
        rw [if_pos rfl, if_pos rfl, h1 t]
        cases o with
        | none => simp [h2.1 rfl]
        | some x =>
          by_cases ex : x = t
          · simp [ex]
          · have := hp x ex
            rw [h1 x] at this
            simp [ex] at this ⊢
            omega
      · rw [if_neg e, if_neg e]; exact hp u (Ne.symm e)
    · simp [Mon.step]
  | exit =>
    simp only [Mon.step]
    split_ifs with a b e
    · refine ⟨fun u => ?_, h2⟩
      rw [depth_snoc]; exact h1 u
    · have ho : o = some t := by
        by_contra hne; exact a ⟨hne, b⟩
      subst ho
      refine ⟨fun u => ?_, by simp⟩
      rw [depth_snoc]
      simp only [inside, h1 u]
      by_cases eu : t = u
      · subst eu; simp at e ⊢; omega
      · simp [eu]
    · have ho : o = some t := by
        by_contra hne; exact a ⟨hne, b⟩
      subst ho
      refine ⟨fun u => ?_, by simp; omega⟩
      rw [depth_snoc]
      simp only [inside, h1 u]
      by_cases eu : t = u
      · subst eu; simp
      · simp [eu]
    · have hc : c = 0 := by omega
      subst hc
      refine ⟨fun u => ?_, h2⟩
      rw [depth_snoc]
      simp [inside, h1 u]
  | tryEnter =>
    simp only [Mon.step]
    split_ifs with a b
    · subst a
      refine ⟨fun u => ?_, by simp⟩
      rw [depth_snoc]
      simp only [inside, h1 u]
      by_cases eu : t = u
      · subst eu; simp
      · simp [eu]
    · subst b
      refine ⟨fun u => ?_, by simp⟩
      rw [depth_snoc]
      simp only [inside, h1 u]
      by_cases eu : t = u
      · subst eu; simp
      · simp [eu]
    · refine ⟨fun u => ?_, h2⟩
      rw [depth_snoc]; exact h1 u
  | owned =>
    refine ⟨fun u => ?_, h2⟩
    rw [depth_snoc]; exact h1 u
  | locked =>
    refine ⟨fun u => ?_, h2⟩
    rw [depth_snoc]; exact h1 u

theorem monInv_run : ∀ (l : List (Nat × MonOp)) (s : Mon) (log : List MonEv), MonInv s log →
    Polite (log ++ (s.run l).1) → MonInv (s.run l).2 (log ++ (s.run l).1)
  | [], s, log, h, _ => by simpa [Mon.run] using h
  | (t, op) :: l, s, log, h, hp => by
    have e : log ++ (s.run ((t, op) :: l)).1 =
        (log ++ [(t, op, (s.step t op).2)]) ++ ((s.step t op).1.run l).1 := by
      simp [Mon.run]
    rw [e] at hp ⊢
    refine monInv_run l _ _ (monInv_step h t op ?_) hp
    rintro rfl
    exact hp log t _ _ (List.append_assoc ..)

theorem polite_prefix {a b : List MonEv} (h : Polite (a ++ b)) : Polite a := by
  intro l₁ t r l₂ e u hu
  exact h l₁ t r (l₂ ++ b) (by rw [e]; simp) u hu

end Verif.Sync
