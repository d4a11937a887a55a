import Verif.Sync.Model

/-!
# What a program may rely on, in terms of what happened

`holders`: who has acquired a mutex and neither released it nor ended since.  `replay`: a first-in
first-out queue, bounded and closable, that refuses what such a queue does not do.
-/

namespace Verif.Sync

def held (m : MId) (l : List Nat) : Ev → List Nat
  | .got t m' => if m' = m then l ++ [t] else l
  | .gave t m' => if m' = m then l.filter (· ≠ t) else l
  | .ended t => l.filter (· ≠ t)
  | _ => l

/-- The threads that hold `m` after `log`. -/
def holders (log : List Ev) (m : MId) : List Nat := log.foldl (held m) []

/-- No thread has ended while it held a mutex. -/
def Orderly (log : List Ev) : Prop :=
  ∀ l₁ t l₂, log = l₁ ++ Ev.ended t :: l₂ → ∀ m, t ∉ holders l₁ m

/-- A queue as its users see it: contents, closed or not, capacity. -/
structure Abs where
  items : List Nat
  closed : Bool
  cap : Option Nat
deriving DecidableEq, Repr

/-- There is room for another item. -/
def Abs.fits (a : Abs) : Bool :=
  match a.cap with
  | some n => decide (a.items.length < n)
  | none => true

/-- One event: an item may go in when the queue is open and has room, what comes out is the oldest
item. -/
def Abs.step (q : Nat) (a : Abs) : Ev → Option Abs
  | .ins _ q' v =>
    if q' = q then
      if !a.closed && a.fits then some { a with items := a.items ++ [v] } else none
    else some a
  | .took _ q' v =>
    if q' = q then
      match a.items with
      | [] => none
      | x :: xs => if v = some x then some { a with items := xs } else none
    else some a
  | .cleared q' => if q' = q then some { a with items := [] } else some a
  | .closed q' => if q' = q then some { a with closed := true } else some a
  | .resized q' n => if q' = q then some { a with cap := some n } else some a
  | _ => some a

/-- The queue `q` after `log`, if everything in `log` is what a queue does. -/
def replay (cap : Option Nat) (q : Nat) (log : List Ev) : Option Abs :=
  log.foldl (fun a e => a.bind fun a => a.step q e) (some ⟨[], false, cap⟩)

theorem holders_snoc (log : List Ev) (e : Ev) (m : MId) :
    holders (log ++ [e]) m = held m (holders log m) e := by simp [holders]

theorem replay_snoc (cap : Option Nat) (q : Nat) (log : List Ev) (e : Ev) :
    replay cap q (log ++ [e]) = (replay cap q log).bind fun a => a.step q e := by simp [replay]

end Verif.Sync
