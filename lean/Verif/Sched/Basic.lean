import Verif.Sched.Model

/-! # Field lemmas for the scheduler model -/

namespace Verif.Sched

@[simp] theorem mod_thr (s : St) (t k : Nat) (f : Thread → Thread) :
    (s.mod t f).thr k = if k = t then f (s.thr k) else s.thr k := rfl
@[simp] theorem mod_n (s : St) (t : Nat) (f : Thread → Thread) : (s.mod t f).n = s.n := rfl
@[simp] theorem mod_ready (s : St) (t : Nat) (f : Thread → Thread) :
    (s.mod t f).ready = s.ready := rfl
@[simp] theorem mod_sleepers (s : St) (t : Nat) (f : Thread → Thread) :
    (s.mod t f).sleepers = s.sleepers := rfl
@[simp] theorem mod_io (s : St) (t : Nat) (f : Thread → Thread) : (s.mod t f).io = s.io := rfl
@[simp] theorem mod_current (s : St) (t : Nat) (f : Thread → Thread) :
    (s.mod t f).current = s.current := rfl
@[simp] theorem mod_host (s : St) (t : Nat) (f : Thread → Thread) :
    (s.mod t f).host = s.host := rfl
@[simp] theorem mod_now (s : St) (t : Nat) (f : Thread → Thread) : (s.mod t f).now = s.now := rfl
@[simp] theorem mod_crashed (s : St) (t : Nat) (f : Thread → Thread) :
    (s.mod t f).crashed = s.crashed := rfl

@[simp] theorem wake_thr (s : St) (t k : Nat) :
    (s.wake t).thr k = if k = t then { s.thr k with state := .runnable } else s.thr k := rfl
@[simp] theorem wake_n (s : St) (t : Nat) : (s.wake t).n = s.n := rfl
theorem wake_ready (s : St) (t : Nat) :
    (s.wake t).ready = if t = 0 then s.ready else s.ready ++ [t] := rfl
@[simp] theorem wake_sleepers (s : St) (t : Nat) : (s.wake t).sleepers = s.sleepers := rfl
@[simp] theorem wake_io (s : St) (t : Nat) : (s.wake t).io = s.io := rfl
@[simp] theorem wake_current (s : St) (t : Nat) : (s.wake t).current = s.current := rfl
@[simp] theorem wake_host (s : St) (t : Nat) : (s.wake t).host = s.host := rfl
@[simp] theorem wake_now (s : St) (t : Nat) : (s.wake t).now = s.now := rfl
@[simp] theorem wake_crashed (s : St) (t : Nat) : (s.wake t).crashed = s.crashed := rfl

/-! `deliver` touches the queue of interrupts and the position only. -/

theorem deliver_cases (x : Thread) (b : Bool) :
    (∃ id rest, takeFirst (deliverable x b) x.pending = some (id, rest) ∧
      deliver x b = ({ x with pending := rest, got := x.got ++ [id], pc := .user }, true)) ∨
    (takeFirst (deliverable x b) x.pending = none ∧ deliver x b = (x, false)) := by
  unfold deliver
  cases h : takeFirst (deliverable x b) x.pending with
  | none => right; exact ⟨rfl, rfl⟩
  | some p => left; obtain ⟨id, rest⟩ := p; exact ⟨id, rest, rfl, rfl⟩

@[simp] theorem deliver_state (x : Thread) (b : Bool) : (deliver x b).1.state = x.state := by
  rcases deliver_cases x b with ⟨_, _, _, h⟩ | ⟨_, h⟩ <;> rw [h]
@[simp] theorem deliver_resume (x : Thread) (b : Bool) : (deliver x b).1.resume = x.resume := by
  rcases deliver_cases x b with ⟨_, _, _, h⟩ | ⟨_, h⟩ <;> rw [h]
@[simp] theorem deliver_permit (x : Thread) (b : Bool) : (deliver x b).1.permit = x.permit := by
  rcases deliver_cases x b with ⟨_, _, _, h⟩ | ⟨_, h⟩ <;> rw [h]
@[simp] theorem deliver_joiners (x : Thread) (b : Bool) :
    (deliver x b).1.joiners = x.joiners := by
  rcases deliver_cases x b with ⟨_, _, _, h⟩ | ⟨_, h⟩ <;> rw [h]
@[simp] theorem deliver_roused (x : Thread) (b : Bool) : (deliver x b).1.roused = x.roused := by
  rcases deliver_cases x b with ⟨_, _, _, h⟩ | ⟨_, h⟩ <;> rw [h]
theorem deliver_pc (x : Thread) (b : Bool) (h : x.pc = .user) : (deliver x b).1.pc = .user := by
  rcases deliver_cases x b with ⟨_, _, _, h'⟩ | ⟨_, h'⟩ <;> rw [h'] ; exact h
@[simp] theorem push_state (x : Thread) (i : Intr) : (push x i).state = x.state := rfl
@[simp] theorem push_resume (x : Thread) (i : Intr) : (push x i).resume = x.resume := rfl
@[simp] theorem push_pc (x : Thread) (i : Intr) : (push x i).pc = x.pc := rfl
@[simp] theorem push_permit (x : Thread) (i : Intr) : (push x i).permit = x.permit := rfl
@[simp] theorem push_joiners (x : Thread) (i : Intr) : (push x i).joiners = x.joiners := rfl
@[simp] theorem push_roused (x : Thread) (i : Intr) : (push x i).roused = x.roused := rfl

/-! Folding preserves the fields the wakers do not touch. -/

/-- `s'` differs from `s` in threads' states and the run queue at most. -/
structure Same (s s' : St) : Prop where
  n : s'.n = s.n
  sleepers : s'.sleepers = s.sleepers
  io : s'.io = s.io
  current : s'.current = s.current
  host : s'.host = s.host
  now : s'.now = s.now
  crashed : s'.crashed = s.crashed
  /-- a thread is untouched or made runnable -/
  thr : ∀ t, s'.thr t = s.thr t ∨ s'.thr t = { s.thr t with state := .runnable }
  /-- the queue only grows at its end -/
  ready : ∃ l, s'.ready = s.ready ++ l

theorem Same.rfl' (s : St) : Same s s :=
  ⟨rfl, rfl, rfl, rfl, rfl, rfl, rfl, fun _ => Or.inl rfl, [], by simp⟩

theorem Same.wake (s : St) (t : Nat) : Same s (s.wake t) := by
  refine ⟨rfl, rfl, rfl, rfl, rfl, rfl, rfl, ?_, ?_⟩
  · intro k; rw [wake_thr]; split
    · exact Or.inr rfl
    · exact Or.inl rfl
  · rw [wake_ready]; split
    · exact ⟨[], by simp⟩
    · exact ⟨[t], rfl⟩

theorem Same.trans {a b c : St} (h : Same a b) (k : Same b c) : Same a c := by
  refine ⟨k.n.trans h.n, k.sleepers.trans h.sleepers, k.io.trans h.io, k.current.trans h.current,
    k.host.trans h.host, k.now.trans h.now, k.crashed.trans h.crashed, ?_, ?_⟩
  · intro t
    rcases h.thr t with h1 | h1 <;> rcases k.thr t with h2 | h2 <;> rw [h2, h1] <;> simp
  · obtain ⟨l, hl⟩ := h.ready
    obtain ⟨m, hm⟩ := k.ready
    exact ⟨l ++ m, by rw [hm, hl, List.append_assoc]⟩

theorem same_foldl {α : Type} (f : St → α → St) (hf : ∀ s a, Same s (f s a)) (l : List α) :
    ∀ s, Same s (l.foldl f s) := by
  induction l with
  | nil => intro s; exact Same.rfl' s
  | cons a l ih => intro s; exact (hf s a).trans (ih _)

theorem same_pollOne (fds : List Nat) (s : St) (e : Nat × Nat) : Same s (pollOne fds s e) := by
  unfold pollOne; split
  · exact Same.wake s _
  · exact Same.rfl' s

theorem same_joinerOne (s : St) (j : Nat) : Same s (joinerOne s j) := by
  unfold joinerOne; split
  · exact Same.wake s _
  · exact Same.rfl' s

theorem Same.pc {s s' : St} (h : Same s s') (t : Nat) : (s'.thr t).pc = (s.thr t).pc := by
  rcases h.thr t with h | h <;> rw [h]
theorem Same.resume {s s' : St} (h : Same s s') (t : Nat) :
    (s'.thr t).resume = (s.thr t).resume := by
  rcases h.thr t with h | h <;> rw [h]
theorem Same.state {s s' : St} (h : Same s s') (t : Nat) :
    (s'.thr t).state = (s.thr t).state ∨ (s'.thr t).state = .runnable := by
  rcases h.thr t with h | h <;> rw [h] <;> simp
theorem Same.roused {s s' : St} (h : Same s s') (t : Nat) :
    (s'.thr t).roused = (s.thr t).roused := by
  rcases h.thr t with h | h <;> rw [h]

/-- `sleepers` after `wake_due_sleepers`. -/
def St.pruneSleepers (s : St) : St :=
  { s with sleepers := s.sleepers.filter fun e =>
      (s.thr e.2).state.parked && !isDue s.now e.1 }

/-- `io_waiters` after `prune_io_waiters`. -/
def St.pruneIo (s : St) : St :=
  { s with io := s.io.filter fun e => (s.thr e.2).state == TS.ioWaiting }

theorem wakeDue_eq (s : St) : wakeDue s = (dueOf s).foldl St.wake s.pruneSleepers := rfl
theorem poll_eq (s : St) (fds : List Nat) :
    poll s fds = s.pruneIo.io.foldl (pollOne fds) s.pruneIo := rfl

theorem wakeDue_same (s : St) : Same s.pruneSleepers (wakeDue s) :=
  same_foldl _ Same.wake _ _

theorem poll_same (s : St) (fds : List Nat) : Same s.pruneIo (poll s fds) :=
  same_foldl _ (same_pollOne fds) _ _

end Verif.Sched
