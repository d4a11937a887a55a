import Verif.Sched.Ctl

/-! # The run queue is served in order (helper lemmas for C25) -/

namespace Verif.Sched

/-- The threads a step takes from the queue. -/
def dispatched (s : St) : Act → List Nat
  | .loopIter fds =>
    if ((poll (wakeDue s) fds).thr 0).state = .runnable then []
    else (poll (wakeDue s) fds).ready.take 1
  | .passNext => match s.host with
    | .pass (_ + 1) => s.ready.take 1
    | _ => []
  | _ => []

/-- The threads a run takes from the queue, in order. -/
def served : St → List Act → List Nat
  | _, [] => []
  | s, a :: as => dispatched s a ++ (match step s a with
    | some s' => served s' as
    | none => [])

theorem Same.prefix {s s' : St} (h : Same s s') : s.ready <+: s'.ready := by
  obtain ⟨l, hl⟩ := h.ready; exact ⟨l, hl.symm⟩

theorem machine_prefix (s : St) (fds : List Nat) : s.ready <+: (poll (wakeDue s) fds).ready :=
  (wakeDue_same s).prefix.trans (poll_same _ fds).prefix

theorem afterPark_ready (s : St) (t : Nat) : (afterPark s t).ready = s.ready := by
  unfold afterPark; split <;> rfl

theorem afterErr_ready (s : St) (t : Nat) (pc : PC) : (afterErr s t pc).ready = s.ready := by
  unfold afterErr; split <;> rfl

theorem switch_ready (s : St) (c : Nat) : (switch s c).ready = s.ready := by
  unfold switch; split <;> rfl

theorem mainBack_ready (s : St) (b : Bool) : (mainBack s b).ready = s.ready := by
  unfold mainBack
  simp only
  split
  · rw [afterErr_ready]; rfl
  · rw [afterPark_ready]

theorem finalize_prefix (s : St) (t : Nat) (fwd : Option Intr) :
    s.ready <+: (finalize s t fwd).ready := by
  have h := (same_foldl joinerOne same_joinerOne (s.thr t).joiners
    (s.mod t fun x => { x with pending := [], state := .dead, joiners := [] })).prefix
  unfold finalize
  simp only
  split
  · exact h
  · split
    · exact h
    · split <;> exact h

theorem dispatch_prefix (s : St) (t : Nat) : s.ready <+: (dispatch s t).ready := by
  unfold dispatch
  split
  · split
    · rename_i id _ _ _
      exact finalize_prefix (s.mod t fun x => { x with got := x.got ++ [id] }) _ _
    · exact List.prefix_rfl
  · split
    · exact List.prefix_rfl
    · simp only
      split
      · rw [afterErr_ready]; exact List.prefix_rfl
      · rw [afterPark_ready]; exact List.prefix_rfl

theorem joinLoop_ready (s : St) (c t : Nat) (dl : Option Nat) : (joinLoop s c t dl).ready = s.ready := by
  unfold joinLoop
  split
  · rfl
  · simp only
    split
    · rfl
    · split
      · rfl
      · rw [switch_ready]; rfl

theorem call_prefix {s s' : St} {c : Nat} {q : Call} (h : doCall s c q = some s') :
    s.ready <+: s'.ready := by
  cases q with
  | spawn ab =>
    simp only [doCall, Option.some.injEq] at h; subst h; exact List.prefix_append _ _
  | wakeup t p =>
    simp only [doCall] at h
    split at h
    · injection h with h; subst h
      unfold Sched.wakeup
      split
      · exact (Same.wake _ _).prefix
      · split <;> exact List.prefix_rfl
      · exact List.prefix_rfl
    · cases h
  | sleep dl =>
    simp only [doCall, Option.some.injEq] at h; subst h
    unfold Sched.sleep
    split
    · exact List.prefix_rfl
    · simp only
      split
      · exact List.prefix_rfl
      · rw [switch_ready]; exact List.prefix_rfl
  | pass fds =>
    simp only [doCall, Option.some.injEq] at h; subst h
    unfold Sched.pass
    split
    · exact List.prefix_rfl
    · simp only
      split
      · exact machine_prefix (s.mod c fun x => { x with blocking := false }) fds
      · rw [switch_ready]; exact List.prefix_append _ _
  | join t dl =>
    simp only [doCall] at h
    split at h
    · injection h with h; subst h
      unfold joinEnter
      split <;> exact List.prefix_rfl
    · cases h
  | waitFds fds dl =>
    simp only [doCall, Option.some.injEq] at h; subst h
    unfold Sched.waitFds
    split
    · exact List.prefix_rfl
    · simp only [switch_ready]; exact List.prefix_rfl
  | interrupt t i =>
    simp only [doCall] at h
    split at h
    · injection h with h; subst h
      unfold Sched.interrupt
      split
      · exact List.prefix_rfl
      · split
        · exact List.prefix_rfl
        · simp only
          split
          · exact (Same.wake _ _).prefix
          · exact List.prefix_rfl
    · cases h
  | pushMask ms => simp only [doCall, Option.some.injEq] at h; subst h; exact List.prefix_rfl
  | popMask => simp only [doCall, Option.some.injEq] at h; subst h; exact List.prefix_rfl
  | setUnint on => simp only [doCall, Option.some.injEq] at h; subst h; exact List.prefix_rfl
  | checkpoint b => simp only [doCall, Option.some.injEq] at h; subst h; exact List.prefix_rfl
  | exit fwd =>
    simp only [doCall] at h
    split at h
    · cases h
    · injection h with h; subst h; exact finalize_prefix { s with current := 0 } c fwd
  | fork => simp only [doCall, Option.some.injEq] at h; subst h; exact List.prefix_rfl

theorem step_order {s s' : St} {a : Act} (h : step s a = some s') :
    ∃ l, s.ready ++ l = dispatched s a ++ s'.ready := by
  have fin : ∀ {u : St}, s.ready <+: u.ready → ∃ l, s.ready ++ l = ([] : List Nat) ++ u.ready := by
    intro u ⟨l, hl⟩; exact ⟨l, by simpa using hl⟩
  unfold Sched.step at h
  split at h
  · cases h
  cases a with
  | tick d => simp only [Option.some.injEq] at h; subst h; exact fin List.prefix_rfl
  | loopIter fds =>
    simp only at h
    split at h
    · injection h with h
      subst h
      have hm := machine_prefix s fds
      unfold Sched.loopIter dispatched
      simp only
      generalize Sched.poll (Sched.wakeDue s) fds = u at hm
      split
      · rw [mainBack_ready]; exact fin hm
      · split
        · rename_i t rest hr
          obtain ⟨l, hl⟩ := hm
          obtain ⟨l', hl'⟩ := dispatch_prefix { u with ready := rest } t
          refine ⟨l ++ l', ?_⟩
          rw [← List.append_assoc, hl, ← hl', hr]
          simp
        · rename_i hr
          have := fin (u := { u with host := .idle }) hm
          simpa [hr] using this
    · cases h
  | idle fds =>
    simp only at h
    split at h
    · injection h with h; subst h; exact fin (poll_same s fds).prefix
    · cases h
  | loopErr =>
    simp only at h
    split at h
    · injection h with h
      subst h
      exact fin (by rw [afterErr_ready]; exact List.prefix_rfl)
    · cases h
  | passNext =>
    simp only at h
    cases hh : s.host with
    | main => rw [hh] at h; cases h
    | loop => rw [hh] at h; cases h
    | idle => rw [hh] at h; cases h
    | pass kk =>
      rw [hh] at h
      simp only at h
      have mb : dispatched s .passNext = [] → some (mainBack s false) = some s' →
          ∃ l, s.ready ++ l = dispatched s .passNext ++ s'.ready := by
        intro hd h
        injection h with h; subst h
        rw [mainBack_ready, hd]; exact fin List.prefix_rfl
      split at h
      · cases kk with
        | zero => exact mb (by simp [dispatched, hh]) h
        | succ k' =>
          cases hr : s.ready with
          | nil =>
            rw [hr] at h
            rw [← hr]
            exact mb (by simp [dispatched, hh, hr]) h
          | cons t rest =>
            rw [hr] at h
            injection h with h; subst h
            have hd : dispatched s .passNext = [t] := by simp [dispatched, hh, hr]
            obtain ⟨l', hl'⟩ := dispatch_prefix { s with ready := rest, host := .pass k' } t
            refine ⟨l', ?_⟩
            rw [hd, ← hl']; rfl
      · cases h
  | joinLoop =>
    simp only at h
    split at h
    · split at h
      · injection h with h
        subst h
        exact fin (by rw [joinLoop_ready]; exact List.prefix_rfl)
      · cases h
    · cases h
  | call q =>
    simp only at h
    split at h
    · split at h
      · exact fin (call_prefix h)
      · cases h
    · cases h

theorem run_order : ∀ (as : List Act) {s s' : St}, run s as = some s' →
    ∃ l, s.ready ++ l = served s as ++ s'.ready := by
  intro as
  induction as with
  | nil =>
    intro s s' h
    simp only [run, Option.some.injEq] at h; subst h
    exact ⟨[], by simp [served]⟩
  | cons a as ih =>
    intro s s' h
    unfold run at h
    cases hs : step s a with
    | none => rw [hs] at h; cases h
    | some u =>
      rw [hs] at h
      obtain ⟨l1, h1⟩ := step_order hs
      obtain ⟨l2, h2⟩ := ih h
      refine ⟨l1 ++ l2, ?_⟩
      rw [← List.append_assoc, h1, List.append_assoc, h2]
      simp [served, hs]

end Verif.Sched
