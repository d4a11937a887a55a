import Verif.Sched.Dead

/-! # When a thread leaves a blocking entry point (helper lemmas for C25, C49) -/

namespace Verif.Sched

theorem finalize_pc (s : St) (t : Nat) (fwd : Option Intr) (k : Nat) :
    ((finalize s t fwd).thr k).pc = (s.thr k).pc := by
  have h := (same_foldl joinerOne same_joinerOne (s.thr t).joiners
    (s.mod t fun x => { x with pending := [], state := .dead, joiners := [] })).pc k
  have h' : ((s.mod t fun x => { x with pending := [], state := .dead, joiners := [] }).thr k).pc =
      (s.thr k).pc := by
    by_cases e : k = t
    · subst e; simp
    · simp [e]
  rw [h'] at h
  unfold finalize
  simp only
  split
  · exact h
  · split
    · exact h
    · split
      · by_cases e : k = 0
        · subst e; simpa using h
        · simpa [e] using h
      · by_cases e : k = 0
        · subst e; simpa using h
        · simpa [e] using h

theorem dispatch_pc (s : St) (t k : Nat) (hk : k ≠ t) :
    ((dispatch s t).thr k).pc = (s.thr k).pc := by
  unfold dispatch
  split
  · split
    · rw [finalize_pc]; simp [hk]
    · simp [hk]
  · split
    · rfl
    · simp only
      split
      · rw [afterErr_thr]; simp [hk]
      · rw [afterPark_thr _ _ _ hk]; simp [hk]

theorem mainBack_pc (s : St) (b : Bool) (k : Nat) (hk : k ≠ 0) :
    ((mainBack s b).thr k).pc = (s.thr k).pc := by
  unfold mainBack
  simp only
  split
  · rw [afterErr_thr]; simp [hk]
  · rw [afterPark_thr _ _ _ hk]

theorem machine_pc (s : St) (fds : List Nat) (k : Nat) :
    ((poll (wakeDue s) fds).thr k).pc = (s.thr k).pc := by
  rcases machine_thr s fds k with e | e <;> rw [e]

/-- How a thread can come to leave the entry point it is in. -/
inductive Leave (s s' : St) (k : Nat) : Act → Prop
  | call (q : Call) (h : running s = some k) (hu : (s.thr k).pc = .user) : Leave s s' k (.call q)
  | join (h : running s = some k) : Leave s s' k .joinLoop
  | main (fds : List Nat) (h0 : k = 0) (hl : s.host = .loop)
      (hr : ((poll (wakeDue s) fds).thr 0).state = .runnable)
      (h : s' = mainBack (poll (wakeDue s) fds) true) : Leave s s' k (.loopIter fds)
  | green (fds : List Nat) (rest : List Nat) (hl : s.host = .loop) (hc : s.current = 0)
      (hr : (poll (wakeDue s) fds).ready = k :: rest)
      (h : s' = dispatch { poll (wakeDue s) fds with ready := rest } k) : Leave s s' k (.loopIter fds)
  | passed (n : Nat) (h0 : k = 0) (hl : s.host = .pass n) (h : s' = mainBack s false) :
      Leave s s' k .passNext
  | pass (n : Nat) (rest : List Nat) (hl : s.host = .pass (n + 1)) (hc : s.current = 0)
      (hr : s.ready = k :: rest)
      (h : s' = dispatch { s with ready := rest, host := .pass n } k) : Leave s s' k .passNext
  | err (h0 : k = 0) : Leave s s' k .loopErr

theorem step_pc {s s' : St} {a : Act} (hs : step s a = some s') {k : Nat} (hk : k < s.n) :
    (s'.thr k).pc = (s.thr k).pc ∨ Leave s s' k a := by
  unfold Sched.step at hs
  split at hs
  · cases hs
  cases a with
  | tick d => simp only [Option.some.injEq] at hs; subst hs; exact Or.inl rfl
  | loopIter fds =>
    simp only at hs
    split at hs
    · rename_i hl
      injection hs with hs
      subst hs
      have hm := machine_pc s fds k
      unfold Sched.loopIter
      simp only
      split
      · rename_i hr
        by_cases e : k = 0
        · exact Or.inr (.main fds e hl.1 hr rfl)
        · left; rw [mainBack_pc _ _ _ e]; exact hm
      · split
        · rename_i t rest hr
          by_cases e : k = t
          · subst e; exact Or.inr (.green fds rest hl.1 hl.2 hr rfl)
          · left; rw [dispatch_pc _ _ _ e]; exact hm
        · exact Or.inl hm
    · cases hs
  | idle fds =>
    simp only at hs
    split at hs
    · injection hs with hs; subst hs; exact Or.inl ((poll_same s fds).pc k)
    · cases hs
  | loopErr =>
    simp only at hs
    split at hs
    · injection hs with hs
      subst hs
      by_cases e : k = 0
      · exact Or.inr (.err e)
      · left; rw [afterErr_thr]; simp [e]
    · cases hs
  | passNext =>
    simp only at hs
    cases hh : s.host with
    | main => rw [hh] at hs; cases hs
    | loop => rw [hh] at hs; cases hs
    | idle => rw [hh] at hs; cases hs
    | pass kk =>
      rw [hh] at hs
      simp only at hs
      have mb : some (mainBack s false) = some s' →
          (s'.thr k).pc = (s.thr k).pc ∨ Leave s s' k .passNext := by
        intro h
        injection h with h; subst h
        by_cases e : k = 0
        · exact Or.inr (.passed kk e hh rfl)
        · exact Or.inl (mainBack_pc _ _ _ e)
      split at hs
      · rename_i hc
        cases kk with
        | zero => exact mb hs
        | succ k' =>
          cases hr : s.ready with
          | nil => rw [hr] at hs; exact mb hs
          | cons t rest =>
            rw [hr] at hs
            injection hs with hs; subst hs
            by_cases e : k = t
            · subst e; exact Or.inr (.pass k' rest hh hc hr rfl)
            · left; rw [dispatch_pc _ _ _ e]
      · cases hs
  | joinLoop =>
    simp only at hs
    split at hs
    · rename_i c hc
      split at hs
      · rename_i t dl hpc
        injection hs with hs
        subst hs
        by_cases e : k = c
        · subst e; exact Or.inr (.join hc)
        · left
          unfold Sched.joinLoop
          split
          · simp [e]
          · simp only
            split
            · simp [e]
            · split
              · simp [e]
              · show ((joinPark s c t dl).thr k).pc = _
                exact (joinPark_thr s c t dl k).1
      · cases hs
    · cases hs
  | call q =>
    simp only at hs
    split at hs
    · rename_i c hc
      split at hs
      · rename_i hu
        by_cases e : k = c
        · subst e; exact Or.inr (.call q hc hu)
        · left
          cases q with
          | spawn ab =>
            simp only [doCall, Option.some.injEq] at hs; subst hs
            have : k ≠ s.n := by omega
            simp [Sched.spawn, this]
          | wakeup t p =>
            simp only [doCall] at hs
            split at hs
            · injection hs with hs; subst hs
              by_cases e1 : k = t
              · subst e1
                unfold Sched.wakeup
                split
                · simp [wake_thr]
                · split <;> simp
                · rfl
              · unfold Sched.wakeup
                split
                · simp [wake_thr, e1]
                · split <;> simp [e1]
                · rfl
            · cases hs
          | sleep dl =>
            simp only [doCall, Option.some.injEq] at hs; subst hs
            unfold Sched.sleep
            split
            · simp [e]
            · simp only
              split
              · simp [e]
              · rw [switch_thr]; simp [e]
          | pass fds =>
            simp only [doCall, Option.some.injEq] at hs; subst hs
            unfold Sched.pass
            split
            · simp [e]
            · simp only
              split
              · show ((poll (wakeDue _) fds).thr k).pc = _
                rw [machine_pc]; simp [e]
              · rw [switch_thr]; simp [e]
          | join t dl =>
            simp only [doCall] at hs
            split at hs
            · injection hs with hs; subst hs
              unfold joinEnter
              split
              · rfl
              · simp [e]
            · cases hs
          | waitFds fds dl =>
            simp only [doCall, Option.some.injEq] at hs; subst hs
            unfold Sched.waitFds
            split
            · simp [e]
            · simp only [switch_thr]; simp [e]
          | interrupt t i =>
            simp only [doCall] at hs
            split at hs
            · injection hs with hs; subst hs
              unfold Sched.interrupt
              split
              · simp [e]
              · split
                · rfl
                · simp only
                  by_cases e1 : k = t
                  · subst e1; split <;> simp [wake_thr]
                  · split <;> simp [wake_thr, e1]
            · cases hs
          | pushMask ms => simp only [doCall, Option.some.injEq] at hs; subst hs; simp [e]
          | popMask => simp only [doCall, Option.some.injEq] at hs; subst hs; simp [e]
          | setUnint on => simp only [doCall, Option.some.injEq] at hs; subst hs; simp [e]
          | checkpoint b => simp only [doCall, Option.some.injEq] at hs; subst hs; simp [e]
          | exit fwd =>
            simp only [doCall] at hs
            split at hs
            · cases hs
            · injection hs with hs; subst hs; rw [finalize_pc]
          | fork => simp only [doCall, Option.some.injEq] at hs; subst hs; simp [forkChild, e]
      · cases hs
    · cases hs

/-- Main's return from a `join`, when nothing is delivered, leaves it in the loop of `join`. -/
theorem mainBack_join {s : St} {b : Bool} {g : Nat} {dl : Option Nat} (h : (s.thr 0).pc = .join g dl) :
    ((mainBack s b).thr 0).pc = .join g dl ∨ ∃ id, ((mainBack s b).thr 0).got = (s.thr 0).got ++ [id] := by
  unfold mainBack
  simp only
  rcases deliver_cases (s.thr 0) b with ⟨id, rs, _, e⟩ | ⟨_, e⟩
  · right; rw [e]; simp only [afterErr_thr]; exact ⟨id, by simp⟩
  · left; rw [e]; simp only [afterPark, h]

theorem dispatch_join {s : St} {t g : Nat} {dl : Option Nat} (h : (s.thr t).pc = .join g dl) :
    ((dispatch s t).thr t).pc = .join g dl ∨ ∃ id, ((dispatch s t).thr t).got = (s.thr t).got ++ [id] := by
  unfold dispatch
  split
  · split
    · left; rw [finalize_pc]; simp [h]
    · left; simp [h]
  · split
    · left; exact h
    · obtain ⟨u, hv⟩ : ∃ v : St, ({ s.mod t (fun x => { x with state := .runnable, resume := false })
          with current := t } : St) = v := ⟨_, rfl⟩
      have hp : (u.thr t).pc = .join g dl := by subst hv; simp [h]
      have hg : (u.thr t).got = (s.thr t).got := by subst hv; simp
      suffices hgoal : (((match deliver (u.thr t) (u.thr t).blocking with
          | (x, true) => Sched.afterErr (u.mod t fun _ => x) t (s.thr t).pc
          | (_, false) => Sched.afterPark u t).thr t).pc = .join g dl ∨
          ∃ id, ((match deliver (u.thr t) (u.thr t).blocking with
          | (x, true) => Sched.afterErr (u.mod t fun _ => x) t (s.thr t).pc
          | (_, false) => Sched.afterPark u t).thr t).got = (s.thr t).got ++ [id]) by
        subst hv; exact hgoal
      rcases deliver_cases (u.thr t) (u.thr t).blocking with ⟨id, rs, _, e⟩ | ⟨_, e⟩
      · right; rw [e]; simp only [afterErr_thr]; exact ⟨id, by simp [hg]⟩
      · left; rw [e]; simp only [afterPark, hp]

end Verif.Sched
