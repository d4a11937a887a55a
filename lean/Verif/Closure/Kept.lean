import Verif.Closure.Return

/-!
# What a piece of a run keeps of the calls below it
-/

namespace Verif.Closure

/-- A piece of a run that never ends the call at depth `n - 1` and ends with that call running. -/
def World.Within (n : Nat) : World → List Op → Prop
  | w, [] => w.calls.length = n
  | w, op :: ops => n ≤ w.calls.length ∧ World.Within n (w.step op).1 ops

/-- The first `n` calls, and the environments apart from their variables, are as they were. -/
structure WKeep (n : Nat) (w w' : World) : Prop where
  call : ∀ (i : Nat) (c c' : Call), i < n → w.calls[i]? = some c → w'.calls[i]? = some c' →
    c'.env = c.env
  env : ∀ (j : Nat) (v : Env), w.envs[j]? = some v → ∃ v', w'.envs[j]? = some v' ∧
    v'.parent = v.parent ∧ v'.blk = v.blk

theorem WKeep.refl (n : Nat) (w : World) : WKeep n w w :=
  ⟨fun i c c' _ h h' => by rw [h] at h'; cases h'; rfl, fun _ v h => ⟨v, h, rfl, rfl⟩⟩

theorem WKeep.trans {n : Nat} {a b c : World} (hb : n ≤ b.calls.length) (x : WKeep n a b)
    (y : WKeep n b c) : WKeep n a c where
  call := fun i p r hi hp hr => by
    obtain ⟨q, hq⟩ := exists_getElem? (show i < b.calls.length by omega)
    exact (y.call i q r hi hq hr).trans (x.call i p q hi hp hq)
  env := fun j v hv => by
    obtain ⟨v1, h1, e1, f1⟩ := x.env j v hv
    obtain ⟨v2, h2, e2, f2⟩ := y.env j v1 h1
    exact ⟨v2, h2, e2.trans e1, f2.trans f1⟩

theorem wkeep_enter {n : Nat} {w : World} (hn : n ≤ w.calls.length) (p : Option Nat)
    (b : Option (Nat × Nat)) : WKeep n w (w.enter p b) where
  call := fun i c c' hi h h' => by
    rcases (append_get _ _ _ _).mp h' with h1 | ⟨h1, _⟩
    · rw [h] at h1; cases h1; rfl
    · omega
  env := fun j v hv => ⟨v, enter_envs _ _ _ _ _ hv, rfl, rfl⟩

theorem wkeep_iterate (n : Nat) (w : World) (p : Nat × Nat) : WKeep n w (w.iterate p) where
  call := fun i c c' _ h h' => by
    have h' : (List.modify w.calls _ _)[i]? = some c' := h'
    rw [modify_get, h] at h'
    split at h' <;> (cases h'; rfl)
  env := fun _ v h => ⟨v, h, rfl, rfl⟩

theorem wkeep_step {n : Nat} {w : World} (hn : n ≤ w.calls.length) (op : Op) :
    WKeep n w (w.step op).1 := by
  unfold World.step
  split
  · exact .refl _ _
  · split
    · split
      · split <;> exact .refl _ _
      · exact .refl _ _
    · split
      · refine ⟨fun i c c' _ h h' => ?_, ?_⟩
        · have h' : w.calls[i]? = some c' := h'
          rw [h] at h'; cases h'; rfl
        · intro j v hv
          refine ⟨_, assign_envs j hv, ?_, ?_⟩ <;> split <;> rfl
      · exact .refl _ _
    · exact wkeep_enter hn _ _
    · exact wkeep_enter hn _ _
    · split
      · exact wkeep_enter hn _ _
      · exact .refl _ _
    · exact .refl _ _
    · split
      · exact wkeep_enter hn _ _
      · exact .refl _ _
    · split
      · exact wkeep_enter hn _ _
      · exact .refl _ _
    · exact ⟨(WKeep.refl n w).call, (WKeep.refl n w).env⟩
    · split
      · split
        · split
          · exact ⟨(WKeep.refl n w).call, (WKeep.refl n w).env⟩
          · exact .refl _ _
        · exact .refl _ _
      · exact .refl _ _
    · split
      · exact ⟨(WKeep.refl n w).call, (WKeep.refl n w).env⟩
      · exact .refl _ _
      · exact .refl _ _
    · split
      · exact wkeep_iterate _ _ _
      · exact .refl _ _
      · exact .refl _ _
    · split
      · split
        · exact wkeep_enter hn _ _
        · exact .refl _ _
      · exact .refl _ _
    · split
      · exact wkeep_enter hn _ _
      · exact .refl _ _
    · exact ⟨(WKeep.refl n w).call, (WKeep.refl n w).env⟩
    · split
      · exact wkeep_enter hn _ _
      · exact .refl _ _
    · split
      · exact .refl _ _
      · refine ⟨fun i c c' _ h h' => ?_, fun _ v h => ⟨v, h, rfl, rfl⟩⟩
        have h' : w.calls.dropLast[i]? = some c' := h'
        rw [List.dropLast_eq_take, List.getElem?_take] at h'
        split at h'
        · rw [h] at h'; cases h'; rfl
        · cases h'

theorem wkeep_run {n : Nat} : ∀ (ops : List Op) {w : World}, w.Within n ops →
    n ≤ w.calls.length → WKeep n w (w.run ops).1 ∧ (w.run ops).1.calls.length = n := by
  intro ops
  induction ops with
  | nil => intro w h _; exact ⟨.refl _ _, h⟩
  | cons op ops ih =>
    intro w h hn
    obtain ⟨_, h2⟩ := h
    have hn' : n ≤ (w.step op).1.calls.length := by
      cases ops with
      | nil => exact Nat.le_of_eq (show _ = n from h2).symm
      | cons _ _ => exact h2.1
    obtain ⟨a, b⟩ := ih h2 hn'
    exact ⟨(wkeep_step hn op).trans hn' a, b⟩

theorem World.Calm.within {n : Nat} : ∀ {ops : List Op} {w : World}, w.Calm n ops →
    w.Within n ops := by
  intro ops
  induction ops with
  | nil => intro w h; exact h
  | cons op ops ih => intro w h; exact ⟨h.1, ih h.2.2.2.2⟩

theorem World.run_append (w : World) (a b : List Op) :
    (w.run (a ++ b)).1 = ((w.run a).1.run b).1 ∧
      (w.run (a ++ b)).2 = (w.run a).2 ++ ((w.run a).1.run b).2 := by
  induction a generalizing w with
  | nil => exact ⟨rfl, rfl⟩
  | cons op a ih =>
    obtain ⟨h1, h2⟩ := ih (w.step op).1
    exact ⟨h1, by simp only [List.cons_append, World.run, h2]⟩

/-- A calm `return` of the world ends at the call it was meant for. -/
theorem unwind_lands (ens : Nat → Option (List Op)) (m : Nat) : ∀ (k : Nat) {w : World},
    w.calls.length = k → w.CalmAll ens m k → (∃ (i : Nat) (c : Call), w.calls[i]? = some c ∧ c.env = m) →
    ∃ (j : Nat) (c : Call), (w.unwind ens m k).2 = .returned j ∧ w.calls[j]? = some c ∧ c.env = m := by
  intro k
  induction k with
  | zero =>
    rintro w hk _ ⟨i, c, hc, _⟩
    have := getElem?_lt hc
    omega
  | succ k ih =>
    rintro w hk ⟨hc1, hc2⟩ ⟨i, c, hc, hce⟩
    have hlt := getElem?_lt hc
    obtain ⟨K, hl1⟩ : WKeep (k + 1) w (w.after ens k) ∧ (w.after ens k).calls.length = k + 1 := by
      unfold World.after
      cases h : ens k with
      | none => exact ⟨.refl _ _, hk⟩
      | some ops => exact wkeep_run ops (hc1 ops h).within (by omega)
    obtain ⟨a, ha⟩ := exists_getElem? (show k < w.calls.length by omega)
    obtain ⟨a1, ha1⟩ := exists_getElem? (show k < (w.after ens k).calls.length by omega)
    have ea := K.call k a a1 (by omega) ha ha1
    simp only [World.unwind, ha1, Option.map_some]
    by_cases e : a1.env = m
    · rw [if_pos (by rw [e])]
      exact ⟨k, a, rfl, ha, by rw [← ea, e]⟩
    · rw [if_neg (by intro h; exact e (Option.some.inj h))]
      have hik : i ≠ k := by
        rintro rfl
        rw [hc] at ha; cases ha
        exact e (ea.trans hce)
      have htake : ∀ j, j < k → ({ w.after ens k with calls := (w.after ens k).calls.take k } :
          World).calls[j]? = (w.after ens k).calls[j]? := by
        intro j hj
        show ((w.after ens k).calls.take k)[j]? = _
        rw [List.getElem?_take, if_pos hj]
      obtain ⟨c1, hc1'⟩ := exists_getElem? (show i < (w.after ens k).calls.length by omega)
      have hcalm := hc2 (by
        show ((w.after ens k).calls[k]?).map _ ≠ _
        rw [ha1]; intro h; exact e (Option.some.inj h))
      obtain ⟨j, c', h1, h2, h3⟩ := ih (w := { w.after ens k with
        calls := (w.after ens k).calls.take k })
        (by show ((w.after ens k).calls.take k).length = k; simp [hl1]) hcalm
        ⟨i, c1, by rw [htake i (by omega)]; exact hc1', (K.call i c c1 (by omega) hc hc1').trans hce⟩
      have hj : j < k := by
        have := getElem?_lt h2
        have h4 : ({ w.after ens k with calls := (w.after ens k).calls.take k } :
          World).calls.length = k := by
          show ((w.after ens k).calls.take k).length = k; simp [hl1]
        omega
      rw [htake j hj] at h2
      obtain ⟨cj, hcj⟩ := exists_getElem? (show j < w.calls.length by omega)
      exact ⟨j, cj, h1, hcj, (K.call j cj c' (by omega) hcj h2).symm.trans h3⟩

end Verif.Closure
