import Verif.Ensure.Correct

/-! # Both sides are deterministic; whole methods -/

namespace Verif.Ensure

variable {σ : Type} {I : Interp σ} {f : Nat} {P : Code}

mutual
theorem ev_det {s : Stmt} {a : σ} {o o' : Outc} {b b' : σ} (h : Ev I s a o b)
    (h' : Ev I s a o' b') : o = o' ∧ b = b' := by
  match h with
  | .skip s => cases h'; exact ⟨rfl, rfl⟩
  | .act k s => cases h'; exact ⟨rfl, rfl⟩
  | .seq _ _ _ _ _ _ h1 h2 =>
    cases h' with
    | seq _ _ _ _ _ _ k1 k2 =>
      obtain ⟨_, rfl⟩ := ev_det h1 k1
      exact ev_det h2 k2
    | seqOut _ _ _ _ _ k1 k2 => exact absurd (ev_det h1 k1).1.symm k2
  | .seqOut _ _ _ _ _ h1 h2 =>
    cases h' with
    | seq _ _ _ _ _ _ k1 k2 => exact absurd (ev_det h1 k1).1 h2
    | seqOut _ _ _ _ _ k1 k2 => exact ev_det h1 k1
  | .iteT _ _ _ _ _ _ _ h1 h2 =>
    cases h' with
    | iteT _ _ _ _ _ _ _ k1 k2 => rw [h1] at k1; cases k1; exact ev_det h2 k2
    | iteF _ _ _ _ _ _ _ k1 k2 => rw [h1] at k1; cases k1
  | .iteF _ _ _ _ _ _ _ h1 h2 =>
    cases h' with
    | iteT _ _ _ _ _ _ _ k1 k2 => rw [h1] at k1; cases k1
    | iteF _ _ _ _ _ _ _ k1 k2 => rw [h1] at k1; cases k1; exact ev_det h2 k2
  | .loopEnd _ _ _ _ h1 =>
    cases h' with
    | loopEnd _ _ _ _ k1 => rw [h1] at k1; cases k1; exact ⟨rfl, rfl⟩
    | loopMore _ _ _ _ _ _ _ _ k1 => rw [h1] at k1; cases k1
    | loopBrk _ _ _ _ _ k1 => rw [h1] at k1; cases k1
    | loopOut _ _ _ _ _ _ k1 => rw [h1] at k1; cases k1
  | .loopMore _ _ _ _ _ _ _ _ h1 h2 h3 h4 =>
    cases h' with
    | loopEnd _ _ _ _ k1 => rw [h1] at k1; cases k1
    | loopMore _ _ _ _ _ _ _ _ k1 k2 k3 k4 =>
      rw [h1] at k1; cases k1
      obtain ⟨_, rfl⟩ := ev_det h2 k2
      exact ev_det h4 k4
    | loopBrk _ _ _ _ _ k1 k2 =>
      rw [h1] at k1; cases k1
      obtain ⟨rfl, rfl⟩ := ev_det h2 k2
      rcases h3 with h3 | h3 <;> cases h3
    | loopOut _ _ _ _ _ _ k1 k2 k3 k4 k5 =>
      rw [h1] at k1; cases k1
      obtain ⟨rfl, rfl⟩ := ev_det h2 k2
      rcases h3 with h3 | h3
      · exact absurd h3 k3
      · exact absurd h3 k4
  | .loopBrk _ _ _ _ _ h1 h2 =>
    cases h' with
    | loopEnd _ _ _ _ k1 => rw [h1] at k1; cases k1
    | loopMore _ _ _ _ _ _ _ _ k1 k2 k3 k4 =>
      rw [h1] at k1; cases k1
      obtain ⟨rfl, rfl⟩ := ev_det h2 k2
      rcases k3 with k3 | k3 <;> cases k3
    | loopBrk _ _ _ _ _ k1 k2 =>
      rw [h1] at k1; cases k1
      exact ⟨rfl, (ev_det h2 k2).2⟩
    | loopOut _ _ _ _ _ _ k1 k2 k3 k4 k5 =>
      rw [h1] at k1; cases k1
      exact absurd (ev_det h2 k2).1.symm k5
  | .loopOut _ _ _ _ _ _ h1 h2 h3 h4 h5 =>
    cases h' with
    | loopEnd _ _ _ _ k1 => rw [h1] at k1; cases k1
    | loopMore _ _ _ _ _ _ _ _ k1 k2 k3 k4 =>
      rw [h1] at k1; cases k1
      obtain ⟨rfl, rfl⟩ := ev_det h2 k2
      rcases k3 with k3 | k3
      · exact absurd k3 h3
      · exact absurd k3 h4
    | loopBrk _ _ _ _ _ k1 k2 =>
      rw [h1] at k1; cases k1
      exact absurd (ev_det h2 k2).1 h5
    | loopOut _ _ _ _ _ _ k1 k2 k3 k4 k5 =>
      rw [h1] at k1; cases k1
      exact ev_det h2 k2
  | .brk s => cases h'; exact ⟨rfl, rfl⟩
  | .nxt s => cases h'; exact ⟨rfl, rfl⟩
  | .retry s => cases h'; exact ⟨rfl, rfl⟩
  | .ret k s => cases h'; exact ⟨rfl, rfl⟩
  | .ens _ _ _ _ _ _ _ h1 h2 =>
    cases h' with
    | ens _ _ _ _ _ _ _ k1 k2 =>
      obtain ⟨rfl, rfl⟩ := ev_det h1 k1
      obtain ⟨rfl, rfl⟩ := ev_det h2 k2
      exact ⟨rfl, rfl⟩
  | .beg _ _ _ _ _ _ _ h1 =>
    cases h' with
    | beg _ _ _ _ _ _ _ k1 => exact evR_det h1 k1
  | .begEns _ _ _ _ _ _ _ _ _ h1 h2 =>
    cases h' with
    | begEns _ _ _ _ _ _ _ _ _ k1 k2 =>
      obtain ⟨rfl, rfl⟩ := evR_det h1 k1
      obtain ⟨rfl, rfl⟩ := ev_det h2 k2
      exact ⟨rfl, rfl⟩

theorem evR_det {b : Stmt} {cl : Clauses} {el : Stmt} {s : σ} {o o' : Outc} {s1 s1' : σ}
    (h : EvR I b cl el s o s1) (h' : EvR I b cl el s o' s1') : o = o' ∧ s1 = s1' := by
  match h with
  | .els _ _ _ _ _ _ _ h1 h2 =>
    cases h' with
    | els _ _ _ _ _ _ _ k1 k2 =>
      obtain ⟨_, rfl⟩ := ev_det h1 k1
      exact ev_det h2 k2
    | caught _ _ _ _ _ _ _ _ k1 => cases (ev_det h1 k1).1
    | again _ _ _ _ _ _ _ _ _ k1 => cases (ev_det h1 k1).1
    | uncaught _ _ _ _ _ _ _ k1 => cases (ev_det h1 k1).1
    | out _ _ _ _ _ _ k1 k2 => exact absurd (ev_det h1 k1).1.symm k2
  | .caught _ _ _ _ _ _ _ _ h1 h2 h3 =>
    cases h' with
    | els _ _ _ _ _ _ _ k1 k2 => cases (ev_det h1 k1).1
    | caught _ _ _ _ _ _ _ _ k1 k2 k3 =>
      obtain ⟨e, rfl⟩ := ev_det h1 k1
      cases e
      obtain ⟨e, rfl⟩ := evC_det h2 k2
      cases e
      exact ⟨rfl, rfl⟩
    | again _ _ _ _ _ _ _ _ _ k1 k2 =>
      obtain ⟨e, rfl⟩ := ev_det h1 k1
      cases e
      obtain ⟨e, rfl⟩ := evC_det h2 k2
      cases e
      exact absurd rfl h3
    | uncaught _ _ _ _ _ _ _ k1 k2 =>
      obtain ⟨e, rfl⟩ := ev_det h1 k1
      cases e
      cases (evC_det h2 k2).1
    | out _ _ _ _ _ _ k1 k2 k3 => exact absurd (ev_det h1 k1).1.symm (k3 _)
  | .again _ _ _ _ _ _ _ _ _ h1 h2 h3 =>
    cases h' with
    | els _ _ _ _ _ _ _ k1 k2 => cases (ev_det h1 k1).1
    | caught _ _ _ _ _ _ _ _ k1 k2 k3 =>
      obtain ⟨e, rfl⟩ := ev_det h1 k1
      cases e
      obtain ⟨e, rfl⟩ := evC_det h2 k2
      cases e
      exact absurd rfl k3
    | again _ _ _ _ _ _ _ _ _ k1 k2 k3 =>
      obtain ⟨e, rfl⟩ := ev_det h1 k1
      cases e
      obtain ⟨e, rfl⟩ := evC_det h2 k2
      exact evR_det h3 k3
    | uncaught _ _ _ _ _ _ _ k1 k2 =>
      obtain ⟨e, rfl⟩ := ev_det h1 k1
      cases e
      cases (evC_det h2 k2).1
    | out _ _ _ _ _ _ k1 k2 k3 => exact absurd (ev_det h1 k1).1.symm (k3 _)
  | .uncaught _ _ _ _ _ _ _ h1 h2 =>
    cases h' with
    | els _ _ _ _ _ _ _ k1 k2 => cases (ev_det h1 k1).1
    | caught _ _ _ _ _ _ _ _ k1 k2 k3 =>
      obtain ⟨e, rfl⟩ := ev_det h1 k1
      cases e
      cases (evC_det h2 k2).1
    | again _ _ _ _ _ _ _ _ _ k1 k2 =>
      obtain ⟨e, rfl⟩ := ev_det h1 k1
      cases e
      cases (evC_det h2 k2).1
    | uncaught _ _ _ _ _ _ _ k1 k2 =>
      obtain ⟨e, rfl⟩ := ev_det h1 k1
      cases e
      exact ⟨rfl, (evC_det h2 k2).2⟩
    | out _ _ _ _ _ _ k1 k2 k3 => exact absurd (ev_det h1 k1).1.symm (k3 _)
  | .out _ _ _ _ _ _ h1 h2 h3 =>
    cases h' with
    | els _ _ _ _ _ _ _ k1 k2 => exact absurd (ev_det h1 k1).1 h2
    | caught _ _ _ _ _ _ _ _ k1 => exact absurd (ev_det h1 k1).1 (h3 _)
    | again _ _ _ _ _ _ _ _ _ k1 => exact absurd (ev_det h1 k1).1 (h3 _)
    | uncaught _ _ _ _ _ _ _ k1 => exact absurd (ev_det h1 k1).1 (h3 _)
    | out _ _ _ _ _ _ k1 => exact ev_det h1 k1

theorem evC_det {cl : Clauses} {x : Nat} {s : σ} {o o' : Option Outc} {s1 s1' : σ}
    (h : EvC I cl x s o s1) (h' : EvC I cl x s o' s1') : o = o' ∧ s1 = s1' := by
  match h with
  | .nil x s => cases h'; exact ⟨rfl, rfl⟩
  | .hit _ _ _ _ _ _ _ _ h1 h2 =>
    cases h' with
    | hit _ _ _ _ _ _ _ _ k1 k2 =>
      rw [h1] at k1; cases k1
      obtain ⟨rfl, rfl⟩ := ev_det h2 k2
      exact ⟨rfl, rfl⟩
    | miss _ _ _ _ _ _ _ _ _ k1 => rw [h1] at k1; cases k1
    | err _ _ _ _ _ _ _ _ k1 => rw [h1] at k1; cases k1
  | .hitBind _ _ _ _ _ _ _ _ _ h1 h2 =>
    cases h' with
    | hitBind _ _ _ _ _ _ _ _ _ k1 k2 =>
      rw [h1] at k1; cases k1
      obtain ⟨rfl, rfl⟩ := ev_det h2 k2
      exact ⟨rfl, rfl⟩
    | miss _ _ _ _ _ _ _ _ _ k1 => rw [h1] at k1; cases k1
    | err _ _ _ _ _ _ _ _ k1 => rw [h1] at k1; cases k1
  | .miss _ _ _ _ _ _ _ _ _ h1 h2 =>
    cases h' with
    | hit _ _ _ _ _ _ _ _ k1 k2 => rw [h1] at k1; cases k1
    | hitBind _ _ _ _ _ _ _ _ _ k1 k2 => rw [h1] at k1; cases k1
    | miss _ _ _ _ _ _ _ _ _ k1 k2 => rw [h1] at k1; cases k1; exact evC_det h2 k2
    | err _ _ _ _ _ _ _ _ k1 => rw [h1] at k1; cases k1
  | .err _ _ _ _ _ _ _ _ h1 =>
    cases h' with
    | hit _ _ _ _ _ _ _ _ k1 k2 => rw [h1] at k1; cases k1
    | hitBind _ _ _ _ _ _ _ _ _ k1 k2 => rw [h1] at k1; cases k1
    | miss _ _ _ _ _ _ _ _ _ k1 k2 => rw [h1] at k1; cases k1
    | err _ _ _ _ _ _ _ _ k1 => rw [h1] at k1; cases k1; exact ⟨rfl, rfl⟩
end

theorem star_end {x : Fin × List (Nat × Unw) × σ} {b : Out2 σ} (h : Star I f P (.inr x) b) :
    b = .inr x := by
  cases h; rfl

/-- A machine that ends, ends in one way. -/
theorem star_det {a b : Out2 σ} {x y : Fin × List (Nat × Unw) × σ}
    (h : Star I f P a b) (hb : b = .inr x) (k : Star I f P a (.inr y)) : x = y := by
  induction h with
  | refl r => subst hb; cases star_end k; rfl
  | step m r _ ih =>
    cases k with
    | step _ _ k => exact ih hb k

theorem star_run (n : Nat) (a : Out2 σ) : Star I f P a (run I f P n a) := by
  induction n generalizing a with
  | zero => exact .refl _
  | succ n ih =>
    cases a with
    | inr r => exact .refl _
    | inl m => exact .step m _ (ih _)

theorem loc_self (P : Code) : Loc P 0 P none :=
  ⟨fun i _ => by rw [Nat.zero_add], fun q _ _ => by rw [Option.or_none]⟩

theorem discard_clean {f : Nat} {D : List (Nat × Unw)} (h : Clean f D) : discard f D = D := by
  match D, h with
  | [], _ => rfl
  | (g, u) :: ds, h =>
    simp only [discard]
    rw [if_neg (by rintro rfl; exact h u ds rfl)]

/-- Whole methods. -/
theorem method_sim {s : Stmt} (hok : Ok I false s) {D : List (Nat × Unw)} (hD : Clean f D)
    {st st' : σ} {o : Outc} (h : Ev I s st o st') {r : Fin} (hr : o.fin = some r) :
    Star I f (compMethod s) (start D st) (.inr (r, D, st')) := by
  have hL : Loc (compMethod s) 0 ((comp ⟨[], [], [], 0⟩ 0 s).app (Code.one (.ret .nil))) none :=
    loc_self _
  have l1 := loc_left' hL (within_one _ _)
  have l2 := loc_right hL (comp_within s ⟨[], [], [], 0⟩ 0 good_nil)
  obtain ⟨res, hs, hp⟩ := sim (f := f) (P := compMethod s) h false ⟨[], [], [], 0⟩ 0 none
    (fun _ => 0) D hok (fun _ => ⟨rfl, by intro g hg; cases hg⟩) (fun _ => hD) good_nil l1
  refine hs.trans ?_
  cases o with
  | norm =>
    cases hr
    obtain ⟨r', _, rfl⟩ := hp
    exact Star.one (by rw [step_one l2]; rfl)
  | ret v =>
    cases hr
    rcases hp with ⟨p, r', lo, rt, t, k, j, _, _, rfl, _, hv, hLoc⟩ | ⟨_, rfl⟩
    · rw [pend, nil_app] at hLoc
      exact Star.one (by rw [step_one hLoc]; simp [exec, readSrc, hv])
    · exact .refl _
  | exc x =>
    cases hr
    obtain ⟨p, r', _, rfl⟩ := hp
    simp only [raiseTo, discard_clean hD]
    exact .refl _
  | unw w =>
    obtain ⟨p, r', _, rfl⟩ := hp
    cases w <;> cases hr <;> simp only [unwTo, Option.bind_none, discard_clean hD] <;>
      exact .refl _
  | brk => cases hr
  | nxt => cases hr
  | retry => cases hr

end Verif.Ensure
