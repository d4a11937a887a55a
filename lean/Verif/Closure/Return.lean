import Verif.Closure.Step

/-!
# Unwinding for a `return` written in a block
-/

namespace Verif.Closure

/-- Operations that move no frame to the heap. -/
def Op.still : Op → Bool
  | .lambda _ | .blockArg _ | .genProc | .binding => false
  | _ => true

/-- A clause that is run in a call at depth `n - 1`: it is plain, makes no closure, and ends where
it began. -/
def World.Calm (n : Nat) : World → List Op → Prop
  | w, [] => w.calls.length = n
  | w, op :: ops => n ≤ w.calls.length ∧ w.calls.length < 65536 ∧ w.Plain op ∧ op.still = true ∧
      World.Calm n (w.step op).1 ops

/-- The first `n` control frames, and the heap frames, of `σ` are where they were. -/
structure Keep (n : Nat) (σ σ' : St) : Prop where
  act : ∀ (i : Nat) (a a' : Act), i < n → σ.acts[i]? = some a → σ'.acts[i]? = some a' →
    a'.lfp = a.lfp ∧ a'.cell.env = a.cell.env
  heap : ∀ (h : Nat) (f : Frame), σ.heap[h]? = some f → ∃ f', σ'.heap[h]? = some f' ∧ f'.env = f.env

theorem Keep.refl (n : Nat) (σ : St) : Keep n σ σ :=
  ⟨fun i a a' _ h h' => by rw [h] at h'; cases h'; exact ⟨rfl, rfl⟩, fun _ f h => ⟨f, h, rfl⟩⟩

theorem Keep.trans {n : Nat} {a b c : St} (hb : n ≤ b.acts.length) (x : Keep n a b)
    (y : Keep n b c) : Keep n a c where
  act := fun i p r hi hp hr => by
    obtain ⟨q, hq⟩ := exists_getElem? (show i < b.acts.length by omega)
    have h1 := x.act i p q hi hp hq
    have h2 := y.act i q r hi hq hr
    exact ⟨h2.1.trans h1.1, h2.2.trans h1.2⟩
  heap := fun h f hf => by
    obtain ⟨f1, h1, e1⟩ := x.heap h f hf
    obtain ⟨f2, h2, e2⟩ := y.heap h f1 h1
    exact ⟨f2, h2, e2.trans e1⟩

theorem keep_push (n : Nat) (σ : St) (o : Option Ref) (b : Blk) (hn : n ≤ σ.acts.length) :
    Keep n σ (σ.push o b) where
  act := fun i a a' hi h h' => by
    rcases push_get.mp h' with h1 | ⟨h1, _⟩
    · rw [h] at h1; cases h1; exact ⟨rfl, rfl⟩
    · omega
  heap := fun _ f h => ⟨f, h, rfl⟩

theorem keep_cache (n : Nat) (σ : St) (p : Nat × Ref) : Keep n σ (σ.setCache p) where
  act := fun i a a' _ h h' => by
    obtain ⟨b, hb, e1, e2, _⟩ := cache_act h'
    rw [h] at hb; cases hb
    exact ⟨e1, by rw [e2]⟩
  heap := fun _ f h => ⟨f, h, rfl⟩

theorem keep_step {n : Nat} {σ : St} {W : World} (w : WF σ) (s : Sim σ W) (hn : n ≤ σ.acts.length)
    {op : Op} (hst : op.still = true) : Keep n σ (step true σ op).1 := by
  obtain ⟨a, ha, ht, ok, he, hw, sh, hcall⟩ := top_sim w s
  cases op with
  | lambda fid => cases hst
  | blockArg d => cases hst
  | genProc => cases hst
  | binding => cases hst
  | get d i =>
    simp only [step, ht]
    split
    · split <;> exact .refl _ _
    · exact .refl _ _
  | set d i x =>
    simp only [step, ht]
    rcases walk_sim w s d _ ok sh with ⟨q, h1, h2, okq, _⟩ | ⟨h1, h2⟩
    · simp only [h1]
      have q' := (wrote okq i x).same
      refine ⟨?_, ?_⟩
      · intro k b b' _ hb hb'
        obtain ⟨c, sl, hc, rfl⟩ := q'.act k b' hb'
        rw [hb] at hc; cases hc
        exact ⟨rfl, rfl⟩
      · intro h f hf
        obtain ⟨sl, hf'⟩ := q'.heapsome hf
        exact ⟨_, hf', rfl⟩
    · simp only [h1]; exact .refl _ _
  | call lit =>
    cases lit <;> (simp only [step, ht]; exact keep_push _ _ _ _ hn)
  | callFwd =>
    simp only [step, ht]
    split
    · exact keep_push _ _ _ _ hn
    · exact .refl _ _
  | callInt m => simp only [step, ht]; exact keep_push _ _ _ _ hn
  | callProc k =>
    simp only [step, ht]
    split
    · exact keep_push _ _ _ _ hn
    · exact .refl _ _
  | yield =>
    simp only [step, ht]
    split
    · exact keep_push _ _ _ _ hn
    · exact .refl _ _
  | cache =>
    simp only [step, ht]
    split
    · exact keep_cache _ _ _
    · split
      · exact keep_cache _ _ _
      · exact .refl _ _
    · exact .refl _ _
    · exact .refl _ _
  | invoke =>
    simp only [step, ht]
    split
    · split
      · exact keep_push _ _ _ _ hn
      · exact .refl _ _
    · exact .refl _ _
  | procBody k fwd =>
    simp only [step, ht]
    split
    · exact keep_push _ _ _ _ hn
    · exact .refl _ _
  | evalIn k =>
    simp only [step, ht]
    split
    · refine ⟨?_, ?_⟩
      · intro i b b' hi hb hb'
        rcases eval_get.mp hb' with h1 | ⟨h1, _⟩
        · rw [hb] at h1; cases h1; exact ⟨rfl, rfl⟩
        · omega
      · intro h f hf; exact ⟨f, eval_heap.mpr (.inl hf), rfl⟩
    · exact .refl _ _
  | ret =>
    simp only [step, ht]
    split
    · exact .refl _ _
    · refine ⟨?_, fun _ f h => ⟨f, h, rfl⟩⟩
      intro i b b' _ hb hb'
      have := (pop_get.mp hb').1
      rw [hb] at this; cases this
      exact ⟨rfl, rfl⟩

theorem clause_sim {n : Nat} : ∀ (ops : List Op) {σ : St} {W : World}, WF σ → Sim σ W →
    W.Calm n ops → n ≤ σ.acts.length →
    WF (run true σ ops).1 ∧ Sim (run true σ ops).1 (W.run ops).1 ∧ Keep n σ (run true σ ops).1 ∧
      (run true σ ops).1.acts.length = n := by
  intro ops
  induction ops with
  | nil =>
    intro σ W w s hc _
    have hc : W.calls.length = n := hc
    exact ⟨w, s, .refl _ _, by show σ.acts.length = n; rw [← s.ncalls]; exact hc⟩
  | cons op ops ih =>
    intro σ W w s hc hn
    obtain ⟨h1, h2, h3, h4, h5⟩ := hc
    obtain ⟨w', s', _⟩ := step_sim w s h2 op h3
    have hn' : n ≤ (step true σ op).1.acts.length := by
      rw [← s'.ncalls]
      cases ops with
      | nil => exact Nat.le_of_eq (show _ = n from h5).symm
      | cons _ _ => exact h5.1
    obtain ⟨a, b, c, d⟩ := ih w' s' h5 hn'
    exact ⟨a, b, (keep_step w s hn h4).trans hn' c, d⟩

/-- The clauses run by a `return`, each in the world in which it is run, are calm. -/
def World.CalmAll (ens : Nat → Option (List Op)) (w : World) (m : Nat) : Nat → Prop
  | 0 => True
  | k + 1 =>
    (∀ ops, ens k = some ops → w.Calm (k + 1) ops) ∧
    (let w1 := w.after ens k
    (w1.calls[k]?).map (·.env) ≠ some m →
      World.CalmAll ens { w1 with calls := w1.calls.take k } m k)

theorem take_pop {σ : St} {k : Nat} (h : σ.acts.length = k + 1) :
    { σ with acts := σ.acts.take k } = σ.pop := by
  unfold St.pop
  rw [List.dropLast_eq_take, h]
  rfl

theorem take_calls {W : World} {k : Nat} (h : W.calls.length = k + 1) :
    { W with calls := W.calls.take k } = { W with calls := W.calls.dropLast } := by
  rw [List.dropLast_eq_take, h]
  rfl

theorem unwind_sim (ens : Nat → Option (List Op)) : ∀ (k : Nat) {σ : St} {W : World} {t : Ref},
    WF σ → Sim σ W → σ.acts.length = k → Ok σ t → W.CalmAll ens (envOf σ t) k →
    (∃ (i : Nat) (a : Act), σ.acts[i]? = some a ∧ a.cell.env = envOf σ t) →
    (unwind true ens σ t k).2 = (W.unwind ens (envOf σ t) k).2 ∧
    (∀ j, (unwind true ens σ t k).2 = .returned j → 0 < j →
      WF (unwind true ens σ t k).1 ∧
      Sim (unwind true ens σ t k).1 (W.unwind ens (envOf σ t) k).1) := by
  intro k
  induction k with
  | zero => intro σ W t w _ hlen; have := w.ne; omega
  | succ k ih =>
    intro σ W t w s hlen ok hcalm hin
    obtain ⟨a, ha⟩ := exists_getElem? (show k < σ.acts.length by omega)
    obtain ⟨hc1, hc2⟩ := hcalm
    -- after the clause
    obtain ⟨σ1, W1, e1, e2, w1, s1, kp, hlen1⟩ : ∃ (σ1 : St) (W1 : World),
        σ.after true ens k = σ1 ∧ W.after ens k = W1 ∧
        WF σ1 ∧ Sim σ1 W1 ∧ Keep (k + 1) σ σ1 ∧ σ1.acts.length = k + 1 := by
      cases h : ens k with
      | none => exact ⟨σ, W, by simp [St.after, h], by simp [World.after, h], w, s, .refl _ _, hlen⟩
      | some ops =>
        obtain ⟨x1, x2, x3, x4⟩ := clause_sim ops w s (hc1 ops h) (by omega)
        exact ⟨_, _, by simp only [St.after, h]; rfl, by simp only [World.after, h], x1, x2, x3, x4⟩
    obtain ⟨a1, ha1⟩ := exists_getElem? (show k < σ1.acts.length by omega)
    have hlfp : a1.lfp = a.lfp := (kp.act k a a1 (by omega) ha ha1).1
    -- the target is where it was
    have okt : Ok σ1 t ∧ envOf σ1 t = envOf σ t := by
      cases t with
      | heap h =>
        obtain ⟨f, hf⟩ := ok
        obtain ⟨f', hf', e⟩ := kp.heap h f hf
        exact ⟨⟨f', hf'⟩, by rw [envOf_heap hf, envOf_heap hf', e]⟩
      | stk j =>
        obtain ⟨b, hb, hlb⟩ := ok
        have hj := getElem?_lt hb
        obtain ⟨b1, hb1⟩ := exists_getElem? (show j < σ1.acts.length by omega)
        obtain ⟨q1, q2⟩ := kp.act j b b1 (by omega) hb hb1
        refine ⟨⟨b1, hb1, ?_⟩, ?_⟩
        · rcases w1.act j b1 hb1 with h | ⟨h, f, e, _⟩
          · exact h
          · rw [q1, hlb.1] at e; cases e
        · show actEnv σ1 j = actEnv σ j
          rw [actEnv_eq hb, actEnv_eq hb1, q2]
    obtain ⟨okt, het⟩ := okt
    have hcall := s1.calls k a1 ha1
    obtain ⟨okl, hel⟩ := w1.lfp_ok ha1
    have hiff : a1.lfp = t ↔ a1.cell.env = envOf σ t := by
      constructor
      · intro e; rw [← hel, e, het]
      · intro e; exact w1.ok_inj okl okt (by rw [hel, e, het])
    have hun : unwind true ens σ t (k + 1) =
        if a1.lfp = t then ({ σ1 with acts := σ1.acts.take k }, .returned k)
        else unwind true ens { σ1 with acts := σ1.acts.take k } t k := by
      simp only [unwind, ha, e1, ha1, Option.map_some, hlfp]
      simp
    have hunW : W.unwind ens (envOf σ t) (k + 1) =
        if a1.cell.env = envOf σ t then ({ W1 with calls := W1.calls.take k }, .returned k)
        else World.unwind ens { W1 with calls := W1.calls.take k } (envOf σ t) k := by
      simp only [World.unwind, e2, hcall, Option.map_some]
      simp
    rw [hun, hunW, take_pop hlen1, take_calls (by rw [s1.ncalls]; exact hlen1)]
    by_cases e : a1.lfp = t
    · rw [if_pos e, if_pos (hiff.mp e)]
      refine ⟨rfl, ?_⟩
      intro j hj hj0
      cases hj
      exact ⟨w1.pop (by omega), s1.pop w1 (by omega)⟩
    · have en : a1.cell.env ≠ envOf σ t := fun h => e (hiff.mpr h)
      rw [if_neg e, if_neg en]
      -- the target's call is below
      obtain ⟨i, b, hb, hbe⟩ := hin
      have hi := getElem?_lt hb
      have hik : i ≠ k := by
        rintro rfl
        rw [ha] at hb; cases hb
        exact en ((kp.act i a a1 (by omega) ha ha1).2.trans hbe)
      have w2 := w1.pop (by omega)
      have s2 := s1.pop w1 (by omega)
      have okt2 : Ok σ1.pop t ∧ envOf σ1.pop t = envOf σ t := by
        cases t with
        | heap h =>
          exact ⟨okt, het⟩
        | stk j =>
          obtain ⟨c, hc, hlc⟩ := okt
          have hj := getElem?_lt hc
          have hjk : j ≠ k := by
            rintro rfl
            rw [ha1] at hc; cases hc
            exact e hlc.1
          have hc' : σ1.pop.acts[j]? = some c := pop_get.mpr ⟨hc, by omega⟩
          refine ⟨⟨c, hc', hlc⟩, ?_⟩
          rw [← het]
          show actEnv σ1.pop j = actEnv σ1 j
          rw [actEnv_eq hc, actEnv_eq hc']
      obtain ⟨b1, hb1⟩ := exists_getElem? (show i < σ1.acts.length by omega)
      have hcalm2 : World.CalmAll ens { W1 with calls := W1.calls.dropLast }
          (envOf σ1.pop t) k := by
        have := hc2
        simp only [e2] at this
        rw [← take_calls (by rw [s1.ncalls]; exact hlen1), okt2.2]
        apply this
        rw [hcall]
        intro h
        exact en (Option.some.inj h)
      have hlp : σ1.pop.acts.length = k := by
        show σ1.acts.dropLast.length = k
        simp [hlen1]
      have R := ih w2 s2 hlp okt2.1 hcalm2
        ⟨i, b1, pop_get.mpr ⟨hb1, by omega⟩, by
          rw [okt2.2, ← hbe]; exact (kp.act i b b1 (by omega) hb hb1).2⟩
      rw [okt2.2] at R
      exact R

end Verif.Closure
