import Verif.Closure.Mat

/-!
# The relation between the machine and the environments, and what moving frames keeps of it
-/

namespace Verif.Closure

/-- Machine `σ` stands for the world `w`. -/
structure Sim (σ : St) (w : World) : Prop where
  ncalls : w.calls.length = σ.acts.length
  calls : ∀ (i : Nat) (a : Act), σ.acts[i]? = some a →
    w.calls[i]? = some ⟨a.cell.env, a.cache.map (fun p => (p.1, envOf σ p.2))⟩
  live : ∀ (i : Nat) (a : Act), σ.acts[i]? = some a → Live a i →
    w.envs[a.cell.env]? =
      some ⟨a.cell.slots, a.cell.outer.map (envOf σ), absBlk σ i a.cell.blk⟩
  heap : ∀ (h : Nat) (f : Frame), σ.heap[h]? = some f →
    w.envs[f.env]? = some ⟨f.slots, f.outer.map (envOf σ), absBlk σ 0 f.blk⟩
  next : w.envs.length = σ.next
  hand : w.hand = σ.hand.map (fun p => (p.1, envOf σ p.2))
  binds : w.binds = σ.binds.map (envOf σ)

theorem absBlk_any {σ : St} {b : Blk} (h : ∀ v, b ≠ .word v) (i j : Nat) :
    absBlk σ i b = absBlk σ j b := by
  cases b with
  | none => rfl
  | word v => exact absurd rfl (h v)
  | clo fid r => rfl

theorem map_envOf_congr {σ σ' : St} {o : Option Ref}
    (h : ∀ r, o = some r → envOf σ' r = envOf σ r) : o.map (envOf σ') = o.map (envOf σ) := by
  cases o with
  | none => rfl
  | some r => simp [h r rfl]

theorem map_cache_congr {σ σ' : St} {o : Option (Nat × Ref)}
    (h : ∀ p, o = some p → envOf σ' p.2 = envOf σ p.2) :
    o.map (fun p => (p.1, envOf σ' p.2)) = o.map (fun p => (p.1, envOf σ p.2)) := by
  cases o with
  | none => rfl
  | some r => simp [h r rfl]

theorem map_hand_congr {σ σ' : St} {l : List (Nat × Ref)}
    (h : ∀ fid r, (fid, r) ∈ l → envOf σ' r = envOf σ r) :
    l.map (fun p => (p.1, envOf σ' p.2)) = l.map (fun p => (p.1, envOf σ p.2)) := by
  apply List.map_congr_left
  rintro ⟨fid, r⟩ hm
  simp [h fid r hm]

theorem map_binds_congr {σ σ' : St} {l : List Ref}
    (h : ∀ r, r ∈ l → envOf σ' r = envOf σ r) : l.map (envOf σ') = l.map (envOf σ) :=
  List.map_congr_left h

theorem WF.valid_cache {σ : St} (w : WF σ) {k : Nat} {a : Act} (h : σ.acts[k]? = some a)
    {p : Nat × Ref} (hc : a.cache = some p) : Valid σ p.2 := by
  obtain ⟨fid, r⟩ := p
  cases r with
  | stk t => trivial
  | heap x => exact w.cacheh k a fid x h hc

/-- Every heap frame, in the middle of an operation, still stands for its environment. -/
theorem Sim.mid {σ₀ σ : St} {W : World} (w : WF σ₀) (s : Sim σ₀ W) (p : PW σ₀ σ) {h : Nat}
    {f : Frame} (hf : σ.heap[h]? = some f) :
    ∃ i, W.envs[f.env]? = some ⟨f.slots, f.outer.map (envOf σ), absBlk σ i f.blk⟩ := by
  rcases p.hcases w hf with h0 | ⟨i, a0, _, h0, hl0, _, hc⟩
  · refine ⟨0, ?_⟩
    rw [s.heap h f h0]
    have h1 : f.outer.map (envOf σ) = f.outer.map (envOf σ₀) := map_envOf_congr fun r hr => by
      obtain ⟨k, q, rfl, hq, _⟩ := w.houter h f r h0 hr
      exact p.ext.envOf ⟨q, hq⟩
    have h2 : absBlk σ 0 f.blk = absBlk σ₀ 0 f.blk := p.ext.absBlk fun fid r hb => by
      obtain ⟨k, q, rfl, hq⟩ := w.hclo h f fid r h0 hb
      exact ⟨q, hq⟩
    rw [h1, h2]
  · refine ⟨i, ?_⟩
    rw [hc.env, hc.slots, hc.outer, hc.blk, s.live i a0 h0 hl0]
    have h1 : a0.cell.outer.map (envOf σ) = a0.cell.outer.map (envOf σ₀) :=
      map_envOf_congr fun r hr => p.ext.envOf (w.valid_outer h0 hl0 hr)
    rw [h1, p.ext.absBlk (w.valid_blk h0 hl0)]

theorem Sim.pw {σ₀ σ : St} {W : World} (w : WF σ₀) (s : Sim σ₀ W) (p : PW σ₀ σ)
    (np : ∀ h, ¬ Pend σ h) : Sim σ W where
  ncalls := by rw [p.len, s.ncalls]
  calls := by
    intro i a ha
    obtain ⟨a0, h0, e1, e2⟩ := p.cell ha
    rw [s.calls i a0 h0, e1, e2]
    rw [map_cache_congr fun q hq => p.ext.envOf (w.valid_cache h0 hq)]
  live := by
    intro i a ha hl
    have h0 := p.live ha hl
    rw [s.live i a h0 hl, p.ext.absBlk (w.valid_blk h0 hl)]
    rw [map_envOf_congr (σ := σ₀) (σ' := σ) fun r hr => p.ext.envOf (w.valid_outer h0 hl hr)]
  heap := by
    intro h f hf
    obtain ⟨i, e⟩ := s.mid w p hf
    rw [e, absBlk_any (fun v hv => np h ⟨f, v, hf, hv⟩) i 0]
  next := by rw [p.next, s.next]
  hand := by
    rw [p.hand, s.hand]
    exact (map_hand_congr fun fid r hr => by
      obtain ⟨k, q, rfl, hq⟩ := w.hand fid r hr
      exact p.ext.envOf ⟨q, hq⟩).symm
  binds := by
    rw [p.binds, s.binds]
    exact (map_binds_congr fun r hr => by
      obtain ⟨k, q, rfl, hq⟩ := w.binds r hr
      exact p.ext.envOf ⟨q, hq⟩).symm

/-! ## Pointers in use -/

/-- A pointer to a frame where the frame now is. -/
def Ok (σ : St) : Ref → Prop
  | .stk i => ∃ a, σ.acts[i]? = some a ∧ Live a i
  | .heap h => ∃ f, σ.heap[h]? = some f

theorem WF.lfp_ok {σ : St} (w : WF σ) {i : Nat} {a : Act} (h : σ.acts[i]? = some a) :
    Ok σ a.lfp ∧ envOf σ a.lfp = a.cell.env := by
  rcases w.act i a h with hl | ⟨k, f, e1, _, e3, e4⟩
  · rw [hl.1]; exact ⟨⟨a, h, hl⟩, actEnv_eq h⟩
  · rw [e1]; exact ⟨⟨f, e3⟩, by rw [envOf_heap e3, e4]⟩

/-- A pointer in use leads to the frame that stands for its environment. -/
theorem Sim.frame {σ : St} {W : World} (w : WF σ) (s : Sim σ W) {r : Ref} (ok : Ok σ r) :
    ∃ f k, σ.frame r = some f ∧ f.env = envOf σ r ∧
      W.envs[envOf σ r]? = some ⟨f.slots, f.outer.map (envOf σ), absBlk σ k f.blk⟩ ∧
      (∀ o, f.outer = some o → Ok σ o) ∧
      (∀ v, f.blk = .word v → ∃ a, r = .stk k ∧ σ.acts[k]? = some a ∧ Live a k ∧ a.cell = f) ∧
      (∀ fid q, f.blk = .clo fid q → ∃ h g, q = .heap h ∧ σ.heap[h]? = some g) := by
  cases r with
  | stk i =>
    obtain ⟨a, ha, hl⟩ := ok
    have he : envOf σ (.stk i) = a.cell.env := actEnv_eq ha
    refine ⟨a.cell, i, by simp [St.frame, ha], he.symm, ?_, ?_, ?_, ?_⟩
    · rw [he]; exact s.live i a ha hl
    · intro o ho
      cases o with
      | stk j => exact w.louter i a j ha hl ho
      | heap h => obtain ⟨f, hf, _⟩ := w.louterh i a h ha hl ho; exact ⟨f, hf⟩
    · intro v _; exact ⟨a, rfl, ha, hl, rfl⟩
    · intro fid q hq; exact w.lclo i a fid q ha hl hq
  | heap h =>
    obtain ⟨f, hf⟩ := ok
    have he : envOf σ (.heap h) = f.env := envOf_heap hf
    refine ⟨f, 0, hf, he.symm, ?_, ?_, ?_, ?_⟩
    · rw [he]; exact s.heap h f hf
    · intro o ho
      obtain ⟨h', f', rfl, hf', _⟩ := w.houter h f o hf ho
      exact ⟨f', hf'⟩
    · intro v hv; exact absurd hv (w.hblk h f v hf)
    · intro fid q hq; exact w.hclo h f fid q hf hq

/-- Two pointers in use to the same environment are the same pointer. -/
theorem WF.ok_inj {σ : St} (w : WF σ) {r q : Ref} (hr : Ok σ r) (hq : Ok σ q)
    (e : envOf σ r = envOf σ q) : r = q := by
  cases r with
  | stk i =>
    obtain ⟨a, ha, hl⟩ := hr
    rw [show envOf σ (.stk i) = a.cell.env from actEnv_eq ha] at e
    cases q with
    | stk j =>
      obtain ⟨b, hb, hlb⟩ := hq
      rw [show envOf σ (.stk j) = b.cell.env from actEnv_eq hb] at e
      rw [w.owner_inj (f := a.cell) ha hb rfl e]
    | heap h =>
      obtain ⟨f, hf⟩ := hq
      rw [envOf_heap hf] at e
      exact absurd e.symm (w.disj i a h f ha hl hf)
  | heap h =>
    obtain ⟨f, hf⟩ := hr
    rw [envOf_heap hf] at e
    cases q with
    | stk j =>
      obtain ⟨b, hb, hlb⟩ := hq
      rw [show envOf σ (.stk j) = b.cell.env from actEnv_eq hb] at e
      exact absurd e (w.disj j b h f hb hlb hf)
    | heap h' =>
      obtain ⟨f', hf'⟩ := hq
      rw [envOf_heap hf'] at e
      rw [w.hinj h h' f f' hf hf' e]

/-- `j` is on the scope chain of the running frame: nothing shields it, except from its own
children. -/
def Shade (σ : St) (j : Nat) : Prop :=
  ∀ (i : Nat) (a : Act) (o : Nat), σ.acts[i]? = some a → Live a i →
    a.cell.outer = some (.stk o) → i ≤ j ∨ j ≤ o

/-- `Shade` for pointers. -/
def ShadeR (σ : St) (r : Ref) : Prop := ∀ j, r = .stk j → Shade σ j

theorem Shade.step {σ : St} (w : WF σ) {j t : Nat} {b : Act} (h : Shade σ j)
    (hb : σ.acts[j]? = some b) (hlb : Live b j) (ho : b.cell.outer = some (.stk t)) :
    Shade σ t := by
  intro i a o ha hl hao
  have hE : Edge σ j t := .outer hb hlb ho
  have := w.edge _ _ hE
  rcases h i a o ha hl hao with h1 | h1
  · rcases Nat.eq_or_lt_of_le h1 with e | e
    · subst e
      rw [hb] at ha; cases ha
      rw [ho] at hao; cases hao
      exact .inr (Nat.le_refl _)
    · rcases w.zone i a o ha hl hao j t e hE with h2 | h2
      · exact .inl h2
      · exact .inr (by omega)
  · exact .inr (by omega)

theorem Shade.blk {σ : St} (w : WF σ) {j v : Nat} {b : Act} (h : Shade σ j)
    (hb : σ.acts[j]? = some b) (hlb : Live b j) (hv : b.cell.blk = .word v) :
    Open σ (j - v % 65536) := by
  intro i a o ha hl hao
  have hE : Edge σ j (j - v % 65536) := .blk hb hlb hv
  have := w.edge _ _ hE
  rcases h i a o ha hl hao with h1 | h1
  · rcases Nat.eq_or_lt_of_le h1 with e | e
    · subst e
      rw [hb] at ha; cases ha
      exact absurd hv ((w.zown i b o hb hl hao).1 v)
    · exact w.zone i a o ha hl hao j _ e hE
  · exact .inr (by omega)

theorem open_top {σ : St} : Open σ (σ.acts.length - 1) := by
  intro i a o ha _ _
  have := getElem?_lt ha
  exact .inl (by omega)

theorem shade_top {σ : St} : Shade σ (σ.acts.length - 1) := by
  intro i a o ha _ _
  have := getElem?_lt ha
  exact .inl (by omega)

theorem ShadeR.step {σ : St} {W : World} (w : WF σ) (_s : Sim σ W) {r o : Ref} {f : Frame}
    (ok : Ok σ r) (sh : ShadeR σ r) (hf : σ.frame r = some f) (ho : f.outer = some o) :
    ShadeR σ o := by
  intro t e
  subst e
  cases r with
  | stk j =>
    obtain ⟨a, ha, hl⟩ := ok
    simp only [St.frame, ha, Option.map_some, Option.some.injEq] at hf
    subst hf
    exact (sh j rfl).step w ha hl ho
  | heap h =>
    obtain ⟨_, _, e, _⟩ := w.houter h f _ hf ho
    cases e

theorem walk_sim {σ : St} {W : World} (w : WF σ) (s : Sim σ W) : ∀ (d : Nat) (r : Ref), Ok σ r →
    ShadeR σ r →
    (∃ q, σ.walk d r = some q ∧ W.scope d (envOf σ r) = some (envOf σ q) ∧ Ok σ q ∧ ShadeR σ q) ∨
    (σ.walk d r = none ∧ W.scope d (envOf σ r) = none) := by
  intro d
  induction d with
  | zero => intro r ok sh; exact .inl ⟨r, rfl, rfl, ok, sh⟩
  | succ d ih =>
    intro r ok sh
    obtain ⟨f, k, hf, he, hw, hok, _⟩ := s.frame w ok
    cases ho : f.outer with
    | none =>
      right
      simp [St.walk, World.scope, hf, hw, ho]
    | some o =>
      have := ih o (hok o ho) (sh.step w s ok hf ho)
      simpa [St.walk, World.scope, hf, hw, ho] using this

theorem home_sim {σ : St} {W : World} (w : WF σ) (s : Sim σ W) : ∀ (d : Nat) (r : Ref), Ok σ r →
    ShadeR σ r →
    (∃ q, σ.home d r = some q ∧ W.method d (envOf σ r) = some (envOf σ q) ∧ Ok σ q ∧ ShadeR σ q) ∨
    (σ.home d r = none ∧ W.method d (envOf σ r) = none) := by
  intro d
  induction d with
  | zero => intro r ok sh; exact .inr ⟨rfl, rfl⟩
  | succ d ih =>
    intro r ok sh
    obtain ⟨f, k, hf, he, hw, hok, _⟩ := s.frame w ok
    cases ho : f.outer with
    | none =>
      left
      refine ⟨r, ?_, ?_, ok, sh⟩ <;> simp [St.home, World.method, hf, hw, ho]
    | some o =>
      have := ih o (hok o ho) (sh.step w s ok hf ho)
      simpa [St.home, World.method, hf, hw, ho] using this

/-- The control frame of a stack pointer in use is found. -/
theorem WF.findOwner_stk {σ : St} (w : WF σ) {k : Nat} {a : Act} (ha : σ.acts[k]? = some a)
    (hl : Live a k) : findOwner σ.acts (.stk k) σ.acts.length = some k := by
  obtain ⟨k', hk'⟩ := findOwner_exists (getElem?_lt ha) ha hl.1
  obtain ⟨_, b, hb, hlb⟩ := findOwner_some hk'
  rcases w.act k' b hb with h | ⟨h, f, e, _⟩
  · rw [h.1] at hlb; cases hlb; exact hk'
  · rw [e] at hlb; cases hlb

end Verif.Closure
