import Verif.Closure.Sim

/-!
# Pushing and popping frames, assigning variables, keeping blocks
-/

namespace Verif.Closure

/-- A pointer to something that exists in `σ`. -/
def In (σ : St) : Ref → Prop
  | .stk i => i < σ.acts.length
  | .heap h => ∃ f, σ.heap[h]? = some f

/-- `σ'` has all that `σ` has, for the same calls. -/
structure Grow (σ σ' : St) : Prop where
  act : ∀ i, i < σ.acts.length → actEnv σ' i = actEnv σ i
  heap : ∀ (h : Nat) (f : Frame), σ.heap[h]? = some f → ∃ f', σ'.heap[h]? = some f' ∧ f'.env = f.env

theorem Grow.envOf {σ σ' : St} (g : Grow σ σ') {r : Ref} (h : In σ r) :
    envOf σ' r = Verif.Closure.envOf σ r := by
  cases r with
  | stk i => exact g.act i h
  | heap k =>
    obtain ⟨f, hf⟩ := h
    obtain ⟨f', hf', e⟩ := g.heap k f hf
    rw [envOf_heap hf, envOf_heap hf', e]

theorem Grow.absBlk {σ σ' : St} (g : Grow σ σ') {b : Blk} {i : Nat} (hi : i < σ.acts.length)
    (h : ∀ fid r, b = .clo fid r → In σ r) : absBlk σ' i b = Verif.Closure.absBlk σ i b := by
  cases b with
  | none => rfl
  | word v => simp only [Verif.Closure.absBlk, g.act (i - v % 65536) (by omega)]
  | clo fid r => simp only [Verif.Closure.absBlk, g.envOf (h fid r rfl)]

theorem WF.in_outer {σ : St} (w : WF σ) {i : Nat} {a : Act} (h : σ.acts[i]? = some a)
    (hl : Live a i) {r : Ref} (ho : a.cell.outer = some r) : In σ r := by
  cases r with
  | stk t => obtain ⟨b, hb, _⟩ := w.louter i a t h hl ho; exact getElem?_lt hb
  | heap k => obtain ⟨f, hf, _⟩ := w.louterh i a k h hl ho; exact ⟨f, hf⟩

theorem WF.in_blk {σ : St} (w : WF σ) {i : Nat} {a : Act} (h : σ.acts[i]? = some a)
    (hl : Live a i) : ∀ fid r, a.cell.blk = .clo fid r → In σ r := by
  intro fid r hb
  obtain ⟨k, f, rfl, hf⟩ := w.lclo i a fid r h hl hb
  exact ⟨f, hf⟩

theorem WF.in_houter {σ : St} (w : WF σ) {h : Nat} {f : Frame} (hf : σ.heap[h]? = some f)
    {r : Ref} (ho : f.outer = some r) : In σ r := by
  obtain ⟨h', f', rfl, hf', _⟩ := w.houter h f r hf ho
  exact ⟨f', hf'⟩

theorem WF.in_hblk {σ : St} (w : WF σ) {h : Nat} {f : Frame} (hf : σ.heap[h]? = some f) :
    ∀ fid r, f.blk = .clo fid r → In σ r := by
  intro fid r hb
  obtain ⟨k, f, rfl, hf⟩ := w.hclo h f fid r hf hb
  exact ⟨f, hf⟩

theorem WF.in_cache {σ : St} (w : WF σ) {k : Nat} {a : Act} (h : σ.acts[k]? = some a)
    {p : Nat × Ref} (hc : a.cache = some p) : In σ p.2 := by
  obtain ⟨fid, r⟩ := p
  cases r with
  | stk t =>
    have := w.edge k t (.cache h hc)
    have := getElem?_lt h
    show t < _
    omega
  | heap x => exact w.cacheh k a fid x h hc

theorem WF.in_hand {σ : St} (w : WF σ) {fid : Nat} {r : Ref} (h : (fid, r) ∈ σ.hand) :
    In σ r := by
  obtain ⟨k, f, rfl, hf⟩ := w.hand fid r h
  exact ⟨f, hf⟩

theorem WF.in_binds {σ : St} (w : WF σ) {r : Ref} (h : r ∈ σ.binds) : In σ r := by
  obtain ⟨k, f, rfl, hf⟩ := w.binds r h
  exact ⟨f, hf⟩

/-! ## Push -/

/-- What may be pushed. -/
structure Fit (σ : St) (outer : Option Ref) (blk : Blk) : Prop where
  ok : ∀ o, outer = some o → Ok σ o
  shade : ∀ t, outer = some (.stk t) → Open σ t
  own : ∀ t, outer = some (.stk t) → ∀ v, blk ≠ .word v
  word : ∀ v, blk = .word v → 1 ≤ v % 65536 ∧ v % 65536 ≤ σ.acts.length ∧
    Open σ (σ.acts.length - v % 65536)
  clo : ∀ fid r, blk = .clo fid r → ∃ h f, r = .heap h ∧ σ.heap[h]? = some f

/-- The control frame that `push` adds. -/
def newAct (σ : St) (outer : Option Ref) (blk : Blk) : Act :=
  { lfp := .stk σ.acts.length,
    cell := { slots := fun _ => 0, outer, blk, inv := false, env := σ.next }, cache := none }

theorem push_get {σ : St} {outer : Option Ref} {blk : Blk} {i : Nat} {a : Act} :
    (σ.push outer blk).acts[i]? = some a ↔
      σ.acts[i]? = some a ∨ (i = σ.acts.length ∧ newAct σ outer blk = a) :=
  append_get _ _ _ _

theorem Edge.push {σ : St} {outer : Option Ref} {blk : Blk} {k t : Nat}
    (e : Edge (σ.push outer blk) k t) : Edge σ k t ∨ (k = σ.acts.length ∧
      (outer = some (.stk t) ∨ ∃ v, blk = .word v ∧ t = k - v % 65536)) := by
  cases e with
  | outer h hl ho =>
    rcases push_get.mp h with h1 | ⟨h1, rfl⟩
    · exact .inl (.outer h1 hl ho)
    · exact .inr ⟨h1, .inl ho⟩
  | blk h hl hb =>
    rcases push_get.mp h with h1 | ⟨h1, rfl⟩
    · exact .inl (.blk h1 hl hb)
    · exact .inr ⟨h1, .inr ⟨_, hb, rfl⟩⟩
  | cache h hc =>
    rcases push_get.mp h with h1 | ⟨h1, rfl⟩
    · exact .inl (.cache h1 hc)
    · cases hc

theorem WF.push {σ : St} (w : WF σ) {outer : Option Ref} {blk : Blk} (fit : Fit σ outer blk) :
    WF (σ.push outer blk) where
  ne := by
    show 0 < (σ.acts ++ _).length
    simp
  act := by
    intro i a ha
    rcases push_get.mp ha with h | ⟨h, rfl⟩
    · exact w.act i a h
    · exact .inl ⟨by rw [h]; rfl, rfl⟩
  envA := by
    intro i a ha
    show _ < σ.next + 1
    rcases push_get.mp ha with h | ⟨h, rfl⟩
    · have := w.envA i a h; omega
    · show σ.next < _; omega
  envH := by
    intro h f hf
    show _ < σ.next + 1
    have := w.envH h f hf; omega
  inc := by
    intro i j a b hij ha hb
    rcases push_get.mp hb with h | ⟨h, rfl⟩
    · rcases push_get.mp ha with h' | ⟨h', rfl⟩
      · exact w.inc i j a b hij h' h
      · have := getElem?_lt h; omega
    · rcases push_get.mp ha with h' | ⟨h', rfl⟩
      · exact w.envA i a h'
      · omega
  hinj := w.hinj
  disj := by
    intro i a h f ha hl hf
    rcases push_get.mp ha with h1 | ⟨h1, rfl⟩
    · exact w.disj i a h f h1 hl hf
    · have := w.envH h f hf
      show f.env ≠ σ.next
      omega
  louter := by
    intro i a o ha hl ho
    rcases push_get.mp ha with h1 | ⟨h1, rfl⟩
    · obtain ⟨b, hb, hlb⟩ := w.louter i a o h1 hl ho
      exact ⟨b, push_get.mpr (.inl hb), hlb⟩
    · obtain ⟨b, hb, hlb⟩ := fit.ok _ ho
      exact ⟨b, push_get.mpr (.inl hb), hlb⟩
  louterh := by
    intro i a h ha hl ho
    rcases push_get.mp ha with h1 | ⟨h1, rfl⟩
    · exact w.louterh i a h h1 hl ho
    · obtain ⟨f, hf⟩ := fit.ok _ ho
      exact ⟨f, hf, w.envH h f hf⟩
  lblk := by
    intro i a v ha hl hb
    rcases push_get.mp ha with h1 | ⟨h1, rfl⟩
    · exact w.lblk i a v h1 hl hb
    · obtain ⟨h2, h3, _⟩ := fit.word v hb
      exact ⟨h2, by omega⟩
  lclo := by
    intro i a fid r ha hl hb
    rcases push_get.mp ha with h1 | ⟨h1, rfl⟩
    · exact w.lclo i a fid r h1 hl hb
    · exact fit.clo fid r hb
  edge := by
    intro k t e
    rcases e.push with h | ⟨h, h1 | ⟨v, h1, h2⟩⟩
    · exact w.edge k t h
    · obtain ⟨b, hb, _⟩ := fit.ok _ h1
      have := getElem?_lt hb; omega
    · have := fit.word v h1; omega
  zown := by
    intro i a o ha hl ho
    rcases push_get.mp ha with h1 | ⟨h1, rfl⟩
    · exact w.zown i a o h1 hl ho
    · refine ⟨fit.own o ho, ?_⟩
      intro fid t h; cases h
  zone := by
    intro i a o ha hl ho k t hik e
    rcases push_get.mp ha with h1 | ⟨h1, rfl⟩
    · rcases e.push with h | ⟨h, h2 | ⟨v, h2, h3⟩⟩
      · exact w.zone i a o h1 hl ho k t hik h
      · exact fit.shade t h2 i a o h1 hl ho
      · have := (fit.word v h2).2.2 i a o h1 hl ho
        rw [h3, h]; exact this
    · rcases e.push with h | ⟨h, _⟩
      · exfalso
        cases h with
        | outer h _ _ => have := getElem?_lt h; omega
        | blk h _ _ => have := getElem?_lt h; omega
        | cache h _ => have := getElem?_lt h; omega
      · omega
  cacheh := by
    intro k a fid h ha hc
    rcases push_get.mp ha with h1 | ⟨h1, rfl⟩
    · exact w.cacheh k a fid h h1 hc
    · cases hc
  houter := w.houter
  hblk := w.hblk
  hclo := w.hclo
  hand := w.hand
  binds := w.binds

theorem grow_push (σ : St) (outer : Option Ref) (blk : Blk) : Grow σ (σ.push outer blk) where
  act := fun i hi => by
    obtain ⟨a, ha⟩ := exists_getElem? hi
    rw [actEnv_eq ha, actEnv_eq (push_get.mpr (.inl ha))]
  heap := fun h f hf => ⟨f, hf, rfl⟩

theorem Ok.in {σ : St} {r : Ref} (h : Ok σ r) : In σ r := by
  cases r with
  | stk i => obtain ⟨a, ha, _⟩ := h; exact getElem?_lt ha
  | heap k => exact h

theorem enter_envs (W : World) (p : Option Nat) (b : Option (Nat × Nat)) (j : Nat) (v : Env)
    (h : W.envs[j]? = some v) : (W.enter p b).envs[j]? = some v :=
  (append_get _ _ _ _).mpr (.inl h)

theorem Sim.push {σ : St} {W : World} (w : WF σ) (s : Sim σ W) {outer : Option Ref} {blk : Blk}
    (fit : Fit σ outer blk) {p : Option Nat} {b : Option (Nat × Nat)}
    (hp : p = outer.map (envOf σ)) (hb : b = absBlk σ σ.acts.length blk) :
    Sim (σ.push outer blk) (W.enter p b) := by
  have g := grow_push σ outer blk
  subst hp hb
  refine ⟨?_, ?_, ?_, ?_, ?_, ?_, ?_⟩
  · show (W.calls ++ _).length = (σ.acts ++ _).length
    simp [s.ncalls]
  · intro i a ha
    rcases push_get.mp ha with h | ⟨h, rfl⟩
    · refine (append_get _ _ _ _).mpr (.inl ?_)
      rw [s.calls i a h, map_cache_congr (σ := σ) fun q hq => g.envOf (w.in_cache h hq)]
    · refine (append_get _ _ _ _).mpr (.inr ⟨by rw [h, s.ncalls], ?_⟩)
      rw [s.next]; rfl
  · intro i a ha hl
    rcases push_get.mp ha with h | ⟨h, rfl⟩
    · refine enter_envs _ _ _ _ _ ?_
      rw [s.live i a h hl, g.absBlk (getElem?_lt h) (w.in_blk h hl),
        map_envOf_congr (σ := σ) fun q hq => g.envOf (w.in_outer h hl hq)]
    · refine (append_get _ _ _ _).mpr (.inr ⟨s.next.symm, ?_⟩)
      have h1 : outer.map (envOf (σ.push outer blk)) = outer.map (envOf σ) :=
        map_envOf_congr fun q hq => g.envOf (fit.ok q hq).in
      have h2 : absBlk (σ.push outer blk) i blk = absBlk σ σ.acts.length blk := by
        rw [h]
        cases hblk : blk with
        | none => rfl
        | word v =>
          have := fit.word v hblk
          simp only [absBlk]
          rw [← hblk, g.act _ (by omega)]
        | clo fid r =>
          obtain ⟨k, f, e, hf⟩ := fit.clo fid r hblk
          simp only [absBlk]
          rw [← hblk, g.envOf (show In σ r by rw [e]; exact ⟨f, hf⟩)]
      show (⟨_, _, _⟩ : Env) = ⟨_, outer.map _, absBlk _ i blk⟩
      rw [h1, h2]
      rfl
  · intro h f hf
    refine enter_envs _ _ _ _ _ ?_
    rw [s.heap h f hf, map_envOf_congr (σ := σ) fun q hq => g.envOf (w.in_houter hf hq),
      g.absBlk w.ne (w.in_hblk hf)]
  · show (W.envs ++ _).length = σ.next + 1
    simp [s.next]
  · show W.hand = _
    rw [s.hand]
    exact (map_hand_congr fun fid r hr => g.envOf (w.in_hand hr)).symm
  · show W.binds = _
    rw [s.binds]
    exact (map_binds_congr fun r hr => g.envOf (w.in_binds hr)).symm

/-! ## `eval` -/

/-- The heap frame of an `eval`. -/
def evalFrame (σ : St) (o : Ref) : Frame :=
  { slots := fun _ => 0, outer := some o, blk := .none, inv := false, env := σ.next }

/-- The control frame of an `eval`. -/
def evalAct (σ : St) (o : Ref) : Act :=
  { lfp := .heap σ.heap.length, cell := { evalFrame σ o with inv := true }, cache := none }

theorem eval_get {σ : St} {o : Ref} {i : Nat} {a : Act} :
    (σ.pushEval o).acts[i]? = some a ↔
      σ.acts[i]? = some a ∨ (i = σ.acts.length ∧ evalAct σ o = a) :=
  append_get _ _ _ _

theorem eval_heap {σ : St} {o : Ref} {i : Nat} {f : Frame} :
    (σ.pushEval o).heap[i]? = some f ↔
      σ.heap[i]? = some f ∨ (i = σ.heap.length ∧ evalFrame σ o = f) :=
  append_get _ _ _ _

theorem not_live_eval (σ : St) (o : Ref) (i : Nat) : ¬ Live (evalAct σ o) i := by
  intro h; cases h.1

theorem Edge.eval {σ : St} {o : Ref} {k t : Nat} (e : Edge (σ.pushEval o) k t) : Edge σ k t := by
  cases e with
  | outer h hl ho =>
    rcases eval_get.mp h with h1 | ⟨h1, rfl⟩
    · exact .outer h1 hl ho
    · exact absurd hl (not_live_eval _ _ _)
  | blk h hl hb =>
    rcases eval_get.mp h with h1 | ⟨h1, rfl⟩
    · exact .blk h1 hl hb
    · exact absurd hl (not_live_eval _ _ _)
  | cache h hc =>
    rcases eval_get.mp h with h1 | ⟨h1, rfl⟩
    · exact .cache h1 hc
    · cases hc

theorem live_eval {σ : St} {o : Ref} {i : Nat} {a : Act}
    (h : (σ.pushEval o).acts[i]? = some a) (hl : Live a i) : σ.acts[i]? = some a := by
  rcases eval_get.mp h with h1 | ⟨h1, rfl⟩
  · exact h1
  · exact absurd hl (not_live_eval _ _ _)

theorem WF.pushEval {σ : St} (w : WF σ) {k : Nat} {g : Frame} (hg : σ.heap[k]? = some g) :
    WF (σ.pushEval (.heap k)) where
  ne := by
    show 0 < (σ.acts ++ _).length
    simp
  act := by
    intro i a ha
    rcases eval_get.mp ha with h | ⟨h, rfl⟩
    · rcases w.act i a h with hl | ⟨x, f, e1, e2, e3, e4⟩
      · exact .inl hl
      · exact .inr ⟨x, f, e1, e2, eval_heap.mpr (.inl e3), e4⟩
    · exact .inr ⟨_, _, rfl, rfl, eval_heap.mpr (.inr ⟨rfl, rfl⟩), rfl⟩
  envA := by
    intro i a ha
    show _ < σ.next + 1
    rcases eval_get.mp ha with h | ⟨h, rfl⟩
    · have := w.envA i a h; omega
    · show σ.next < _; omega
  envH := by
    intro h f hf
    show _ < σ.next + 1
    rcases eval_heap.mp hf with h1 | ⟨h1, rfl⟩
    · have := w.envH h f h1; omega
    · show σ.next < _; omega
  inc := by
    intro i j a b hij ha hb
    rcases eval_get.mp hb with h | ⟨h, rfl⟩
    · rcases eval_get.mp ha with h' | ⟨h', rfl⟩
      · exact w.inc i j a b hij h' h
      · have := getElem?_lt h; omega
    · rcases eval_get.mp ha with h' | ⟨h', rfl⟩
      · exact w.envA i a h'
      · omega
  hinj := by
    intro h h' f f' hf hf' e
    rcases eval_heap.mp hf with h1 | ⟨h1, rfl⟩ <;> rcases eval_heap.mp hf' with h2 | ⟨h2, rfl⟩
    · exact w.hinj h h' f f' h1 h2 e
    · have := w.envH h f h1
      have e : f.env = σ.next := e
      omega
    · have := w.envH h' f' h2
      have e : σ.next = f'.env := e
      omega
    · omega
  disj := by
    intro i a h f ha hl hf
    have ha := live_eval ha hl
    rcases eval_heap.mp hf with h1 | ⟨h1, rfl⟩
    · exact w.disj i a h f ha hl h1
    · have := w.envA i a ha
      show σ.next ≠ _
      omega
  louter := by
    intro i a o ha hl ho
    obtain ⟨b, hb, hlb⟩ := w.louter i a o (live_eval ha hl) hl ho
    exact ⟨b, eval_get.mpr (.inl hb), hlb⟩
  louterh := by
    intro i a h ha hl ho
    obtain ⟨f, hf, e⟩ := w.louterh i a h (live_eval ha hl) hl ho
    exact ⟨f, eval_heap.mpr (.inl hf), e⟩
  lblk := fun i a v ha hl hb => w.lblk i a v (live_eval ha hl) hl hb
  lclo := by
    intro i a fid r ha hl hb
    obtain ⟨h, f, e, hf⟩ := w.lclo i a fid r (live_eval ha hl) hl hb
    exact ⟨h, f, e, eval_heap.mpr (.inl hf)⟩
  edge := fun k t e => w.edge k t e.eval
  zown := fun i a o ha hl ho => w.zown i a o (live_eval ha hl) hl ho
  zone := fun i a o ha hl ho k t hik e => w.zone i a o (live_eval ha hl) hl ho k t hik e.eval
  cacheh := by
    intro k a fid h ha hc
    rcases eval_get.mp ha with h1 | ⟨h1, rfl⟩
    · obtain ⟨f, hf⟩ := w.cacheh k a fid h h1 hc
      exact ⟨f, eval_heap.mpr (.inl hf)⟩
    · cases hc
  houter := by
    intro h f r hf ho
    rcases eval_heap.mp hf with h1 | ⟨h1, rfl⟩
    · obtain ⟨h', f', e, hf', hlt⟩ := w.houter h f r h1 ho
      exact ⟨h', f', e, eval_heap.mpr (.inl hf'), hlt⟩
    · cases ho
      exact ⟨k, g, rfl, eval_heap.mpr (.inl hg), w.envH k g hg⟩
  hblk := by
    intro h f v hf
    rcases eval_heap.mp hf with h1 | ⟨h1, rfl⟩
    · exact w.hblk h f v h1
    · intro e; cases e
  hclo := by
    intro h f fid r hf hb
    rcases eval_heap.mp hf with h1 | ⟨h1, rfl⟩
    · obtain ⟨h', f', e, hf'⟩ := w.hclo h f fid r h1 hb
      exact ⟨h', f', e, eval_heap.mpr (.inl hf')⟩
    · cases hb
  hand := by
    intro fid r hr
    obtain ⟨h', f', e, hf'⟩ := w.hand fid r hr
    exact ⟨h', f', e, eval_heap.mpr (.inl hf')⟩
  binds := by
    intro r hr
    obtain ⟨h', f', e, hf'⟩ := w.binds r hr
    exact ⟨h', f', e, eval_heap.mpr (.inl hf')⟩

theorem grow_eval (σ : St) (o : Ref) : Grow σ (σ.pushEval o) where
  act := fun i hi => by
    obtain ⟨a, ha⟩ := exists_getElem? hi
    rw [actEnv_eq ha, actEnv_eq (eval_get.mpr (.inl ha))]
  heap := fun h f hf => ⟨f, eval_heap.mpr (.inl hf), rfl⟩

theorem Sim.pushEval {σ : St} {W : World} (w : WF σ) (s : Sim σ W) {k : Nat} {q : Frame}
    (hq : σ.heap[k]? = some q) :
    Sim (σ.pushEval (.heap k)) (W.enter (some (envOf σ (.heap k))) none) := by
  have g := grow_eval σ (.heap k)
  refine ⟨?_, ?_, ?_, ?_, ?_, ?_, ?_⟩
  · show (W.calls ++ _).length = (σ.acts ++ _).length
    simp [s.ncalls]
  · intro i a ha
    rcases eval_get.mp ha with h | ⟨h, rfl⟩
    · refine (append_get _ _ _ _).mpr (.inl ?_)
      rw [s.calls i a h, map_cache_congr (σ := σ) fun q hq => g.envOf (w.in_cache h hq)]
    · refine (append_get _ _ _ _).mpr (.inr ⟨by rw [h, s.ncalls], ?_⟩)
      rw [s.next]; rfl
  · intro i a ha hl
    have h := live_eval ha hl
    refine enter_envs _ _ _ _ _ ?_
    rw [s.live i a h hl, g.absBlk (getElem?_lt h) (w.in_blk h hl),
      map_envOf_congr (σ := σ) fun q hq => g.envOf (w.in_outer h hl hq)]
  · intro h f hf
    rcases eval_heap.mp hf with h1 | ⟨h1, rfl⟩
    · refine enter_envs _ _ _ _ _ ?_
      rw [s.heap h f h1, map_envOf_congr (σ := σ) fun q hq => g.envOf (w.in_houter h1 hq),
        g.absBlk w.ne (w.in_hblk h1)]
    · refine (append_get _ _ _ _).mpr (.inr ⟨s.next.symm, ?_⟩)
      show (⟨_, _, _⟩ : Env) = ⟨_, some (envOf _ (.heap k)), none⟩
      rw [g.envOf (show In σ (.heap k) from ⟨q, hq⟩)]
      rfl
  · show (W.envs ++ _).length = σ.next + 1
    simp [s.next]
  · show W.hand = _
    rw [s.hand]
    exact (map_hand_congr fun fid r hr => g.envOf (w.in_hand hr)).symm
  · show W.binds = _
    rw [s.binds]
    exact (map_binds_congr fun r hr => g.envOf (w.in_binds hr)).symm

/-! ## Return -/

/-- The machine after the running frame has ended. -/
def St.pop (σ : St) : St := { σ with acts := σ.acts.dropLast }

theorem pop_get {σ : St} {i : Nat} {a : Act} :
    σ.pop.acts[i]? = some a ↔ σ.acts[i]? = some a ∧ i < σ.acts.length - 1 := by
  show σ.acts.dropLast[i]? = some a ↔ _
  rw [List.dropLast_eq_take, List.getElem?_take]
  split
  · next h => exact ⟨fun e => ⟨e, h⟩, fun e => e.1⟩
  · next h => exact ⟨fun e => (by cases e), fun e => absurd e.2 h⟩

theorem Edge.pop {σ : St} {k t : Nat} (e : Edge σ.pop k t) : Edge σ k t := by
  cases e with
  | outer h hl ho => exact .outer (pop_get.mp h).1 hl ho
  | blk h hl hb => exact .blk (pop_get.mp h).1 hl hb
  | cache h hc => exact .cache (pop_get.mp h).1 hc

theorem WF.pop {σ : St} (w : WF σ) (hlen : 1 < σ.acts.length) : WF σ.pop where
  ne := by
    show 0 < σ.acts.dropLast.length
    simp; omega
  act := fun i a ha => w.act i a (pop_get.mp ha).1
  envA := fun i a ha => w.envA i a (pop_get.mp ha).1
  envH := w.envH
  inc := fun i j a b hij ha hb => w.inc i j a b hij (pop_get.mp ha).1 (pop_get.mp hb).1
  hinj := w.hinj
  disj := fun i a h f ha hl hf => w.disj i a h f (pop_get.mp ha).1 hl hf
  louter := by
    intro i a o ha hl ho
    obtain ⟨h, hi⟩ := pop_get.mp ha
    obtain ⟨b, hb, hlb⟩ := w.louter i a o h hl ho
    have := w.edge i o (.outer h hl ho)
    exact ⟨b, pop_get.mpr ⟨hb, by omega⟩, hlb⟩
  louterh := fun i a h ha hl ho => w.louterh i a h (pop_get.mp ha).1 hl ho
  lblk := fun i a v ha hl hb => w.lblk i a v (pop_get.mp ha).1 hl hb
  lclo := fun i a fid r ha hl hb => w.lclo i a fid r (pop_get.mp ha).1 hl hb
  edge := fun k t e => w.edge k t e.pop
  zown := fun i a o ha hl ho => w.zown i a o (pop_get.mp ha).1 hl ho
  zone := fun i a o ha hl ho k t hik e => w.zone i a o (pop_get.mp ha).1 hl ho k t hik e.pop
  cacheh := fun k a fid h ha hc => w.cacheh k a fid h (pop_get.mp ha).1 hc
  houter := w.houter
  hblk := w.hblk
  hclo := w.hclo
  hand := w.hand
  binds := w.binds

theorem grow_pop (σ : St) : Grow σ.pop σ where
  act := fun i hi => by
    obtain ⟨a, ha⟩ := exists_getElem? hi
    rw [actEnv_eq ha, actEnv_eq (pop_get.mp ha).1]
  heap := fun h f hf => ⟨f, hf, rfl⟩

theorem Sim.pop {σ : St} {W : World} (w : WF σ) (s : Sim σ W) (hlen : 1 < σ.acts.length) :
    Sim σ.pop { W with calls := W.calls.dropLast } := by
  have g := grow_pop σ
  have w' := w.pop hlen
  refine ⟨?_, ?_, ?_, ?_, s.next, ?_, ?_⟩
  · show W.calls.dropLast.length = σ.acts.dropLast.length
    simp [s.ncalls]
  · intro i a ha
    obtain ⟨h, hi⟩ := pop_get.mp ha
    show W.calls.dropLast[i]? = _
    rw [List.dropLast_eq_take, List.getElem?_take, if_pos (by rw [s.ncalls]; exact hi),
      s.calls i a h, map_cache_congr (σ := σ.pop) fun q hq => g.envOf (w'.in_cache ha hq)]
  · intro i a ha hl
    obtain ⟨h, hi⟩ := pop_get.mp ha
    show W.envs[_]? = _
    rw [s.live i a h hl, g.absBlk (getElem?_lt ha) (w'.in_blk ha hl),
      map_envOf_congr (σ := σ.pop) fun q hq => g.envOf (w'.in_outer ha hl hq)]
  · intro h f hf
    show W.envs[_]? = _
    have hf' : σ.pop.heap[h]? = some f := hf
    rw [s.heap h f hf, map_envOf_congr (σ := σ.pop) fun q hq => g.envOf (w'.in_houter hf' hq),
      g.absBlk w'.ne (w'.in_hblk hf')]
  · show W.hand = _
    rw [s.hand]
    exact map_hand_congr fun fid r hr => g.envOf (w'.in_hand hr)
  · show W.binds = _
    rw [s.binds]
    exact map_binds_congr fun r hr => g.envOf (w'.in_binds hr)

/-! ## Keeping `Proc`s and `Binding`s -/

theorem WF.give {σ : St} (w : WF σ) {fid h : Nat} {f : Frame} (hf : σ.heap[h]? = some f) :
    WF (σ.give (fid, .heap h)) :=
  { w with
    hand := by
      intro fid' r hr
      rcases List.mem_append.mp hr with h1 | h1
      · exact w.hand fid' r h1
      · rw [List.mem_singleton] at h1; cases h1
        exact ⟨h, f, rfl, hf⟩
    edge := fun k t e => w.edge k t (by cases e with
      | outer h hl ho => exact .outer h hl ho
      | blk h hl hb => exact .blk h hl hb
      | cache h hc => exact .cache h hc)
    zone := fun i a o ha hl ho k t hik e => w.zone i a o ha hl ho k t hik (by cases e with
      | outer h hl ho => exact .outer h hl ho
      | blk h hl hb => exact .blk h hl hb
      | cache h hc => exact .cache h hc) }

theorem Sim.give {σ : St} {W : World} (s : Sim σ W) (p : Nat × Ref) :
    Sim (σ.give p) (W.give (p.1, envOf σ p.2)) where
  ncalls := s.ncalls
  calls := s.calls
  live := s.live
  heap := s.heap
  next := s.next
  hand := by
    show W.hand ++ _ = (σ.hand ++ [p]).map _
    rw [s.hand, List.map_append]; rfl
  binds := s.binds

/-- The machine after `binding`. -/
def St.bind (σ : St) (r : Ref) : St := { σ with binds := σ.binds ++ [r] }

theorem WF.bind {σ : St} (w : WF σ) {h : Nat} {f : Frame} (hf : σ.heap[h]? = some f) :
    WF (σ.bind (.heap h)) :=
  { w with
    binds := by
      intro r hr
      rcases List.mem_append.mp hr with h1 | h1
      · exact w.binds r h1
      · rw [List.mem_singleton] at h1; cases h1
        exact ⟨h, f, rfl, hf⟩
    edge := fun k t e => w.edge k t (by cases e with
      | outer h hl ho => exact .outer h hl ho
      | blk h hl hb => exact .blk h hl hb
      | cache h hc => exact .cache h hc)
    zone := fun i a o ha hl ho k t hik e => w.zone i a o ha hl ho k t hik (by cases e with
      | outer h hl ho => exact .outer h hl ho
      | blk h hl hb => exact .blk h hl hb
      | cache h hc => exact .cache h hc) }

theorem Sim.bind {σ : St} {W : World} (s : Sim σ W) (r : Ref) :
    Sim (σ.bind r) { W with binds := W.binds ++ [envOf σ r] } where
  ncalls := s.ncalls
  calls := s.calls
  live := s.live
  heap := s.heap
  next := s.next
  hand := s.hand
  binds := by
    show W.binds ++ _ = (σ.binds ++ [r]).map _
    rw [s.binds, List.map_append]; rfl

/-! ## Looking up the block before iterating -/

theorem cache_get {σ : St} {p : Nat × Ref} {i : Nat} {a : Act} :
    (σ.setCache p).acts[i]? = some a ↔
      (i ≠ σ.acts.length - 1 ∧ σ.acts[i]? = some a) ∨
      (i = σ.acts.length - 1 ∧ ∃ b, σ.acts[i]? = some b ∧ a = { b with cache := some p }) := by
  show (List.modify σ.acts _ _)[i]? = some a ↔ _
  rw [modify_get]
  split
  · next h =>
    constructor
    · intro e
      obtain ⟨b, hb, rfl⟩ := Option.map_eq_some_iff.mp e
      exact .inr ⟨h.symm, b, hb, rfl⟩
    · rintro (⟨h1, _⟩ | ⟨_, b, hb, rfl⟩)
      · exact absurd h.symm h1
      · rw [hb]; rfl
  · next h =>
    constructor
    · intro e; exact .inl ⟨fun e' => h e'.symm, e⟩
    · rintro (⟨_, h2⟩ | ⟨h1, _⟩)
      · exact h2
      · exact absurd h1.symm h

/-- What `setCache` keeps of a control frame. -/
theorem cache_act {σ : St} {p : Nat × Ref} {i : Nat} {a : Act}
    (h : (σ.setCache p).acts[i]? = some a) : ∃ b, σ.acts[i]? = some b ∧ a.lfp = b.lfp ∧
      a.cell = b.cell ∧ (Live a i → Live b i) ∧
      (a.cache = b.cache ∨ (i = σ.acts.length - 1 ∧ a.cache = some p)) := by
  rcases cache_get.mp h with ⟨_, h1⟩ | ⟨h1, b, hb, rfl⟩
  · exact ⟨a, h1, rfl, rfl, id, .inl rfl⟩
  · exact ⟨b, hb, rfl, rfl, id, .inr ⟨h1, rfl⟩⟩

theorem cache_act' {σ : St} {p : Nat × Ref} {i : Nat} {b : Act}
    (h : σ.acts[i]? = some b) : ∃ a, (σ.setCache p).acts[i]? = some a ∧ (Live b i → Live a i) := by
  rcases Decidable.em (i = σ.acts.length - 1) with e | e
  · exact ⟨{ b with cache := some p }, cache_get.mpr (.inr ⟨e, b, h, rfl⟩), id⟩
  · exact ⟨b, cache_get.mpr (.inl ⟨e, h⟩), id⟩

theorem Edge.setCache {σ : St} {p : Nat × Ref} {k t : Nat} (e : Edge (σ.setCache p) k t) :
    Edge σ k t ∨ (k = σ.acts.length - 1 ∧ p.2 = .stk t) := by
  cases e with
  | outer h hl ho =>
    obtain ⟨b, hb, _, hc, hlb, _⟩ := cache_act h
    exact .inl (.outer hb (hlb hl) (hc ▸ ho))
  | blk h hl hb' =>
    obtain ⟨b, hb, _, hc, hlb, _⟩ := cache_act h
    exact .inl (.blk hb (hlb hl) (hc ▸ hb'))
  | cache h hc =>
    obtain ⟨b, hb, _, _, _, e | ⟨e1, e2⟩⟩ := cache_act h
    · exact .inl (.cache hb (e ▸ hc))
    · rw [hc] at e2; cases e2
      exact .inr ⟨e1, rfl⟩

/-- What may be looked up. -/
structure FitCache (σ : St) (r : Ref) : Prop where
  stk : ∀ t, r = .stk t → t < σ.acts.length - 1 ∧ Open σ t ∧
    ∀ a o, σ.acts[σ.acts.length - 1]? = some a → Live a (σ.acts.length - 1) →
      a.cell.outer ≠ some (.stk o)
  heap : ∀ h, r = .heap h → ∃ f, σ.heap[h]? = some f

theorem WF.setCache {σ : St} (w : WF σ) {fid : Nat} {r : Ref} (fit : FitCache σ r) :
    WF (σ.setCache (fid, r)) where
  ne := by
    show 0 < (List.modify σ.acts _ _).length
    rw [List.length_modify]; exact w.ne
  act := by
    intro i a ha
    obtain ⟨b, hb, e1, e2, _⟩ := cache_act ha
    rcases w.act i b hb with hl | ⟨x, f, h1, h2, h3, h4⟩
    · exact .inl ⟨e1.trans hl.1, by rw [e2]; exact hl.2⟩
    · exact .inr ⟨x, f, e1.trans h1, by rw [e2]; exact h2, h3, by rw [e2]; exact h4⟩
  envA := by
    intro i a ha
    obtain ⟨b, hb, _, e, _⟩ := cache_act ha
    rw [e]; exact w.envA i b hb
  envH := w.envH
  inc := by
    intro i j a b hij ha hb
    obtain ⟨a', ha', _, ea, _⟩ := cache_act ha
    obtain ⟨b', hb', _, eb, _⟩ := cache_act hb
    rw [ea, eb]; exact w.inc i j a' b' hij ha' hb'
  hinj := w.hinj
  disj := by
    intro i a h f ha hl hf
    obtain ⟨b, hb, _, e, hlb, _⟩ := cache_act ha
    rw [e]; exact w.disj i b h f hb (hlb hl) hf
  louter := by
    intro i a o ha hl ho
    obtain ⟨b, hb, _, e, hlb, _⟩ := cache_act ha
    obtain ⟨c, hc, hlc⟩ := w.louter i b o hb (hlb hl) (e ▸ ho)
    obtain ⟨c', hc', hlc'⟩ := cache_act' (p := (fid, r)) hc
    exact ⟨c', hc', hlc' hlc⟩
  louterh := by
    intro i a h ha hl ho
    obtain ⟨b, hb, _, e, hlb, _⟩ := cache_act ha
    rw [e]; exact w.louterh i b h hb (hlb hl) (e ▸ ho)
  lblk := by
    intro i a v ha hl hv
    obtain ⟨b, hb, _, e, hlb, _⟩ := cache_act ha
    exact w.lblk i b v hb (hlb hl) (e ▸ hv)
  lclo := by
    intro i a fid r ha hl hv
    obtain ⟨b, hb, _, e, hlb, _⟩ := cache_act ha
    exact w.lclo i b fid r hb (hlb hl) (e ▸ hv)
  edge := by
    intro k t e
    rcases e.setCache with h | ⟨h1, h2⟩
    · exact w.edge k t h
    · have := (fit.stk t h2).1; omega
  zown := by
    intro i a o ha hl ho
    obtain ⟨b, hb, _, e, hlb, hc⟩ := cache_act ha
    obtain ⟨z1, z2⟩ := w.zown i b o hb (hlb hl) (e ▸ ho)
    refine ⟨fun v => by rw [e]; exact z1 v, ?_⟩
    intro fid' t hcc
    rcases hc with hc | ⟨h1, hc⟩
    · exact z2 fid' t (hc ▸ hcc)
    · rw [hcc] at hc; cases hc
      subst h1
      exact (fit.stk t rfl).2.2 b o hb (hlb hl) (e ▸ ho)
  zone := by
    intro i a o ha hl ho k t hik e
    obtain ⟨b, hb, _, eb, hlb, _⟩ := cache_act ha
    rcases e.setCache with h | ⟨h1, h2⟩
    · exact w.zone i b o hb (hlb hl) (eb ▸ ho) k t hik h
    · exact (fit.stk t h2).2.1 i b o hb (hlb hl) (eb ▸ ho)
  cacheh := by
    intro k a fid' h ha hc
    obtain ⟨b, hb, _, _, _, e | ⟨_, e⟩⟩ := cache_act ha
    · exact w.cacheh k b fid' h hb (e ▸ hc)
    · rw [hc] at e; cases e
      exact fit.heap h rfl
  houter := w.houter
  hblk := w.hblk
  hclo := w.hclo
  hand := w.hand
  binds := w.binds

theorem cache_envOf (σ : St) (p : Nat × Ref) : envOf (σ.setCache p) = envOf σ := by
  funext r
  cases r with
  | stk i =>
    show actEnv _ i = actEnv σ i
    unfold actEnv
    cases h : σ.acts[i]? with
    | none =>
      have : (σ.setCache p).acts[i]? = none := by
        rw [List.getElem?_eq_none_iff]
        show (List.modify σ.acts _ _).length ≤ i
        rw [List.length_modify]; exact List.getElem?_eq_none_iff.mp h
      rw [this]
    | some b =>
      obtain ⟨a, ha, _⟩ := cache_act' (p := p) h
      obtain ⟨b', hb', _, e, _⟩ := cache_act ha
      rw [h] at hb'; cases hb'
      rw [ha]; simp [e]
  | heap h => rfl

theorem cache_absBlk (σ : St) (p : Nat × Ref) : absBlk (σ.setCache p) = absBlk σ := by
  funext i b
  cases b with
  | none => rfl
  | word v =>
    have := congrFun (cache_envOf σ p) (.stk (i - v % 65536))
    simp only [envOf] at this
    simp only [absBlk, this]
  | clo fid r => simp only [absBlk, cache_envOf]

theorem Sim.setCache {σ : St} {W : World} (s : Sim σ W) (p : Nat × Ref) :
    Sim (σ.setCache p) (W.iterate (p.1, envOf σ p.2)) := by
  refine ⟨?_, ?_, ?_, ?_, s.next, ?_, ?_⟩
  · show (List.modify W.calls _ _).length = (List.modify σ.acts _ _).length
    rw [List.length_modify, List.length_modify, s.ncalls]
  · intro i a ha
    show (List.modify W.calls _ _)[i]? = _
    rw [modify_get, cache_envOf]
    rcases cache_get.mp ha with ⟨h1, h2⟩ | ⟨h1, b, hb, rfl⟩
    · rw [if_neg (by rw [s.ncalls]; exact fun e => h1 e.symm), s.calls i a h2]
    · rw [if_pos (by rw [s.ncalls]; exact h1.symm), s.calls i b hb]; rfl
  · intro i a ha hl
    obtain ⟨b, hb, _, e, hlb, _⟩ := cache_act ha
    rw [cache_envOf, cache_absBlk, e]
    exact s.live i b hb (hlb hl)
  · intro h f hf
    rw [cache_envOf, cache_absBlk]
    exact s.heap h f hf
  · rw [cache_envOf]; exact s.hand
  · rw [cache_envOf]; exact s.binds

end Verif.Closure
