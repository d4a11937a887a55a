import Verif.Closure.Prim

/-!
# Assigning a variable
-/

namespace Verif.Closure

/-- The variables after an assignment. -/
def upd (s : Nat → Nat) (i x : Nat) : Nat → Nat := fun j => if j = i then x else s j

/-- `σ'` differs from `σ` in the variables of one frame only. -/
structure Same (σ σ' : St) : Prop where
  len : σ'.acts.length = σ.acts.length
  act : ∀ (i : Nat) (a' : Act), σ'.acts[i]? = some a' → ∃ a s, σ.acts[i]? = some a ∧
    a' = { a with cell := { a.cell with slots := s } }
  heap : ∀ (h : Nat) (f' : Frame), σ'.heap[h]? = some f' → ∃ f s, σ.heap[h]? = some f ∧
    f' = { f with slots := s }
  hlen : σ'.heap.length = σ.heap.length
  hand : σ'.hand = σ.hand
  binds : σ'.binds = σ.binds
  next : σ'.next = σ.next

theorem Same.live {a : Act} {s : Nat → Nat} {i : Nat}
    (h : Live { a with cell := { a.cell with slots := s } } i) : Live a i := h

theorem Same.actsome {σ σ' : St} (q : Same σ σ') {i : Nat} {a : Act} (h : σ.acts[i]? = some a) :
    ∃ s, σ'.acts[i]? = some { a with cell := { a.cell with slots := s } } := by
  obtain ⟨a', ha'⟩ := exists_getElem? (show i < σ'.acts.length by
    rw [q.len]; exact getElem?_lt h)
  obtain ⟨b, s, hb, rfl⟩ := q.act i a' ha'
  rw [h] at hb; cases hb
  exact ⟨s, ha'⟩

theorem Same.heapsome {σ σ' : St} (q : Same σ σ') {i : Nat} {f : Frame}
    (h : σ.heap[i]? = some f) : ∃ s, σ'.heap[i]? = some { f with slots := s } := by
  obtain ⟨f', hf'⟩ := exists_getElem? (show i < σ'.heap.length by
    rw [q.hlen]; exact getElem?_lt h)
  obtain ⟨b, s, hb, rfl⟩ := q.heap i f' hf'
  rw [h] at hb; cases hb
  exact ⟨s, hf'⟩

theorem Same.edge {σ σ' : St} (q : Same σ σ') {k t : Nat} (e : Edge σ' k t) : Edge σ k t := by
  cases e with
  | outer h hl ho =>
    obtain ⟨a, s, ha, rfl⟩ := q.act _ _ h
    exact .outer ha (Same.live hl) ho
  | blk h hl hb =>
    obtain ⟨a, s, ha, rfl⟩ := q.act _ _ h
    exact .blk ha (Same.live hl) hb
  | cache h hc =>
    obtain ⟨a, s, ha, rfl⟩ := q.act _ _ h
    exact .cache ha hc

theorem Same.wf {σ σ' : St} (q : Same σ σ') (w : WF σ) : WF σ' where
  ne := by rw [q.len]; exact w.ne
  act := by
    intro i a' ha'
    obtain ⟨a, s, ha, rfl⟩ := q.act i a' ha'
    rcases w.act i a ha with hl | ⟨h, f, e1, e2, e3, e4⟩
    · exact .inl hl
    · obtain ⟨s', hf'⟩ := q.heapsome e3
      exact .inr ⟨h, _, e1, e2, hf', e4⟩
  envA := by
    intro i a' ha'
    obtain ⟨a, s, ha, rfl⟩ := q.act i a' ha'
    rw [q.next]; exact w.envA i a ha
  envH := by
    intro h f' hf'
    obtain ⟨f, s, hf, rfl⟩ := q.heap h f' hf'
    rw [q.next]; exact w.envH h f hf
  inc := by
    intro i j a' b' hij ha' hb'
    obtain ⟨a, s, ha, rfl⟩ := q.act i a' ha'
    obtain ⟨b, s', hb, rfl⟩ := q.act j b' hb'
    exact w.inc i j a b hij ha hb
  hinj := by
    intro h h' f' g' hf' hg' e
    obtain ⟨f, s, hf, rfl⟩ := q.heap h f' hf'
    obtain ⟨g, s', hg, rfl⟩ := q.heap h' g' hg'
    exact w.hinj h h' f g hf hg e
  disj := by
    intro i a' h f' ha' hl hf'
    obtain ⟨a, s, ha, rfl⟩ := q.act i a' ha'
    obtain ⟨f, s', hf, rfl⟩ := q.heap h f' hf'
    exact w.disj i a h f ha hl hf
  louter := by
    intro i a' o ha' hl ho
    obtain ⟨a, s, ha, rfl⟩ := q.act i a' ha'
    obtain ⟨b, hb, hlb⟩ := w.louter i a o ha hl ho
    obtain ⟨s', hb'⟩ := q.actsome hb
    exact ⟨_, hb', hlb⟩
  louterh := by
    intro i a' h ha' hl ho
    obtain ⟨a, s, ha, rfl⟩ := q.act i a' ha'
    obtain ⟨f, hf, hlt⟩ := w.louterh i a h ha hl ho
    obtain ⟨s', hf'⟩ := q.heapsome hf
    exact ⟨_, hf', hlt⟩
  lblk := by
    intro i a' v ha' hl hb
    obtain ⟨a, s, ha, rfl⟩ := q.act i a' ha'
    exact w.lblk i a v ha hl hb
  lclo := by
    intro i a' fid r ha' hl hb
    obtain ⟨a, s, ha, rfl⟩ := q.act i a' ha'
    obtain ⟨h, f, e, hf⟩ := w.lclo i a fid r ha hl hb
    obtain ⟨s', hf'⟩ := q.heapsome hf
    exact ⟨h, _, e, hf'⟩
  edge := fun k t e => w.edge k t (q.edge e)
  zown := by
    intro i a' o ha' hl ho
    obtain ⟨a, s, ha, rfl⟩ := q.act i a' ha'
    exact w.zown i a o ha hl ho
  zone := by
    intro i a' o ha' hl ho k t hik e
    obtain ⟨a, s, ha, rfl⟩ := q.act i a' ha'
    exact w.zone i a o ha hl ho k t hik (q.edge e)
  cacheh := by
    intro k a' fid h ha' hc
    obtain ⟨a, s, ha, rfl⟩ := q.act k a' ha'
    obtain ⟨f, hf⟩ := w.cacheh k a fid h ha hc
    obtain ⟨s', hf'⟩ := q.heapsome hf
    exact ⟨_, hf'⟩
  houter := by
    intro h f' r hf' ho
    obtain ⟨f, s, hf, rfl⟩ := q.heap h f' hf'
    obtain ⟨h', g, e, hg, hlt⟩ := w.houter h f r hf ho
    obtain ⟨s', hg'⟩ := q.heapsome hg
    exact ⟨h', _, e, hg', hlt⟩
  hblk := by
    intro h f' v hf'
    obtain ⟨f, s, hf, rfl⟩ := q.heap h f' hf'
    exact w.hblk h f v hf
  hclo := by
    intro h f' fid r hf' hb
    obtain ⟨f, s, hf, rfl⟩ := q.heap h f' hf'
    obtain ⟨h', g, e, hg⟩ := w.hclo h f fid r hf hb
    obtain ⟨s', hg'⟩ := q.heapsome hg
    exact ⟨h', _, e, hg'⟩
  hand := by
    intro fid r hr
    rw [q.hand] at hr
    obtain ⟨h', g, e, hg⟩ := w.hand fid r hr
    obtain ⟨s', hg'⟩ := q.heapsome hg
    exact ⟨h', _, e, hg'⟩
  binds := by
    intro r hr
    rw [q.binds] at hr
    obtain ⟨h', g, e, hg⟩ := w.binds r hr
    obtain ⟨s', hg'⟩ := q.heapsome hg
    exact ⟨h', _, e, hg'⟩

theorem Same.envOf {σ σ' : St} (q : Same σ σ') : envOf σ' = Verif.Closure.envOf σ := by
  funext r
  cases r with
  | stk i =>
    show actEnv σ' i = actEnv σ i
    cases h : σ.acts[i]? with
    | none =>
      have : σ'.acts[i]? = none := by
        rw [List.getElem?_eq_none_iff, q.len]; exact List.getElem?_eq_none_iff.mp h
      simp [actEnv, h, this]
    | some a =>
      obtain ⟨s, hs⟩ := q.actsome h
      rw [actEnv_eq h, actEnv_eq hs]
  | heap i =>
    cases h : σ.heap[i]? with
    | none =>
      have : σ'.heap[i]? = none := by
        rw [List.getElem?_eq_none_iff, q.hlen]; exact List.getElem?_eq_none_iff.mp h
      simp [Verif.Closure.envOf, h, this]
    | some a =>
      obtain ⟨s, hs⟩ := q.heapsome h
      rw [envOf_heap h, envOf_heap hs]

theorem Same.absBlk {σ σ' : St} (q : Same σ σ') : absBlk σ' = Verif.Closure.absBlk σ := by
  funext i b
  cases b with
  | none => rfl
  | word v =>
    have := congrFun q.envOf (.stk (i - v % 65536))
    simp only [Verif.Closure.envOf] at this
    simp only [Verif.Closure.absBlk, this]
  | clo fid r => simp only [Verif.Closure.absBlk, q.envOf]

theorem assign_envs {W : World} {q i x : Nat} {v : Env} (j : Nat) (hv : W.envs[j]? = some v) :
    (W.assign q i x).envs[j]? =
      some (if q = j then { v with slots := upd v.slots i x } else v) := by
  show (List.modify W.envs _ _)[j]? = _
  rw [modify_get, hv]
  split <;> rfl

/-- What an assignment through pointer `r` does to the frames. -/
structure Wrote (σ σ' : St) (r : Ref) (i x : Nat) : Prop where
  same : Same σ σ'
  act : ∀ (k : Nat) (a : Act), σ.acts[k]? = some a → σ'.acts[k]? =
    some (if r = .stk k then { a with cell := { a.cell with slots := upd a.cell.slots i x } } else a)
  heap : ∀ (k : Nat) (f : Frame), σ.heap[k]? = some f → σ'.heap[k]? =
    some (if r = .heap k then { f with slots := upd f.slots i x } else f)

theorem wrote {σ : St} {r : Ref} (ok : Ok σ r) (i x : Nat) : Wrote σ (σ.write r i x) r i x := by
  cases r with
  | stk j =>
    obtain ⟨a, ha, hl⟩ := ok
    have hw : σ.write (.stk j) i x =
        { σ with acts := σ.acts.modify j (fun b =>
          { b with cell := { a.cell with slots := upd a.cell.slots i x } }) } := by
      simp only [St.write, St.frame, ha, Option.map_some, St.setFrame]
      rfl
    have hact : ∀ (k : Nat) (b : Act), σ.acts[k]? = some b → (σ.write (.stk j) i x).acts[k]? =
        some (if Ref.stk j = .stk k then
          { b with cell := { b.cell with slots := upd b.cell.slots i x } } else b) := by
      intro k b hb
      rw [hw]
      show (List.modify σ.acts _ _)[k]? = _
      rw [modify_get, hb]
      by_cases e : j = k
      · subst e
        rw [ha] at hb; cases hb
        simp
      · have : ¬ (Ref.stk j = .stk k) := fun h => e (by cases h; rfl)
        rw [if_neg e, if_neg this]
    refine ⟨⟨?_, ?_, ?_, ?_, ?_, ?_, ?_⟩, hact, ?_⟩
    · rw [hw]; exact List.length_modify ..
    · intro k b' hb'
      have hlt : k < σ.acts.length := by
        have := getElem?_lt hb'
        rw [hw] at this
        simpa using this
      obtain ⟨b, hb⟩ := exists_getElem? hlt
      rw [hact k b hb] at hb'
      cases hb'
      split
      · exact ⟨b, _, hb, rfl⟩
      · exact ⟨b, b.cell.slots, hb, rfl⟩
    · intro h f hf; rw [hw] at hf; exact ⟨f, f.slots, hf, rfl⟩
    · rw [hw]
    · rw [hw]
    · rw [hw]
    · rw [hw]
    · intro k f hf
      rw [hw, if_neg (by intro h; cases h)]
      exact hf
  | heap h =>
    obtain ⟨g, hg⟩ := ok
    have hw : σ.write (.heap h) i x =
        { σ with heap := σ.heap.set h { g with slots := upd g.slots i x } } := by
      simp only [St.write, St.frame, hg, St.setFrame]
      rfl
    have hheap : ∀ (k : Nat) (f : Frame), σ.heap[k]? = some f → (σ.write (.heap h) i x).heap[k]? =
        some (if Ref.heap h = .heap k then { f with slots := upd f.slots i x } else f) := by
      intro k f hf
      rw [hw]
      show (σ.heap.set h _)[k]? = _
      rw [List.getElem?_set]
      by_cases e : h = k
      · subst e
        rw [hg] at hf; cases hf
        simp [getElem?_lt hg]
      · have : ¬ (Ref.heap h = .heap k) := fun h => e (by cases h; rfl)
        rw [if_neg e, if_neg this]; exact hf
    refine ⟨⟨?_, ?_, ?_, ?_, ?_, ?_, ?_⟩, ?_, hheap⟩
    · rw [hw]
    · intro k a ha; rw [hw] at ha; exact ⟨a, a.cell.slots, ha, rfl⟩
    · intro k b' hb'
      have hlt : k < σ.heap.length := by
        have := getElem?_lt hb'
        rw [hw] at this
        simpa using this
      obtain ⟨b, hb⟩ := exists_getElem? hlt
      rw [hheap k b hb] at hb'
      cases hb'
      split
      · exact ⟨b, _, hb, rfl⟩
      · exact ⟨b, b.slots, hb, rfl⟩
    · rw [hw]; exact List.length_set ..
    · rw [hw]
    · rw [hw]
    · rw [hw]
    · intro k a ha
      rw [hw, if_neg (by intro h; cases h)]
      exact ha

theorem Sim.write {σ : St} {W : World} (w : WF σ) (s : Sim σ W) {r : Ref} (ok : Ok σ r)
    (i x : Nat) : Sim (σ.write r i x) (W.assign (envOf σ r) i x) := by
  have q := wrote ok i x
  refine ⟨?_, ?_, ?_, ?_, ?_, ?_, ?_⟩
  · rw [q.same.len]; exact s.ncalls
  · intro k a' ha'
    obtain ⟨a, sl, ha, rfl⟩ := q.same.act k a' ha'
    rw [q.same.envOf]
    exact s.calls k a ha
  · intro k a' ha' hl
    obtain ⟨a, sl, ha, e⟩ := q.same.act k a' ha'
    have hla : Live a k := by rw [e] at hl; exact hl
    have h1 := q.act k a ha
    rw [ha'] at h1
    have h1 := Option.some.inj h1
    rw [q.same.envOf, q.same.absBlk]
    have hs := s.live k a ha hla
    have he : envOf σ (.stk k) = a.cell.env := actEnv_eq ha
    have henv : a'.cell.env = a.cell.env := by rw [e]
    rw [henv, assign_envs _ hs, h1]
    by_cases e' : r = .stk k
    · rw [if_pos e', if_pos (by rw [e', he])]
    · have : ¬ (envOf σ r = a.cell.env) := by
        intro e2
        exact e' (w.ok_inj ok (show Ok σ (.stk k) from ⟨a, ha, hla⟩) (e2.trans he.symm))
      rw [if_neg e', if_neg this]
  · intro k f' hf'
    obtain ⟨f, sl, hf, e⟩ := q.same.heap k f' hf'
    have h1 := q.heap k f hf
    rw [hf'] at h1
    have h1 := Option.some.inj h1
    rw [q.same.envOf, q.same.absBlk]
    have hs := s.heap k f hf
    have he : envOf σ (.heap k) = f.env := envOf_heap hf
    have henv : f'.env = f.env := by rw [e]
    rw [henv, assign_envs _ hs, h1]
    by_cases e' : r = .heap k
    · rw [if_pos e', if_pos (by rw [e', he])]
    · have : ¬ (envOf σ r = f.env) := by
        intro e2
        exact e' (w.ok_inj ok (show Ok σ (.heap k) from ⟨f, hf⟩) (e2.trans he.symm))
      rw [if_neg e', if_neg this]
  · rw [q.same.next]
    show (List.modify W.envs _ _).length = _
    rw [List.length_modify]; exact s.next
  · rw [q.same.envOf, q.same.hand]; exact s.hand
  · rw [q.same.envOf, q.same.binds]; exact s.binds

end Verif.Closure
