import Verif.Closure.Inv

/-!
# `move_frame_to_heap`, `materialize_escaped_block_handlers` and `generate_proc_inner` keep `PW`
-/

namespace Verif.Closure

/-- Heap frame `x` is on the outer chain of heap frame `h`. -/
inductive HChain (σ : St) : Nat → Nat → Prop where
  | refl (h) : HChain σ h h
  | step {h h1 x : Nat} {f : Frame} : σ.heap[h]? = some f → f.outer = some (.heap h1) →
      HChain σ h1 x → HChain σ h x

theorem HChain.mono {σ σ' : St} (hm : ∀ (h : Nat) (f : Frame) (h1 : Nat), σ.heap[h]? = some f →
    f.outer = some (.heap h1) → ∃ f', σ'.heap[h]? = some f' ∧ f'.outer = some (.heap h1))
    {h x : Nat} (c : HChain σ h x) : HChain σ' h x := by
  induction c with
  | refl h => exact .refl h
  | step hf ho _ ih =>
    obtain ⟨f', hf', ho'⟩ := hm _ _ _ hf ho
    exact .step hf' ho' ih

theorem HChain.ext {σ σ' : St} (x : Ext σ σ') {h y : Nat} (c : HChain σ h y) : HChain σ' h y :=
  c.mono (fun h f h1 hf ho => by
    obtain ⟨f', hf', _, ho'⟩ := x.heap h f hf
    exact ⟨f', hf', by rw [ho', ho]⟩)

/-- No heap frame points into the stack. -/
def NoStk (σ : St) : Prop :=
  ∀ (h : Nat) (f : Frame) (t : Nat), σ.heap[h]? = some f → f.outer ≠ some (.stk t)

theorem WF.noStk {σ : St} (w : WF σ) : NoStk σ := by
  intro h f t hf ho
  obtain ⟨_, _, e, _⟩ := w.houter h f _ hf ho
  cases e

/-- `i` is shielded by no running block frame. -/
def Open (σ : St) (t : Nat) : Prop :=
  ∀ (i : Nat) (a : Act) (o : Nat), σ.acts[i]? = some a → Live a i →
    a.cell.outer = some (.stk o) → Good t i o

theorem actEnv_eq {σ : St} {i : Nat} {a : Act} (h : σ.acts[i]? = some a) :
    actEnv σ i = a.cell.env := by
  simp [actEnv, h]

theorem envOf_heap {σ : St} {h : Nat} {f : Frame} (hf : σ.heap[h]? = some f) :
    envOf σ (.heap h) = f.env := by
  simp [envOf, hf]

theorem move_heap (n : Nat) (σ : St) (h : Nat) : σ.move n (.heap h) = (σ, .heap h) := by
  cases n <;> rfl

/-- What moving a frame gives. -/
structure Moved (σ₀ σ : St) (i : Nat) (m : St × Ref) : Prop where
  pw : PW σ₀ m.1
  ref : ∃ (h : Nat) (f : Frame), m.2 = .heap h ∧ m.1.heap[h]? = some f ∧ f.env = actEnv σ₀ i ∧
    ∀ x, σ.heap.length ≤ x → x < m.1.heap.length → HChain m.1 h x
  old : ∀ (h : Nat) (f : Frame), σ.heap[h]? = some f → m.1.heap[h]? = some f
  nostk : ∀ (h : Nat) (f : Frame) (t : Nat), σ.heap.length ≤ h → m.1.heap[h]? = some f →
    f.outer ≠ some (.stk t)
  live : ∀ (k : Nat) (a : Act), m.1.acts[k]? = some a → Live a k → σ.acts[k]? = some a

theorem setOuter_heap (σ : St) (h : Nat) (o : Ref) (k : Nat) :
    (σ.setOuter h o).heap[k]? =
      if h = k then (σ.heap[k]?).map (fun f => { f with outer := some o }) else σ.heap[k]? :=
  modify_get _ _ _ _

theorem setBlk_heap (σ : St) (h : Nat) (b : Blk) (k : Nat) :
    (σ.setBlk h b).heap[k]? =
      if h = k then (σ.heap[k]?).map (fun f => { f with blk := b }) else σ.heap[k]? :=
  modify_get _ _ _ _

theorem moved {σ₀ : St} (w : WF σ₀) : ∀ (n : Nat) (σ : St) (i : Nat), i < n → PW σ₀ σ →
    i < σ.acts.length → Open σ i → Moved σ₀ σ i (σ.move n (.stk i)) := by
  intro n
  induction n with
  | zero => intro σ i h; omega
  | succ n ih =>
    intro σ i hn p hi hg
    obtain ⟨a, ha⟩ := exists_getElem? hi
    obtain ⟨a0, ha0⟩ := exists_getElem? (show i < σ₀.acts.length by rw [← p.len]; exact hi)
    cases hv : a.cell.inv with
    | true =>
      have hm : σ.move (n + 1) (.stk i) = (σ, a.lfp) := by simp [St.move, ha, hv]
      rw [hm]
      refine ⟨p, ?_, fun _ _ h => h, ?_, fun _ _ h _ => h⟩
      · rcases p.act i a0 ha0 with h1 | ⟨hl0, h, f, hh, h1, h2, hc⟩
        · rw [ha] at h1; cases h1
          rcases w.act i a ha0 with hl | ⟨h, f, e1, _, e3, e4⟩
          · rw [hl.2] at hv; cases hv
          · refine ⟨h, f, e1, p.old h f e3, by rw [e4, actEnv_eq ha0], ?_⟩
            intro x h1 h2; exact absurd h2 (by show ¬ x < σ.heap.length; omega)
        · rw [ha] at h1; cases h1
          refine ⟨h, f, rfl, h2, by rw [hc.env, actEnv_eq ha0], ?_⟩
          intro x h1 h2; exact absurd h2 (by show ¬ x < σ.heap.length; omega)
      · intro h f t h1 h2
        have := getElem?_lt h2
        exact absurd this (by show ¬ h < σ.heap.length; omega)
    | false =>
      have hl : Live a i := by
        rcases p.act i a0 ha0 with h1 | ⟨hl0, h, f, hh, h1, h2, hc⟩
        · rw [ha] at h1; cases h1
          rcases w.act i a ha0 with hl | ⟨h, f, e1, e2, e3, e4⟩
          · exact hl
          · rw [e2] at hv; cases hv
        · rw [ha] at h1; cases h1; cases hv
      have h0 := p.live ha hl
      have p1 := p.promote w ha hl hg
      have hnew : (σ.promote i a.cell).heap[σ.heap.length]? = some a.cell :=
        (append_get _ _ _ _).mpr (.inr ⟨rfl, rfl⟩)
      have hlen1 : (σ.promote i a.cell).heap.length = σ.heap.length + 1 := by
        show (σ.heap ++ [a.cell]).length = _
        simp
      cases ho : a.cell.outer with
      | none =>
        have hm : σ.move (n + 1) (.stk i) = (σ.promote i a.cell, .heap σ.heap.length) := by
          simp [St.move, ha, hv, ho]
        rw [hm]
        refine ⟨p1, ⟨_, _, rfl, hnew, (actEnv_eq h0).symm, ?_⟩, ?_, ?_, ?_⟩
        · intro x h1 h2
          have h2 : x < (σ.promote i a.cell).heap.length := h2
          have : x = σ.heap.length := by omega
          subst this; exact .refl _
        · intro h f hf; exact (append_get _ _ _ _).mpr (.inl hf)
        · intro h f t h1 h2
          rcases (append_get _ _ _ _).mp h2 with h3 | ⟨h3, h4⟩
          · have := getElem?_lt h3; omega
          · rw [← h4, ho]; simp
        · intro k b hb hlb
          have hb : (σ.promote i a.cell).acts[k]? = some b := hb
          rw [promote_act k ha] at hb
          split at hb
          · cases hb; exact absurd hlb (not_live_moved _ _ _)
          · exact hb
      | some o =>
        have hm : σ.move (n + 1) (.stk i) =
            (((σ.promote i a.cell).move n o).1.setOuter σ.heap.length
              ((σ.promote i a.cell).move n o).2, .heap σ.heap.length) := by
          simp [St.move, ha, hv, ho]
        rw [hm]
        -- the outer frame
        have key : PW σ₀ ((σ.promote i a.cell).move n o).1 ∧
            (∃ (h : Nat) (f : Frame), ((σ.promote i a.cell).move n o).2 = .heap h ∧
              ((σ.promote i a.cell).move n o).1.heap[h]? = some f ∧ f.env = envOf σ₀ o ∧
              ∀ x, (σ.promote i a.cell).heap.length ≤ x →
                x < ((σ.promote i a.cell).move n o).1.heap.length →
                HChain ((σ.promote i a.cell).move n o).1 h x) ∧
            (∀ (h : Nat) (f : Frame), (σ.promote i a.cell).heap[h]? = some f →
              ((σ.promote i a.cell).move n o).1.heap[h]? = some f) ∧
            (∀ (h : Nat) (f : Frame) (t : Nat), (σ.promote i a.cell).heap.length ≤ h →
              ((σ.promote i a.cell).move n o).1.heap[h]? = some f → f.outer ≠ some (.stk t)) ∧
            (∀ (k : Nat) (b : Act), ((σ.promote i a.cell).move n o).1.acts[k]? = some b →
              Live b k → (σ.promote i a.cell).acts[k]? = some b) := by
          cases o with
          | heap h =>
            rw [move_heap]
            obtain ⟨f, hf, _⟩ := w.louterh i a h h0 hl ho
            refine ⟨p1, ⟨h, f, rfl, p1.old h f hf, (envOf_heap hf).symm, ?_⟩, fun _ _ h => h, ?_,
              fun _ _ h _ => h⟩
            · intro x h1 h2; exact absurd h2 (by show ¬ x < (σ.promote i a.cell).heap.length; omega)
            · intro h f t h1 h2
              have := getElem?_lt h2
              exact absurd this (by show ¬ h < (σ.promote i a.cell).heap.length; omega)
          | stk j =>
            have hed : Edge σ₀ i j := .outer h0 hl ho
            have hji : j < i := w.edge i j hed
            have hop : Open (σ.promote i a.cell) j := by
              intro i' a' o' ha' hl' ho'
              rw [promote_act i' ha] at ha'
              split at ha'
              · cases ha'; exact absurd hl' (not_live_moved _ _ _)
              · next hne =>
                have hgi := hg i' a' o' ha' hl' ho'
                rcases hgi with h1 | h1
                · have : i' < i := by omega
                  exact w.zone i' a' o' (p.live ha' hl') hl' ho' i j this hed
                · exact .inr (by omega)
            have hjl : j < (σ.promote i a.cell).acts.length := by
              rw [p1.len, ← p.len]; omega
            have M := ih (σ.promote i a.cell) j (by omega) p1 hjl hop
            exact ⟨M.pw, M.ref, M.old, M.nostk, M.live⟩
        obtain ⟨p2, ⟨h', f', e', hf', henv', hch⟩, hold, hns, hlv⟩ := key
        generalize (σ.promote i a.cell).move n o = m at p2 e' hf' hch hold hns hlv ⊢
        have hnew2 := hold _ _ hnew
        have hact2 : m.1.acts[i]? = some (a.moved σ.heap.length) := by
          rcases p2.act i a h0 with h1 | ⟨_, h2, f2, _, h3, h4, h5⟩
          · have := hlv i a h1 hl
            rw [promote_act i ha] at this
            simp at this
            exact absurd (this ▸ hl) (not_live_moved _ _ _)
          · have heq : f2.env = a.cell.env := h5.env
            -- the copy made here is the only heap frame of this call
            obtain ⟨j, b, hb, hbl⟩ := p2.new σ.heap.length a.cell p.hlen hnew2
            obtain ⟨b0, hb0⟩ := exists_getElem? (show j < σ₀.acts.length by
              rw [← p2.len]; exact getElem?_lt hb)
            rcases p2.act j b0 hb0 with g1 | ⟨gl, g2, fg, g3, g4, g5, g6⟩
            · rw [hb] at g1; cases g1
              rcases w.act j b hb0 with hl1 | ⟨hh, ff, e1, _, e3, _⟩
              · rw [hl1.1] at hbl; cases hbl
              · rw [hbl] at e1; cases e1
                have := getElem?_lt e3
                have := p.hlen
                omega
            · rw [hb] at g4; cases g4
              cases hbl
              rw [hnew2] at g5; cases g5
              have : i = j := w.owner_inj h0 hb0 rfl g6.env
              subst this
              rw [h0] at hb0; cases hb0
              exact hb
        have hcp2 : Copy m.1 i a.cell a.cell := by
          refine ⟨rfl, rfl, rfl, ?_, fun _ h => h, rfl, .inl rfl⟩
          intro h ho'
          obtain ⟨f, hf, _⟩ := w.louterh _ _ h h0 hl ho'
          exact ⟨f, p2.old h f hf⟩
        have hvo : Valid σ₀ o := w.valid_outer h0 hl ho
        have p3 : PW σ₀ (m.1.setOuter σ.heap.length m.2) := by
          refine p2.upd w (c := i) (h := σ.heap.length) (a₀ := a) (f := a.cell)
            (fun f => { f with outer := some m.2 }) h0 hl p.hlen hnew2 hcp2 rfl ?_
          refine ⟨rfl, rfl, ?_, ?_, ?_, rfl, .inl rfl⟩
          · show (some m.2).map (envOf m.1) = a.cell.outer.map (envOf m.1)
            rw [ho, e']
            simp only [Option.map_some, Option.some.injEq]
            rw [envOf_heap hf', henv', p2.ext.envOf hvo]
          · intro h hh
            have : some m.2 = some (.heap h) := hh
            rw [e'] at this; cases this
            exact ⟨f', hf'⟩
          · intro t hh
            have : some m.2 = some (.stk t) := hh
            rw [e'] at this; cases this
        have hlt : σ.heap.length < m.1.heap.length := getElem?_lt hnew2
        refine ⟨p3, ⟨σ.heap.length, { a.cell with outer := some m.2 }, rfl, ?_,
          (actEnv_eq h0).symm, ?_⟩, ?_, ?_, ?_⟩
        · rw [setOuter_heap, if_pos rfl, hnew2]; rfl
        · intro x h1 h2
          rcases Nat.eq_or_lt_of_le h1 with e | e
          · subst e; exact .refl _
          · have hx : x < m.1.heap.length := by
              have h2 : x < (m.1.setOuter σ.heap.length m.2).heap.length := h2
              simpa [St.setOuter] using h2
            have c1 := hch x (by omega) hx
            have c2 : HChain (m.1.setOuter σ.heap.length m.2) h' x := by
              refine c1.mono ?_
              intro k f k1 hf ho1
              rw [setOuter_heap]
              split
              · next e =>
                subst e
                rw [hnew2] at hf
                cases hf
                rw [ho] at ho1; cases ho1
                refine ⟨{ a.cell with outer := some m.2 }, by rw [hnew2]; rfl, ?_⟩
                -- then `m.2` is that very frame
                have hm2 : m.2 = .heap k1 := by
                  have hk := p2.act i a h0
                  rw [e']
                  obtain ⟨q, hq, _⟩ := w.louterh i a k1 h0 hl ho
                  have hq2 := p2.old k1 q hq
                  have hqe : q.env = f'.env := by rw [henv', envOf_heap hq]
                  rcases Nat.lt_or_ge h' σ₀.heap.length with hlt' | hge
                  · obtain ⟨q', hq'⟩ := exists_getElem? hlt'
                    have := p2.old h' q' hq'
                    rw [hf'] at this; cases this
                    rw [w.hinj k1 h' q f' hq hq' hqe]
                  · obtain ⟨j, b, hb, hbl⟩ := p2.new h' f' hge hf'
                    obtain ⟨b0, hb0⟩ := exists_getElem? (show j < σ₀.acts.length by
                      rw [← p2.len]; exact getElem?_lt hb)
                    rcases p2.act j b0 hb0 with g1 | ⟨gl, g2, fg, g3, g4, g5, g6⟩
                    · rw [hb] at g1; cases g1
                      rcases w.act j b hb0 with hl1 | ⟨hh, ff, e1, _, e3, _⟩
                      · rw [hl1.1] at hbl; cases hbl
                      · rw [hbl] at e1; cases e1
                        have := getElem?_lt e3
                        omega
                    · rw [hb] at g4; cases g4
                      cases hbl
                      rw [hf'] at g5; cases g5
                      exact absurd (hqe.trans g6.env) (w.disj j b0 k1 q hb0 gl hq)
                show some m.2 = _
                rw [hm2]
              · exact ⟨f, hf, ho1⟩
            refine .step (f := { a.cell with outer := some m.2 }) ?_ ?_ c2
            · rw [setOuter_heap, if_pos rfl, hnew2]; rfl
            · show some m.2 = _
              rw [e']
        · intro h f hf
          rw [setOuter_heap]
          have := getElem?_lt hf
          rw [if_neg (by omega)]
          exact hold h f ((append_get _ _ _ _).mpr (.inl hf))
        · intro h f t h1 h2
          rw [setOuter_heap] at h2
          split at h2
          · next e =>
            subst e
            rw [hnew2] at h2
            cases h2
            show some m.2 ≠ _
            rw [e']; simp
          · next e => exact hns h f t (by omega) h2
        · intro k b hb hlb
          have hb1 := hlv k b hb hlb
          rw [promote_act k ha] at hb1
          split at hb1
          · cases hb1; exact absurd hlb (not_live_moved _ _ _)
          · exact hb1

end Verif.Closure
