import Verif.Closure.Move

/-!
# Materializing the handlers that escape, and the end of an operation
-/

namespace Verif.Closure

/-- Heap frame `h` still has a handler that means something only in the stack. -/
def Pend (σ : St) (h : Nat) : Prop := ∃ (f : Frame) (w : Nat), σ.heap[h]? = some f ∧ f.blk = .word w

theorem PW.owner {σ₀ σ : St} (w : WF σ₀) (p : PW σ₀ σ) {i h : Nat} {a : Act} {f : Frame}
    (ha : σ.acts[i]? = some a) (hlfp : a.lfp = .heap h) (hh : σ₀.heap.length ≤ h)
    (hf : σ.heap[h]? = some f) :
    ∃ a₀, σ₀.acts[i]? = some a₀ ∧ Live a₀ i ∧ a = a₀.moved h ∧ Copy σ i a₀.cell f := by
  obtain ⟨a0, ha0⟩ := exists_getElem? (show i < σ₀.acts.length by
    rw [← p.len]; exact getElem?_lt ha)
  rcases p.act i a0 ha0 with g1 | ⟨gl, g2, fg, g3, g4, g5, g6⟩
  · rw [ha] at g1; cases g1
    rcases w.act i a ha0 with hl1 | ⟨hh', ff, e1, _, e3, _⟩
    · rw [hl1.1] at hlfp; cases hlfp
    · rw [hlfp] at e1; cases e1
      have := getElem?_lt e3
      omega
  · rw [ha] at g4; cases g4
    cases hlfp
    rw [hf] at g5; cases g5
    exact ⟨a0, ha0, gl, rfl, g6⟩

/-- The outer pointers of heap frames lead to older calls. -/
theorem PW.hform {σ₀ σ : St} (w : WF σ₀) (p : PW σ₀ σ) {h h1 : Nat} {f : Frame}
    (hf : σ.heap[h]? = some f) (ho : f.outer = some (.heap h1)) :
    ∃ f1, σ.heap[h1]? = some f1 ∧ f1.env < f.env := by
  rcases Nat.lt_or_ge h σ₀.heap.length with hlt | hge
  · obtain ⟨q, hq⟩ := exists_getElem? hlt
    have := p.old h q hq
    rw [hf] at this; cases this
    obtain ⟨h', f', e, hf', hlt'⟩ := w.houter h f _ hq ho
    cases e
    exact ⟨f', p.old _ _ hf', hlt'⟩
  · obtain ⟨i, a, ha, hl⟩ := p.new h f hge hf
    obtain ⟨a0, h0, hl0, _, hc⟩ := p.owner w ha hl hge hf
    obtain ⟨f1, hf1⟩ := hc.outerv h1 ho
    refine ⟨f1, hf1, ?_⟩
    have hm := hc.outer
    rw [ho] at hm
    cases ho0 : a0.cell.outer with
    | none => rw [ho0] at hm; cases hm
    | some r =>
      rw [ho0] at hm
      simp only [Option.map_some, Option.some.injEq, envOf_heap hf1] at hm
      rw [hm, hc.env, p.ext.envOf (w.valid_outer h0 hl0 ho0)]
      cases r with
      | stk j =>
        obtain ⟨b, hb, _⟩ := w.louter i a0 j h0 hl0 ho0
        show Verif.Closure.actEnv σ₀ j < _
        rw [actEnv_eq hb]
        exact w.inc j i b a0 (w.edge i j (.outer h0 hl0 ho0)) hb h0
      | heap k =>
        obtain ⟨q, hq, hlt⟩ := w.louterh i a0 k h0 hl0 ho0
        rw [envOf_heap hq]; exact hlt

theorem findOwner_some {acts : List Act} {r : Ref} {n k : Nat} (h : findOwner acts r n = some k) :
    k < n ∧ ∃ a, acts[k]? = some a ∧ a.lfp = r := by
  induction n with
  | zero => cases h
  | succ n ih =>
    unfold findOwner at h
    split at h
    · next a ha =>
      split at h
      · next e => cases h; exact ⟨by omega, a, ha, e⟩
      · obtain ⟨h1, h2⟩ := ih h; exact ⟨by omega, h2⟩
    · obtain ⟨h1, h2⟩ := ih h; exact ⟨by omega, h2⟩

theorem findOwner_exists {acts : List Act} {r : Ref} {n k : Nat} {a : Act} (hk : k < n)
    (ha : acts[k]? = some a) (hl : a.lfp = r) : ∃ k', findOwner acts r n = some k' := by
  induction n with
  | zero => omega
  | succ n ih =>
    unfold findOwner
    split
    · next b hb =>
      split
      · exact ⟨_, rfl⟩
      · next e =>
        rcases Nat.lt_or_ge k n with h1 | h1
        · exact ih h1
        · have : k = n := by omega
          subst this
          rw [ha] at hb; cases hb
          exact absurd hl e
    · next hb =>
      rcases Nat.lt_or_ge k n with h1 | h1
      · exact ih h1
      · have : k = n := by omega
        subst this
        rw [ha] at hb; cases hb

theorem proxy_eq {σ : St} {c n : Nat} {a : Act} (hc : n % 65536 ≤ c)
    (ha : σ.acts[c - n % 65536]? = some a) : σ.proxy c n = some (n / 65536, a.lfp) := by
  simp [St.proxy, hc, ha]

/-- What materializing from heap frame `h` gives. -/
structure Matd (σ₀ σ : St) (h : Nat) (σ' : St) : Prop where
  pw : PW σ₀ σ'
  ns : NoStk σ'
  ext : Ext σ σ'
  pend : ∀ x, Pend σ' x → Pend σ x ∧ ¬ HChain σ h x

/-- What making a `Proc` from the handler `w` with target `t` gives. -/
structure Gend (σ₀ σ : St) (t w : Nat) (m : St × Option (Nat × Ref)) : Prop where
  pw : PW σ₀ m.1
  ns : NoStk m.1
  ext : Ext σ m.1
  res : ∃ (h : Nat) (f : Frame), m.2 = some (w / 65536, .heap h) ∧ m.1.heap[h]? = some f ∧
    f.env = actEnv σ₀ t
  pend : ∀ x, Pend m.1 x → Pend σ x

theorem Moved.ext {σ₀ σ : St} {i : Nat} {m : St × Ref} (p : PW σ₀ σ) (M : Moved σ₀ σ i m) :
    Ext σ m.1 :=
  ⟨fun h f hf => ⟨f, M.old h f hf, rfl, rfl⟩, fun j => by rw [M.pw.actEnv, p.actEnv]⟩

theorem Moved.noStk {σ₀ σ : St} {i : Nat} {m : St × Ref} (ns : NoStk σ) (M : Moved σ₀ σ i m) :
    NoStk m.1 := by
  intro h f t hf
  rcases Nat.lt_or_ge h σ.heap.length with hlt | hge
  · obtain ⟨q, hq⟩ := exists_getElem? hlt
    have := M.old h q hq
    rw [hf] at this; cases this
    exact ns h f t hq
  · exact M.nostk h f t hge hf

/-- A frame that is still pending after a move is an old one or on the chain of the moved one. -/
theorem Moved.pend {σ₀ σ : St} {i : Nat} {m : St × Ref} (M : Moved σ₀ σ i m) {h : Nat}
    (e : m.2 = .heap h) {x : Nat} (hp : Pend m.1 x) : Pend σ x ∨ HChain m.1 h x := by
  rcases Nat.lt_or_ge x σ.heap.length with hlt | hge
  · obtain ⟨q, hq⟩ := exists_getElem? hlt
    have := M.old x q hq
    obtain ⟨f, w, hf, hb⟩ := hp
    rw [hf] at this
    cases this
    exact .inl ⟨q, w, hq, hb⟩
  · obtain ⟨h', f', e', _, _, hc⟩ := M.ref
    rw [e] at e'; cases e'
    obtain ⟨f, w, hf, hb⟩ := hp
    exact .inr (hc x hge (getElem?_lt hf))

theorem setBlk_ext (σ : St) (h : Nat) (b : Blk) : Ext σ (σ.setBlk h b) where
  heap := fun k f hf => by
    rw [setBlk_heap, hf]
    split
    · exact ⟨_, rfl, rfl, rfl⟩
    · exact ⟨_, rfl, rfl, rfl⟩
  env := fun _ => rfl

/-- The move that starts a `Proc`: frame `t`, wherever it now is. -/
theorem moved_lfp {σ₀ σ : St} (w : WF σ₀) (p : PW σ₀ σ) {t : Nat} {a : Act}
    (ha : σ.acts[t]? = some a) (ho : Open σ t) :
    Moved σ₀ σ t (σ.move σ.acts.length a.lfp) := by
  obtain ⟨a0, ha0⟩ := exists_getElem? (show t < σ₀.acts.length by
    rw [← p.len]; exact getElem?_lt ha)
  have hheap : ∀ h f, a.lfp = .heap h → σ.heap[h]? = some f → f.env = actEnv σ₀ t →
      Moved σ₀ σ t (σ.move σ.acts.length a.lfp) := by
    intro h f e hf he
    rw [e, move_heap]
    refine ⟨p, ⟨h, f, rfl, hf, he, ?_⟩, fun _ _ h => h, ?_, fun _ _ h _ => h⟩
    · intro x h1 h2; exact absurd h2 (by show ¬ x < σ.heap.length; omega)
    · intro h f t h1 h2
      have := getElem?_lt h2
      exact absurd this (by show ¬ h < σ.heap.length; omega)
  rcases p.act t a0 ha0 with h1 | ⟨hl0, h, f, hh, h1, h2, hc⟩
  · rw [ha] at h1; cases h1
    rcases w.act t a ha0 with hl | ⟨h, f, e1, e2, e3, e4⟩
    · rw [hl.1]
      exact moved w _ σ t (getElem?_lt ha) p (getElem?_lt ha) ho
    · exact hheap h f e1 (p.old _ _ e3) (by rw [e4, actEnv_eq ha0])
  · rw [ha] at h1; cases h1
    exact hheap h f rfl h2 (by rw [hc.env, actEnv_eq ha0])

/-- A handler of a frame that has moved points outside every running block's shield. -/
theorem PW.open_blk {σ₀ σ : St} (w : WF σ₀) (p : PW σ₀ σ) {c n : Nat} {a₀ : Act}
    (h0 : σ₀.acts[c]? = some a₀) (hl : Live a₀ c) (hb : a₀.cell.blk = .word n)
    (hn : σ.acts[c]? ≠ some a₀) : Open σ (c - n % 65536) := by
  intro i a o ha hla ho
  have hE : Edge σ₀ c (c - n % 65536) := .blk h0 hl hb
  have hlt := w.edge _ _ hE
  have ha0 := p.live ha hla
  have hci : c ≠ i := by
    intro e; subst e
    rw [h0] at ha0; cases ha0
    exact hn ha
  rcases p.zone i a o ha hla ho c a₀ h0 hl hn with h1 | h1
  · exact w.zone i a o ha0 hla ho c _ (by omega) hE
  · exact .inr (by omega)

mutual
theorem matd {σ₀ : St} (w : WF σ₀) : ∀ (n : Nat) (σ : St) (h : Nat) (f : Frame), PW σ₀ σ → NoStk σ →
    σ.heap[h]? = some f → 2 * f.env + 1 ≤ n → Matd σ₀ σ h (σ.mat n h)
  | 0, σ, h, f, _, _, _, hn => by omega
  | n + 1, σ, h, f, p, ns, hf, hn => by
    -- the handler of `h` itself
    have key : ∃ σ1, PW σ₀ σ1 ∧ NoStk σ1 ∧ Ext σ σ1 ∧
        (∀ x, Pend σ1 x → Pend σ x ∧ x ≠ h) ∧
        (match f.blk with
        | .word w =>
          match findOwner σ.acts (.heap h) σ.acts.length with
          | some c =>
            match St.genProc n σ c w with
            | (σ', some (fid, r)) => σ'.setBlk h (.clo fid r)
            | (σ', none) => σ'
          | none => σ
        | _ => σ) = σ1 := by
      have htriv : (∀ v, f.blk ≠ .word v) → ∃ σ1, PW σ₀ σ1 ∧ NoStk σ1 ∧ Ext σ σ1 ∧
        (∀ x, Pend σ1 x → Pend σ x ∧ x ≠ h) ∧ σ = σ1 := by
        intro hb
        refine ⟨σ, p, ns, .refl σ, ?_, rfl⟩
        intro x hx
        refine ⟨hx, ?_⟩
        rintro rfl
        obtain ⟨f', v, hf', hv⟩ := hx
        rw [hf] at hf'; cases hf'
        exact hb v hv
      cases hb : f.blk with
      | none => exact htriv (by rw [hb]; simp)
      | clo fid r => exact htriv (by rw [hb]; simp)
      | word v =>
        have hge : σ₀.heap.length ≤ h := by
          rcases Nat.lt_or_ge h σ₀.heap.length with hlt | hge
          · obtain ⟨q, hq⟩ := exists_getElem? hlt
            have := p.old h q hq
            rw [hf] at this; cases this
            exact absurd hb (w.hblk h f v hq)
          · exact hge
        obtain ⟨i, a, ha, hla⟩ := p.new h f hge hf
        obtain ⟨c, hc⟩ := findOwner_exists (getElem?_lt ha) ha hla
        obtain ⟨_, b, hbc, hbl⟩ := findOwner_some hc
        obtain ⟨a0, h0, hl0, rfl, hcp⟩ := p.owner w hbc hbl hge hf
        have hb0 : a0.cell.blk = .word v := by
          rcases hcp.blkc with e | ⟨fid, h', g, e, _⟩
          · rw [← e, hb]
          · rw [hb] at e; cases e
        have hne : σ.acts[c]? ≠ some a0 := by
          rw [hbc]; intro e
          exact not_live_moved a0 h c ((Option.some.inj e).symm ▸ hl0)
        have hlb := w.lblk c a0 v h0 hl0 hb0
        obtain ⟨at0, hat0⟩ := exists_getElem? (show c - v % 65536 < σ₀.acts.length by
          have := getElem?_lt h0; omega)
        have henv : actEnv σ₀ (c - v % 65536) < f.env := by
          rw [actEnv_eq hat0, hcp.env]
          exact w.inc _ _ _ _ (by omega) hat0 h0
        have G := gend w n σ c v p ns hlb.2 (by rw [p.len]; exact getElem?_lt h0)
          (p.open_blk w h0 hl0 hb0 hne) (by omega)
        simp only [hc]
        obtain ⟨ht, ft, er, hft, heft⟩ := G.res
        generalize hg : St.genProc n σ c v = m at G er hft ⊢
        obtain ⟨σ', o⟩ := m
        dsimp only at er hft
        subst er
        refine ⟨σ'.setBlk h (.clo (v / 65536) (.heap ht)), ?_, ?_, G.ext.trans (setBlk_ext _ _ _),
          ?_, rfl⟩
        · obtain ⟨f', hf', _, _⟩ := G.ext.heap h f hf
          have hact : σ'.acts[c]? = some (a0.moved h) := by
            rcases G.pw.act c a0 h0 with e1 | ⟨_, k, fk, hk, e1, e2, e3⟩
            · -- the owner has moved and stays moved
              exfalso
              obtain ⟨j, bj, hbj, hlj⟩ := G.pw.new h f' hge hf'
              obtain ⟨aj, hj0, _, ej, hcj⟩ := G.pw.owner w hbj hlj hge hf'
              have : j = c := by
                have e : f'.env = f.env := by
                  obtain ⟨f'', hf'', e, _⟩ := G.ext.heap h f hf
                  rw [hf'] at hf''; cases hf''; exact e
                exact w.owner_inj (f := f) hj0 h0 (e ▸ hcj.env) hcp.env
              subst this
              rw [h0] at hj0; cases hj0
              rw [e1] at hbj; cases hbj
              rw [hl0.1] at hlj; cases hlj
            · -- and its copy is still `h`
              have : k = h := by
                obtain ⟨j, bj, hbj, hlj⟩ := G.pw.new h f' hge hf'
                obtain ⟨aj, hj0, _, ej, hcj⟩ := G.pw.owner w hbj hlj hge hf'
                have e : f'.env = f.env := by
                  obtain ⟨f'', hf'', e, _⟩ := G.ext.heap h f hf
                  rw [hf'] at hf''; cases hf''; exact e
                have hjc : j = c := w.owner_inj (f := f) hj0 h0 (e ▸ hcj.env) hcp.env
                subst hjc
                rw [e1] at hbj; cases hbj
                cases hlj
                rfl
              subst this
              exact e1
          obtain ⟨a1, h1, _, _, hcp'⟩ := G.pw.owner w hact rfl hge hf'
          rw [h0] at h1; cases h1
          refine G.pw.upd w (c := c) (fun f => { f with blk := .clo (v / 65536) (.heap ht) })
            h0 hl0 hge hf' hcp' rfl ?_
          refine ⟨hcp'.slots, hcp'.env, hcp'.outer, hcp'.outerv, hcp'.outers, ?_,
            .inr ⟨_, _, ft, rfl, hft⟩⟩
          rw [hb0]
          show some (v / 65536, envOf σ' (.heap ht)) = some (v / 65536, actEnv σ' _)
          rw [envOf_heap hft, heft, G.pw.actEnv]
        · intro k q t hq
          rw [setBlk_heap] at hq
          split at hq
          · obtain ⟨q', hq', rfl⟩ := Option.map_eq_some_iff.mp hq
            exact G.ns k q' t hq'
          · exact G.ns k q t hq
        · rintro x ⟨q, v', hq, hv'⟩
          rw [setBlk_heap] at hq
          split at hq
          · obtain ⟨q', hq', rfl⟩ := Option.map_eq_some_iff.mp hq
            cases hv'
          · next e => exact ⟨G.pend x ⟨q, v', hq, hv'⟩, fun e' => e e'.symm⟩
    obtain ⟨σ1, p1, ns1, x1, pd1, e1⟩ := key
    have hm : σ.mat (n + 1) h = match f.outer with
      | some (.heap h') => St.mat n σ1 h'
      | _ => σ1 := by
      rw [← e1]
      simp only [St.mat, hf]
      rfl
    rw [hm]
    cases ho : f.outer with
    | none =>
      refine ⟨p1, ns1, x1, ?_⟩
      intro x hx
      refine ⟨(pd1 x hx).1, ?_⟩
      intro hc
      cases hc with
      | refl => exact (pd1 _ hx).2 rfl
      | step hf' ho' _ => rw [hf] at hf'; cases hf'; rw [ho] at ho'; cases ho'
    | some r =>
      cases r with
      | stk t => exact absurd ho (ns h f t hf)
      | heap h1 =>
        obtain ⟨f1, hf1, hlt⟩ := p.hform w hf ho
        obtain ⟨f1', hf1', he1, _⟩ := x1.heap h1 f1 hf1
        have R := matd w n σ1 h1 f1' p1 ns1 hf1' (by omega)
        refine ⟨R.pw, R.ns, x1.trans R.ext, ?_⟩
        intro x hx
        obtain ⟨hp1, hnc⟩ := R.pend x hx
        refine ⟨(pd1 x hp1).1, ?_⟩
        intro hc
        cases hc with
        | refl => exact (pd1 _ hp1).2 rfl
        | step hf' ho' hc' =>
          rw [hf] at hf'; cases hf'; rw [ho] at ho'; cases ho'
          exact hnc (hc'.ext x1)

theorem gend {σ₀ : St} (w : WF σ₀) : ∀ (n : Nat) (σ : St) (c v : Nat), PW σ₀ σ → NoStk σ →
    v % 65536 ≤ c → c < σ.acts.length → Open σ (c - v % 65536) →
    2 * actEnv σ₀ (c - v % 65536) + 2 ≤ n →
    Gend σ₀ σ (c - v % 65536) v (σ.genProc n c v)
  | 0, _, _, _, _, _, _, _, _, hn => by omega
  | n + 1, σ, c, v, p, ns, hv, hc, ho, hn => by
    obtain ⟨a, ha⟩ := exists_getElem? (show c - v % 65536 < σ.acts.length by omega)
    have M := moved_lfp w p ha ho
    obtain ⟨h, f, e, hf, hen, hch⟩ := M.ref
    have hm : σ.genProc (n + 1) c v =
        (St.mat n (σ.move σ.acts.length a.lfp).1 h, some (v / 65536, .heap h)) := by
      simp only [St.genProc, proxy_eq hv ha, e]
    rw [hm]
    have R := matd w n _ h f M.pw (M.noStk ns) hf (by omega)
    refine ⟨R.pw, R.ns, (M.ext p).trans R.ext, ?_, ?_⟩
    · obtain ⟨f', hf', he', _⟩ := R.ext.heap h f hf
      exact ⟨h, f', rfl, hf', he'.trans hen⟩
    · intro x hx
      obtain ⟨h1, h2⟩ := R.pend x hx
      rcases M.pend e h1 with h3 | h3
      · exact h3
      · exact absurd h3 h2
end

theorem PW.edge {σ₀ σ : St} (p : PW σ₀ σ) {k t : Nat} (e : Edge σ k t) : Edge σ₀ k t := by
  cases e with
  | outer h hl ho => exact .outer (p.live h hl) hl ho
  | blk h hl hb => exact .blk (p.live h hl) hl hb
  | @cache _ _ a h hc =>
    obtain ⟨a0, ha0⟩ := exists_getElem? (show k < σ₀.acts.length by
      rw [← p.len]; exact getElem?_lt h)
    rcases p.act k a0 ha0 with g1 | ⟨gl, g2, fg, g3, g4, g5, g6⟩
    · rw [h] at g1; cases g1; exact .cache ha0 hc
    · rw [h] at g4; cases g4; exact .cache ha0 hc

theorem PW.cell {σ₀ σ : St} (p : PW σ₀ σ) {k : Nat} {a : Act} (h : σ.acts[k]? = some a) :
    ∃ a₀, σ₀.acts[k]? = some a₀ ∧ a.cell.env = a₀.cell.env ∧ a.cache = a₀.cache := by
  obtain ⟨a0, ha0⟩ := exists_getElem? (show k < σ₀.acts.length by
    rw [← p.len]; exact getElem?_lt h)
  rcases p.act k a0 ha0 with g1 | ⟨gl, g2, fg, g3, g4, g5, g6⟩
  · rw [h] at g1; cases g1; exact ⟨a, ha0, rfl, rfl⟩
  · rw [h] at g4; cases g4; exact ⟨a0, ha0, rfl, rfl⟩

/-- A heap frame is one that was there before the operation, or the copy of a frame that moved. -/
theorem PW.hcases {σ₀ σ : St} (w : WF σ₀) (p : PW σ₀ σ) {h : Nat} {f : Frame}
    (hf : σ.heap[h]? = some f) : σ₀.heap[h]? = some f ∨
    ∃ i a₀, σ₀.heap.length ≤ h ∧ σ₀.acts[i]? = some a₀ ∧ Live a₀ i ∧
      σ.acts[i]? = some (a₀.moved h) ∧ Copy σ i a₀.cell f := by
  rcases Nat.lt_or_ge h σ₀.heap.length with hlt | hge
  · obtain ⟨q, hq⟩ := exists_getElem? hlt
    have := p.old h q hq
    rw [hf] at this; cases this
    exact .inl hq
  · obtain ⟨i, a, ha, hl⟩ := p.new h f hge hf
    obtain ⟨a0, h0, hl0, rfl, hc⟩ := p.owner w ha hl hge hf
    exact .inr ⟨i, a0, hge, h0, hl0, ha, hc⟩

/-- At the end of an operation that moved frames the invariant holds again. -/
theorem PW.wf {σ₀ σ : St} (w : WF σ₀) (p : PW σ₀ σ) (ns : NoStk σ) (np : ∀ h, ¬ Pend σ h) :
    WF σ where
  ne := by rw [p.len]; exact w.ne
  act := by
    intro i a ha
    obtain ⟨a0, ha0⟩ := exists_getElem? (show i < σ₀.acts.length by
      rw [← p.len]; exact getElem?_lt ha)
    rcases p.act i a0 ha0 with g1 | ⟨gl, g2, fg, g3, g4, g5, g6⟩
    · rw [ha] at g1; cases g1
      rcases w.act i a ha0 with hl | ⟨h, f, e1, e2, e3, e4⟩
      · exact .inl hl
      · exact .inr ⟨h, f, e1, e2, p.old _ _ e3, e4⟩
    · rw [ha] at g4; cases g4
      exact .inr ⟨g2, fg, rfl, rfl, g5, g6.env⟩
  envA := by
    intro i a ha
    obtain ⟨a0, h0, e, _⟩ := p.cell ha
    rw [e, p.next]; exact w.envA i a0 h0
  envH := by
    intro h f hf
    rw [p.next]
    rcases p.hcases w hf with h0 | ⟨i, a0, _, h0, _, _, hc⟩
    · exact w.envH h f h0
    · rw [hc.env]; exact w.envA i a0 h0
  inc := by
    intro i j a b hij ha hb
    obtain ⟨a0, ha0, ea, _⟩ := p.cell ha
    obtain ⟨b0, hb0, eb, _⟩ := p.cell hb
    rw [ea, eb]; exact w.inc i j a0 b0 hij ha0 hb0
  hinj := by
    intro h h' f f' hf hf' e
    rcases p.hcases w hf with h0 | ⟨i, a0, _, h0, hl0, hm, hc⟩
    · rcases p.hcases w hf' with h0' | ⟨i', a0', _, h0', hl0', hm', hc'⟩
      · exact w.hinj h h' f f' h0 h0' e
      · exact absurd (e.trans hc'.env) (w.disj i' a0' h f h0' hl0' h0)
    · rcases p.hcases w hf' with h0' | ⟨i', a0', _, h0', hl0', hm', hc'⟩
      · exact absurd (e.symm.trans hc.env) (w.disj i a0 h' f' h0 hl0 h0')
      · have : i = i' := w.owner_inj (f := f) h0 h0' hc.env (e.trans hc'.env)
        subst this
        rw [hm] at hm'
        have := congrArg (Option.map Act.lfp) hm'
        simpa [Act.moved] using this
  disj := by
    intro i a h f ha hl hf
    have h0 := p.live ha hl
    rcases p.hcases w hf with hf0 | ⟨j, b0, _, hb0, _, hm, hc⟩
    · exact w.disj i a h f h0 hl hf0
    · intro e
      have : i = j := w.owner_inj (f := f) h0 hb0 e hc.env
      subst this
      rw [ha] at hm; cases hm
      exact not_live_moved _ _ _ hl
  louter := by
    intro i a o ha hl ho
    have h0 := p.live ha hl
    obtain ⟨b, hb, hlb⟩ := w.louter i a o h0 hl ho
    have hlt := w.edge _ _ (.outer h0 hl ho)
    refine ⟨b, ?_, hlb⟩
    rcases p.act o b hb with g | ⟨_, g2, fg, g3, g4, g5, g6⟩
    · exact g
    · have hne : σ.acts[o]? ≠ some b := by
        rw [g4]; intro e
        exact not_live_moved b g2 o ((Option.some.inj e).symm ▸ hlb)
      rcases p.zone i a o ha hl ho o b hb hlb hne with h1 | h1 <;> omega
  louterh := by
    intro i a h ha hl ho
    obtain ⟨f, hf, e⟩ := w.louterh i a h (p.live ha hl) hl ho
    exact ⟨f, p.old _ _ hf, e⟩
  lblk := fun i a v ha hl hb => w.lblk i a v (p.live ha hl) hl hb
  lclo := by
    intro i a fid r ha hl hb
    obtain ⟨h, f, e, hf⟩ := w.lclo i a fid r (p.live ha hl) hl hb
    exact ⟨h, f, e, p.old _ _ hf⟩
  edge := fun k t e => w.edge k t (p.edge e)
  zown := fun i a o ha hl ho => w.zown i a o (p.live ha hl) hl ho
  zone := fun i a o ha hl ho k t hk e => w.zone i a o (p.live ha hl) hl ho k t hk (p.edge e)
  cacheh := by
    intro k a fid h ha hc
    obtain ⟨a0, h0, _, e⟩ := p.cell ha
    obtain ⟨f, hf⟩ := w.cacheh k a0 fid h h0 (e ▸ hc)
    exact ⟨f, p.old _ _ hf⟩
  houter := by
    intro h f r hf ho
    cases r with
    | stk t => exact absurd ho (ns h f t hf)
    | heap h1 =>
      obtain ⟨f1, hf1, hlt⟩ := p.hform w hf ho
      exact ⟨h1, f1, rfl, hf1, hlt⟩
  hblk := fun h f v hf hb => np h ⟨f, v, hf, hb⟩
  hclo := by
    intro h f fid r hf hb
    rcases p.hcases w hf with h0 | ⟨i, a0, _, h0, hl0, hm, hc⟩
    · obtain ⟨h', f', e, hf'⟩ := w.hclo h f fid r h0 hb
      exact ⟨h', f', e, p.old _ _ hf'⟩
    · rcases hc.blkc with e | ⟨fid', h', g, e, hg⟩
      · obtain ⟨h', f', e', hf'⟩ := w.lclo i a0 fid r h0 hl0 (e ▸ hb)
        exact ⟨h', f', e', p.old _ _ hf'⟩
      · rw [e] at hb; cases hb
        exact ⟨h', g, rfl, hg⟩
  hand := by
    intro fid r hr
    rw [p.hand] at hr
    obtain ⟨h, f, e, hf⟩ := w.hand fid r hr
    exact ⟨h, f, e, p.old _ _ hf⟩
  binds := by
    intro r hr
    rw [p.binds] at hr
    obtain ⟨h, f, e, hf⟩ := w.binds r hr
    exact ⟨h, f, e, p.old _ _ hf⟩

end Verif.Closure
