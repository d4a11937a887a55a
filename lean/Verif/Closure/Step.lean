import Verif.Closure.Write

/-!
# One operation
-/

namespace Verif.Closure

/-- An operation the theorems speak about: no Integer as block, and `binding` only where no method
around has been given a block. -/
def World.Plain (w : World) : Op → Prop
  | .callInt _ => False
  | .binding => ∀ e, w.top = some e → w.Blockless e
  | _ => True

/-- The running control frame. -/
theorem top_sim {σ : St} {W : World} (w : WF σ) (s : Sim σ W) :
    ∃ a, σ.acts[σ.acts.length - 1]? = some a ∧ σ.top = some a.lfp ∧ Ok σ a.lfp ∧
      envOf σ a.lfp = a.cell.env ∧ W.top = some (envOf σ a.lfp) ∧ ShadeR σ a.lfp ∧
      W.calls[W.calls.length - 1]? =
        some ⟨a.cell.env, a.cache.map (fun p => (p.1, envOf σ p.2))⟩ := by
  have hne := w.ne
  obtain ⟨a, ha⟩ := exists_getElem? (show σ.acts.length - 1 < σ.acts.length by omega)
  obtain ⟨ok, he⟩ := w.lfp_ok ha
  have hc := s.calls _ a ha
  refine ⟨a, ha, by simp [St.top, ha], ok, he, ?_, ?_, ?_⟩
  · simp [World.top, s.ncalls, hc, he]
  · intro j e
    rcases w.act _ a ha with hl | ⟨h, f, e1, _⟩
    · rw [hl.1] at e; cases e; exact shade_top
    · rw [e1] at e; cases e
  · rw [s.ncalls]; exact hc

/-- The block given to the running frame. -/
theorem given_sim {σ : St} {W : World} (w : WF σ) (s : Sim σ W) :
    ∃ b, σ.ownBlk = some b ∧ W.given = some (absBlk σ (σ.acts.length - 1) b) ∧
      (∀ v, b = .word v → ∃ a, σ.acts[σ.acts.length - 1]? = some a ∧
        Live a (σ.acts.length - 1) ∧ a.cell.blk = .word v) ∧
      (∀ fid q, b = .clo fid q → ∃ h g, q = .heap h ∧ σ.heap[h]? = some g) := by
  obtain ⟨a, ha, ht, ok, he, hw, _⟩ := top_sim w s
  obtain ⟨f, k, hf, _, hwe, _, hword, hclo⟩ := s.frame w ok
  refine ⟨f.blk, by simp [St.ownBlk, ht, hf], ?_, ?_, hclo⟩
  · simp only [World.given, hw, hwe, Option.map_some]
    congr 1
    cases hb : f.blk with
    | none => rfl
    | clo fid q => rfl
    | word v =>
      obtain ⟨a', e, ha', hl', _⟩ := hword v hb
      rcases w.act _ a ha with hl | ⟨h, g, e1, _⟩
      · rw [hl.1] at e; cases e; rfl
      · rw [e1] at e; cases e
  · intro v hv
    obtain ⟨a', e, ha', hl', hcell⟩ := hword v hv
    rcases w.act _ a ha with hl | ⟨h, g, e1, _⟩
    · rw [hl.1] at e; cases e
      exact ⟨a', ha', hl', by rw [hcell]; exact hv⟩
    · rw [e1] at e; cases e

/-- Where the handler of a control frame leads. -/
theorem WF.target {σ : St} (w : WF σ) {k v : Nat} {a : Act} (ha : σ.acts[k]? = some a)
    (hl : Live a k) (hb : a.cell.blk = .word v) :
    1 ≤ v % 65536 ∧ v % 65536 ≤ k ∧ ∃ b, σ.acts[k - v % 65536]? = some b ∧ Ok σ b.lfp ∧
      envOf σ b.lfp = actEnv σ (k - v % 65536) ∧
      (∀ t, b.lfp = .stk t → t = k - v % 65536) := by
  obtain ⟨h1, h2⟩ := w.lblk k a v ha hl hb
  obtain ⟨b, hbb⟩ := exists_getElem? (show k - v % 65536 < σ.acts.length by
    have := getElem?_lt ha; omega)
  obtain ⟨ok, he⟩ := w.lfp_ok hbb
  refine ⟨h1, h2, b, hbb, ok, by rw [he, actEnv_eq hbb], ?_⟩
  intro t e
  rcases w.act _ b hbb with hl' | ⟨h, f, e1, _⟩
  · rw [hl'.1] at e; cases e; rfl
  · rw [e1] at e; cases e

/-- The result of one operation: the invariant, the same world, the same observation. -/
def Agree (s : St × Obs) (t : World × Obs) : Prop := WF s.1 ∧ Sim s.1 t.1 ∧ s.2 = t.2

theorem Agree.same {σ : St} {W : World} (w : WF σ) (s : Sim σ W) (o : Obs) :
    Agree (σ, o) (W, o) := ⟨w, s, rfl⟩

theorem agree_push {σ : St} {W : World} (w : WF σ) (s : Sim σ W) {outer : Option Ref} {blk : Blk}
    (fit : Fit σ outer blk) {p : Option Nat} {b : Option (Nat × Nat)}
    (hp : p = outer.map (envOf σ)) (hb : b = absBlk σ σ.acts.length blk) {o : Obs} :
    Agree (σ.push outer blk, o) (W.enter p b, o) :=
  ⟨w.push fit, s.push w fit hp hb, rfl⟩

theorem fit_none {σ : St} : Fit σ none .none where
  ok := fun _ h => (by cases h)
  shade := fun _ h => (by cases h)
  own := fun _ h => (by cases h)
  word := fun _ h => (by cases h)
  clo := fun _ _ h => (by cases h)

/-- A block frame. -/
theorem fit_block {σ : St} {r : Ref} (ok : Ok σ r) (h : ∀ t, r = .stk t → Open σ t) :
    Fit σ (some r) .none where
  ok := fun o e => (by cases e; exact ok)
  shade := fun t e => (by cases e; exact h t rfl)
  own := fun _ _ v e => (by cases e)
  word := fun _ e => (by cases e)
  clo := fun _ _ e => (by cases e)

/-- The own block passed one frame up. -/
theorem fit_delegate {σ : St} {W : World} (w : WF σ) (s : Sim σ W)
    (hlen : σ.acts.length < 65536) {b : Blk} (hb : σ.ownBlk = some b) {o : Option Ref}
    (ho : ∀ r, o = some r → ∃ h f, r = .heap h ∧ σ.heap[h]? = some f) :
    Fit σ o b.delegate ∧
      absBlk σ σ.acts.length b.delegate = absBlk σ (σ.acts.length - 1) b := by
  obtain ⟨b', e, _, hword, hclo⟩ := given_sim w s
  rw [hb] at e; cases e
  have hne := w.ne
  cases b with
  | none =>
    refine ⟨⟨?_, ?_, ?_, fun _ h => (by cases h), fun _ _ h => (by cases h)⟩, rfl⟩
    · intro r e; obtain ⟨h, f, rfl, hf⟩ := ho r e; exact ⟨f, hf⟩
    · intro t e; obtain ⟨h, f, e', hf⟩ := ho _ e; cases e'
    · intro t e; obtain ⟨h, f, e', hf⟩ := ho _ e; cases e'
  | clo fid q =>
    refine ⟨⟨?_, ?_, ?_, fun _ h => (by cases h), ?_⟩, rfl⟩
    · intro r e; obtain ⟨h, f, rfl, hf⟩ := ho r e; exact ⟨f, hf⟩
    · intro t e; obtain ⟨h, f, e', hf⟩ := ho _ e; cases e'
    · intro t e; obtain ⟨h, f, e', hf⟩ := ho _ e; cases e'
    · intro fid' r e; exact hclo fid' r e
  | word v =>
    obtain ⟨a, ha, hl, hv⟩ := hword v rfl
    obtain ⟨h1, h2⟩ := w.lblk _ a v ha hl hv
    have hm : (v + 1) % 65536 = v % 65536 + 1 := by omega
    have hd : (v + 1) / 65536 = v / 65536 := by omega
    have ht : σ.acts.length - (v + 1) % 65536 = σ.acts.length - 1 - v % 65536 := by omega
    refine ⟨⟨?_, ?_, ?_, ?_, fun _ _ h => (by cases h)⟩, ?_⟩
    · intro r e; obtain ⟨h, f, rfl, hf⟩ := ho r e; exact ⟨f, hf⟩
    · intro t e; obtain ⟨h, f, e', hf⟩ := ho _ e; cases e'
    · intro t e; obtain ⟨h, f, e', hf⟩ := ho _ e; cases e'
    · intro v' e
      cases e
      refine ⟨by omega, by omega, ?_⟩
      rw [ht]
      exact shade_top.blk w ha hl hv
    · show some ((v + 1) / 65536, actEnv σ _) = some (v / 65536, actEnv σ _)
      rw [hd, ht]

/-- A `Proc` made from the handler of control frame `k`. -/
theorem agree_gen {σ : St} {W : World} (w : WF σ) (s : Sim σ W) {k v : Nat} {a : Act}
    (ha : σ.acts[k]? = some a) (hl : Live a k) (hb : a.cell.blk = .word v) (sh : Shade σ k) :
    ∃ σ' p, σ.genProc σ.fuel k v = (σ', some p) ∧
      Agree (σ'.give p, .unit) (W.give (v / 65536, actEnv σ (k - v % 65536)), .unit) := by
  obtain ⟨h1, h2⟩ := w.lblk k a v ha hl hb
  obtain ⟨b, hbb⟩ := exists_getElem? (show k - v % 65536 < σ.acts.length by
    have := getElem?_lt ha; omega)
  have henv := w.envA _ b hbb
  have G := gend w σ.fuel σ k v (.refl w) w.noStk h2 (getElem?_lt ha) (sh.blk w ha hl hb)
    (by rw [actEnv_eq hbb]; unfold St.fuel; omega)
  obtain ⟨h, f, er, hf, hef⟩ := G.res
  generalize σ.genProc σ.fuel k v = m at G er hf ⊢
  obtain ⟨σ', o⟩ := m
  dsimp only at er hf
  subst er
  have np : ∀ x, ¬ Pend σ' x := by
    intro x hx
    obtain ⟨f, v, hf, hv⟩ := G.pend x hx
    exact w.hblk x f v hf hv
  have s' := s.pw w G.pw np
  have w' := G.pw.wf w G.ns np
  refine ⟨σ', _, rfl, w'.give hf, ?_, rfl⟩
  have := s'.give (v / 65536, .heap h)
  simp only [envOf_heap hf, hef] at this
  exact this

/-- Moving the running frame. -/
theorem moved_top {σ : St} (w : WF σ) {a : Act} (ha : σ.acts[σ.acts.length - 1]? = some a) :
    Moved σ σ (σ.acts.length - 1) (σ.move σ.acts.length a.lfp) :=
  moved_lfp w (.refl w) ha open_top

theorem chain_scope {σ₀ σ : St} {W : World} (w : WF σ₀) (s : Sim σ₀ W) (p : PW σ₀ σ) {h x : Nat}
    (c : HChain σ h x) {f : Frame} (hf : σ.heap[h]? = some f) {g : Frame}
    (hg : σ.heap[x]? = some g) : ∃ d, W.scope d f.env = some g.env := by
  induction c generalizing f with
  | refl h => rw [hf] at hg; cases hg; exact ⟨0, rfl⟩
  | @step h h1 x f0 hf0 ho _ ih =>
    rw [hf0] at hf; cases hf
    obtain ⟨f1, hf1, _⟩ := p.hform w hf0 ho
    obtain ⟨d, hd⟩ := ih hf1 hg
    obtain ⟨i, hi⟩ := s.mid w p hf0
    refine ⟨d + 1, ?_⟩
    simp [World.scope, hi, ho, envOf_heap hf1, hd]

theorem step_sim {σ : St} {W : World} (w : WF σ) (s : Sim σ W) (hl : W.calls.length < 65536)
    (op : Op) (hop : W.Plain op) : Agree (step true σ op) (W.step op) := by
  have hlen : σ.acts.length < 65536 := by rw [← s.ncalls]; exact hl
  have hne := w.ne
  obtain ⟨a, ha, ht, ok, he, hw, sh, hcall⟩ := top_sim w s
  obtain ⟨b, hob, hgiven, hword, hclo⟩ := given_sim w s
  cases op with
  | get d i =>
    simp only [step, World.step, ht, hw]
    rcases walk_sim w s d _ ok sh with ⟨q, h1, h2, okq, _⟩ | ⟨h1, h2⟩
    · obtain ⟨f, k, hf, _, hwe, _⟩ := s.frame w okq
      simp only [h1, h2, hf, hwe]
      exact .same w s _
    · simp only [h1, h2]; exact .same w s _
  | set d i x =>
    simp only [step, World.step, ht, hw]
    rcases walk_sim w s d _ ok sh with ⟨q, h1, h2, okq, _⟩ | ⟨h1, h2⟩
    · simp only [h1, h2]
      exact ⟨(wrote okq i x).same.wf w, s.write w okq i x, rfl⟩
    · simp only [h1, h2]; exact .same w s _
  | call lit =>
    cases lit with
    | none =>
      simp only [step, World.step, ht, hw]
      exact agree_push w s fit_none rfl rfl
    | some fid =>
      simp only [step, World.step, ht, hw]
      have hm : (fid * 65536 + 1) % 65536 = 1 := by omega
      have hd : (fid * 65536 + 1) / 65536 = fid := by omega
      refine agree_push w s ⟨fun _ h => (by cases h), fun _ h => (by cases h),
        fun _ h => (by cases h), ?_, fun _ _ h => (by cases h)⟩ rfl ?_
      · intro v e
        cases e
        rw [hm]
        exact ⟨by omega, by omega, open_top⟩
      · simp only [absBlk, hm, hd]
        rw [he, ← actEnv_eq ha]
  | callFwd =>
    simp only [step, World.step, ht, hw, hob, hgiven]
    obtain ⟨fit, e⟩ := fit_delegate w s hlen hob (o := none) (fun _ h => (by cases h))
    exact agree_push w s fit rfl e.symm
  | callInt n => exact absurd hop id
  | callProc k =>
    simp only [step, World.step, ht, hw, s.hand, List.getElem?_map]
    cases hk : σ.hand[k]? with
    | none => exact .same w s _
    | some p =>
      obtain ⟨fid, o⟩ := p
      have hin := w.hand fid o (List.mem_of_getElem? hk)
      refine agree_push w s ⟨fun _ h => (by cases h), fun _ h => (by cases h),
        fun _ h => (by cases h), fun _ h => (by cases h), ?_⟩ rfl rfl
      intro fid' r e
      cases e; exact hin
  | yield =>
    simp only [step, World.step, ht, hw, St.yieldTarget, World.yields, s.next]
    rcases home_sim w s (σ.next + 1) _ ok sh with ⟨q, h1, h2, okq, shq⟩ | ⟨h1, h2⟩
    · obtain ⟨f, k, hf, _, hwe, _, hwq, hcq⟩ := s.frame w okq
      simp only [h1, h2, hf, hwe]
      cases hb : f.blk with
      | none => simp only [absBlk]; exact .same w s _
      | clo fid r =>
        simp only [absBlk]
        obtain ⟨h, g, rfl, hg⟩ := hcq fid r hb
        refine agree_push w s (fit_block (r := .heap h) ⟨g, hg⟩ (fun t e => (by cases e))) rfl rfl
      | word v =>
        obtain ⟨c, rfl, hc, hlc, hcell⟩ := hwq v hb
        have hbc : c.cell.blk = .word v := by rw [hcell]; exact hb
        obtain ⟨t1, t2, bt, hbt, okt, het, hst⟩ := w.target hc hlc hbc
        have hkl := getElem?_lt hc
        have hm : (v + (σ.acts.length - 1 - k)) % 65536 = v % 65536 + (σ.acts.length - 1 - k) := by
          omega
        have hd : (v + (σ.acts.length - 1 - k)) / 65536 = v / 65536 := by omega
        have hti : σ.acts.length - 1 - (v + (σ.acts.length - 1 - k)) % 65536 = k - v % 65536 := by
          omega
        have hpr : σ.proxy (σ.acts.length - 1) (v + (σ.acts.length - 1 - k)) =
            some (v / 65536, bt.lfp) := by
          rw [proxy_eq (a := bt) (by omega) (by rw [hti]; exact hbt), hd]
        simp only [w.findOwner_stk hc hlc, hpr, absBlk]
        refine agree_push w s (fit_block okt ?_) (by simp [het]) rfl
        intro t e
        rw [hst t e]
        exact (shq k rfl).blk w hc hlc hbc
    · simp only [h1, h2]; exact .same w s _
  | lambda fid =>
    simp only [step, World.step, ht, hw]
    have M := moved_top w ha
    obtain ⟨h, f, e, hf, hef, _⟩ := M.ref
    have hn : 2 * f.env + 1 ≤ σ.fuel := by
      rw [hef, actEnv_eq ha]
      have := w.envA _ a ha
      unfold St.fuel; omega
    have R := matd w σ.fuel _ h f M.pw (M.noStk w.noStk) hf hn
    have np : ∀ x, ¬ Pend (St.mat σ.fuel (σ.move σ.acts.length a.lfp).1 h) x := by
      intro x hx
      obtain ⟨h1, h2⟩ := R.pend x hx
      rcases M.pend e h1 with ⟨f, v, hf, hv⟩ | h3
      · exact w.hblk x f v hf hv
      · exact h2 h3
    simp only [e]
    obtain ⟨f', hf', hef', _⟩ := R.ext.heap h f hf
    refine ⟨(R.pw.wf w R.ns np).give hf', ?_, rfl⟩
    have := (s.pw w R.pw np).give (fid, .heap h)
    simp only [envOf_heap hf', hef', hef] at this
    rw [he, ← actEnv_eq ha]
    exact this
  | blockArg d =>
    simp only [step, World.step, ht, hw]
    rcases walk_sim w s d _ ok sh with ⟨q, h1, h2, okq, shq⟩ | ⟨h1, h2⟩
    · obtain ⟨f, k, hf, _, hwe, _, hwq, hcq⟩ := s.frame w okq
      simp only [h1, h2, hwe, St.blockArgAt, hf]
      cases hb : f.blk with
      | none => simp only [absBlk]; exact .same w s _
      | clo fid r =>
        simp only [absBlk]
        obtain ⟨h, g, rfl, hg⟩ := hcq fid r hb
        exact ⟨w.give hg, s.give _, rfl⟩
      | word v =>
        obtain ⟨c, rfl, hc, hlc, hcell⟩ := hwq v hb
        have hbc : c.cell.blk = .word v := by rw [hcell]; exact hb
        obtain ⟨σ', p, e, A⟩ := agree_gen w s hc hlc hbc (shq k rfl)
        simp only [w.findOwner_stk hc hlc, e, absBlk]
        exact A
    · simp only [h1, h2]; exact .same w s _
  | genProc =>
    simp only [step, World.step, ht, hw, hob, hgiven]
    cases b with
    | none => simp only [absBlk]; exact .same w s _
    | clo fid r =>
      simp only [absBlk]
      obtain ⟨h, g, rfl, hg⟩ := hclo fid r rfl
      exact ⟨w.give hg, s.give _, rfl⟩
    | word v =>
      obtain ⟨c, hc, hlc, hbc⟩ := hword v rfl
      obtain ⟨σ', p, e, A⟩ := agree_gen w s hc hlc hbc shade_top
      simp only [e, absBlk]
      exact A
  | cache =>
    simp only [step, World.step, ht, hw, hob, hgiven]
    cases b with
    | none => simp only [absBlk]; exact .same w s _
    | clo fid r =>
      simp only [absBlk]
      obtain ⟨h, g, rfl, hg⟩ := hclo fid r rfl
      refine ⟨w.setCache ⟨fun t e => (by cases e), ?_⟩, s.setCache _, rfl⟩
      intro h' e; cases e; exact ⟨g, hg⟩
    | word v =>
      obtain ⟨c, hc, hlc, hbc⟩ := hword v rfl
      obtain ⟨t1, t2, bt, hbt, okt, het, hst⟩ := w.target hc hlc hbc
      simp only [proxy_eq t2 hbt, absBlk]
      refine ⟨w.setCache ⟨?_, ?_⟩, ?_, rfl⟩
      · intro t e
        have := hst t e
        subst this
        refine ⟨by omega, shade_top.blk w hc hlc hbc, ?_⟩
        intro a' o ha' hla' ho
        rw [hc] at ha'; cases ha'
        exact (w.zown _ c o hc hlc ho).1 v hbc
      · intro h e
        rw [e] at okt; exact okt
      · have := s.setCache (v / 65536, bt.lfp)
        simp only [het] at this
        exact this
  | invoke =>
    simp only [step, World.step, ht, hw, ha, hcall]
    cases hc : a.cache with
    | none => exact .same w s _
    | some p =>
      obtain ⟨fid, o⟩ := p
      simp only [Option.map_some, if_true]
      have hfw : Ok σ (σ.forward o) ∧ envOf σ (σ.forward o) = envOf σ o ∧
          ∀ t, σ.forward o = .stk t → Open σ t := by
        cases o with
        | heap h =>
          refine ⟨w.cacheh _ a fid h ha hc, rfl, fun t e => ?_⟩
          simp only [St.forward] at e
          cases e
        | stk t =>
          have hE : Edge σ (σ.acts.length - 1) t := .cache ha hc
          have hlt := w.edge _ _ hE
          obtain ⟨c, hcc⟩ := exists_getElem? (show t < σ.acts.length by omega)
          rcases w.act t c hcc with hlc | ⟨h, f, e1, e2, e3, e4⟩
          · have hf : σ.forward (.stk t) = .stk t := by simp [St.forward, hcc, hlc.2]
            rw [hf]
            refine ⟨⟨c, hcc, hlc⟩, rfl, ?_⟩
            intro t' e
            cases e
            intro i b o hb hlb ho
            have := getElem?_lt hb
            rcases Nat.eq_or_lt_of_le (show i ≤ σ.acts.length - 1 by omega) with e | e
            · subst e
              rw [ha] at hb; cases hb
              exact absurd hc ((w.zown _ a o ha hlb ho).2 fid t)
            · exact w.zone i b o hb hlb ho _ t e hE
          · have hf : σ.forward (.stk t) = .heap h := by simp [St.forward, hcc, e2, e1]
            rw [hf]
            refine ⟨⟨f, e3⟩, ?_, fun t e => (by cases e)⟩
            rw [envOf_heap e3, e4]
            exact (actEnv_eq hcc).symm
      obtain ⟨f1, f2, f3⟩ := hfw
      exact agree_push w s (fit_block f1 f3) (by simp [f2]) rfl
  | procBody k fwd =>
    simp only [step, World.step, ht, hw, hob, hgiven, s.hand, List.getElem?_map]
    cases hk : σ.hand[k]? with
    | none => exact .same w s _
    | some p =>
      obtain ⟨fid, o⟩ := p
      have hin := w.hand fid o (List.mem_of_getElem? hk)
      obtain ⟨h, g, rfl, hg⟩ := hin
      simp only [Option.map_some]
      cases fwd with
      | true =>
        obtain ⟨fit, e⟩ := fit_delegate w s hlen hob (o := some (.heap h))
          (fun r e => (by cases e; exact ⟨h, g, rfl, hg⟩))
        exact agree_push w s fit rfl e.symm
      | false =>
        exact agree_push w s (fit_block (r := .heap h) ⟨g, hg⟩ (fun t e => (by cases e))) rfl rfl
  | binding =>
    simp only [step, World.step, ht, hw]
    have M := moved_top w ha
    obtain ⟨h, f, e, hf, hef, _⟩ := M.ref
    have hbl := hop _ hw
    have hfe : f.env = envOf σ a.lfp := by rw [hef, actEnv_eq ha, he]
    have np : ∀ x, ¬ Pend (σ.move σ.acts.length a.lfp).1 x := by
      intro x hx
      rcases M.pend e hx with ⟨f, v, hf, hv⟩ | h3
      · exact w.hblk x f v hf hv
      · obtain ⟨g, v, hg, hv⟩ := hx
        obtain ⟨d, hd⟩ := chain_scope w s M.pw h3 hf hg
        obtain ⟨i, hi⟩ := s.mid w M.pw hg
        have := hbl d g.env _ (by rw [← hfe]; exact hd) hi
        rw [hv] at this
        cases this
    rw [e]
    refine ⟨(M.pw.wf w (M.noStk w.noStk) np).bind hf, ?_, rfl⟩
    have := (s.pw w M.pw np).bind (.heap h)
    rw [envOf_heap hf, hfe] at this
    exact this
  | evalIn k =>
    simp only [step, World.step, ht, hw, s.binds, List.getElem?_map]
    cases hk : σ.binds[k]? with
    | none => exact .same w s _
    | some o =>
      obtain ⟨h, g, rfl, hg⟩ := w.binds o (List.mem_of_getElem? hk)
      exact ⟨w.pushEval hg, s.pushEval w hg, rfl⟩
  | ret =>
    simp only [step, World.step, ht, hw, s.ncalls]
    split
    · exact .same w s _
    · exact ⟨w.pop (by omega), s.pop w (by omega), rfl⟩

theorem WF.init : WF St.init := by
  have hact : ∀ (i : Nat) (a : Act), St.init.acts[i]? = some a → i = 0 ∧ a =
      { lfp := .stk 0, cell := { slots := fun _ => 0, outer := none, blk := .none, inv := false, env := 0 }, cache := none } := by
    intro i a h
    cases i with
    | zero => cases h; exact ⟨rfl, rfl⟩
    | succ i => cases h
  have hheap : ∀ (i : Nat) (f : Frame), St.init.heap[i]? ≠ some f := fun i f h => (by cases h)
  have hedge : ∀ k t, ¬ Edge St.init k t := by
    intro k t e
    cases e with
    | outer h _ ho => obtain ⟨_, rfl⟩ := hact _ _ h; cases ho
    | blk h _ ho => obtain ⟨_, rfl⟩ := hact _ _ h; cases ho
    | cache h ho => obtain ⟨_, rfl⟩ := hact _ _ h; cases ho
  refine ⟨by decide, ?_, ?_, ?_, ?_, ?_, ?_, ?_, ?_, ?_, ?_, ?_, ?_, ?_, ?_, ?_, ?_, ?_, ?_, ?_⟩
  · intro i a h; obtain ⟨rfl, rfl⟩ := hact i a h; exact .inl ⟨rfl, rfl⟩
  · intro i a h; obtain ⟨rfl, rfl⟩ := hact i a h; exact Nat.one_pos
  · intro h f hf; exact absurd hf (hheap h f)
  · intro i j a b hij ha hb; obtain ⟨rfl, _⟩ := hact j b hb; omega
  · intro h h' f f' hf; exact absurd hf (hheap h f)
  · intro i a h f _ _ hf; exact absurd hf (hheap h f)
  · intro i a o h _ ho; obtain ⟨_, rfl⟩ := hact i a h; cases ho
  · intro i a o h _ ho; obtain ⟨_, rfl⟩ := hact i a h; cases ho
  · intro i a o h _ ho; obtain ⟨_, rfl⟩ := hact i a h; cases ho
  · intro i a fid r h _ ho; obtain ⟨_, rfl⟩ := hact i a h; cases ho
  · intro k t e; exact absurd e (hedge k t)
  · intro i a o h _ ho; obtain ⟨_, rfl⟩ := hact i a h; cases ho
  · intro i a o h _ ho; obtain ⟨_, rfl⟩ := hact i a h; cases ho
  · intro k a fid h ha hc; obtain ⟨_, rfl⟩ := hact k a ha; cases hc
  · intro h f r hf; exact absurd hf (hheap h f)
  · intro h f v hf; exact absurd hf (hheap h f)
  · intro h f fid r hf; exact absurd hf (hheap h f)
  · intro fid r h; cases h
  · intro r h; cases h

theorem Sim.init : Sim St.init World.init where
  ncalls := rfl
  calls := by
    intro i a h
    cases i with
    | zero => cases h; rfl
    | succ i => cases h
  live := by
    intro i a h _
    cases i with
    | zero => cases h; rfl
    | succ i => cases h
  heap := fun h f hf => (by cases hf)
  next := rfl
  hand := rfl
  binds := rfl

end Verif.Closure
