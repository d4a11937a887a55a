import Verif.Ensure.Layout

/-! # The generated code does what the statement means -/

namespace Verif.Ensure

variable {σ : Type} {I : Interp σ} {f : Nat} {P : Code}

theorem Star.trans {a b c : Out2 σ} (h : Star I f P a b) (k : Star I f P b c) :
    Star I f P a c := by
  induction h with
  | refl => exact k
  | step m r _ ih => exact .step m _ (ih k)

theorem Star.one {m : Cfg σ} {r : Out2 σ} (h : Verif.Ensure.step I f P m = r) :
    Star I f P (.inl m) r := by
  subst h; exact .step m _ (.refl _)

/-- The code lies in the program at `pc`, and an address in it is covered by its own entries
first, then by the handler `h`. -/
def Loc (P : Code) (pc : Nat) (c : Code) (h : Option Entry) : Prop :=
  (∀ i, i < c.len → P.ins[pc + i]? = c.ins[i]?) ∧
  ∀ q, pc ≤ q → q < pc + c.len → dest P.tab q = (dest c.tab q).or h

theorem loc_left {pc : Nat} {c d : Code} {h : Option Entry} (k : Option Entry)
    (H : Loc P pc (c.app d) h)
    (hk : ∀ q, pc ≤ q → q < pc + c.len → dest d.tab q = k) : Loc P pc c (k.or h) := by
  refine ⟨fun i hi => ?_, fun q h1 h2 => ?_⟩
  · rw [H.1 i (by rw [len_app]; omega)]
    simp only [Code.app]
    rw [List.getElem?_append_left hi]
  · rw [H.2 q h1 (by rw [len_app]; omega), dest_app, hk q h1 h2, Option.or_assoc]

theorem loc_right {pc : Nat} {c d : Code} {h : Option Entry} (H : Loc P pc (c.app d) h)
    (hw : Within pc c) : Loc P (pc + c.len) d h := by
  refine ⟨fun i hi => ?_, fun q h1 h2 => ?_⟩
  · have := H.1 (c.len + i) (by rw [len_app]; omega)
    rw [Nat.add_assoc, this]
    simp only [Code.app]
    rw [List.getElem?_append_right (by unfold Code.len; omega)]
    congr 1; unfold Code.len; omega
  · rw [H.2 q (by omega) (by rw [len_app]; omega), dest_app, dest_none hw (Or.inr h1)]
    rfl

/-- Code in a row: the first piece is covered by `h` if the entries of the rest lie in the rest. -/
theorem loc_left' {pc : Nat} {c d : Code} {h : Option Entry} (H : Loc P pc (c.app d) h)
    (hd : Within (pc + c.len) d) : Loc P pc c h := by
  have := loc_left none H (fun q _ h2 => dest_none hd (Or.inl h2))
  simpa using this

theorem loc_tab {pc : Nat} {l : List Entry} {d : Code} {h : Option Entry}
    (H : Loc P pc ((⟨[], l⟩ : Code).app d) h)
    (hl : ∀ q, pc ≤ q → q < pc + d.len → dest l q = none) : Loc P pc d h := by
  refine ⟨fun i hi => ?_, fun q h1 h2 => ?_⟩
  · rw [H.1 i (by simpa using hi)]; simp [Code.app]
  · rw [H.2 q h1 (by simpa using h2), dest_app, hl q h1 h2]; rfl

theorem step_one {pc : Nat} {i : Instr} {h : Option Entry} (H : Loc P pc (Code.one i) h)
    (r : Nat → Nat) (D) (s : σ) :
    step I f P ⟨pc, r, D, s⟩ = exec I f h ⟨pc, r, D, s⟩ i := by
  have h1 := H.1 0 (by simp)
  have h2 := H.2 pc (Nat.le_refl _) (by simp)
  simp only [Nat.add_zero, Code.one, List.getElem?_cons_zero] at h1
  simp only [Code.one, dest, List.find?_nil, Option.none_or] at h2
  simp only [step, h1]
  rw [show dest P.tab pc = h from h2]

/-- Two register files agree below `t`. -/
def Agree (t : Nat) (r r' : Nat → Nat) : Prop := ∀ i, i < t → r' i = r i

theorem Agree.refl (t r) : Agree t r r := fun _ _ => rfl
theorem Agree.trans {t r r' r''} (h : Agree t r r') (k : Agree t r' r'') : Agree t r r'' :=
  fun i hi => (k i hi).trans (h i hi)
theorem Agree.mono {t t' r r'} (h : Agree t r r') (ht : t' ≤ t) : Agree t' r r' :=
  fun i hi => h i (by omega)
theorem Agree.set {t r r'} (h : Agree t r r') {k v} (hk : t ≤ k) : Agree t r (setReg r' k v) := by
  intro i hi
  unfold setReg
  rw [if_neg (by omega)]
  exact h i hi

/-- No unwinding is deferred for the frame. -/
def Clean (f : Nat) (D : List (Nat × Unw)) : Prop := ∀ u r, D ≠ (f, u) :: r

/-- Where the machine is when a statement has ended with outcome `o`: after a normal end at `e`;
after an exception where the handler `hx` sends it; after an unwinding where `hu` sends it; at the
label of `retry`; for `break`, `next` and `return`, before the copies of the pending ensure
clauses and the jump that follows them. -/
def Post (I : Interp σ) (f : Nat) (P : Code) (u : Bool) (c : Ctx) (e : Nat)
    (hx hu : Option Entry) (r : Nat → Nat) (D : List (Nat × Unw)) (o : Outc) (s' : σ)
    (res : Out2 σ) : Prop :=
  match o with
  | .norm => ∃ r', Agree c.temp r r' ∧ res = .inl ⟨e, r', D, s'⟩
  | .exc x => ∃ p r', Agree c.temp r r' ∧ res = raiseTo f hx x ⟨p, r', D, s'⟩
  | .unw w => ∃ p r', Agree c.temp r r' ∧ res = unwTo f hu w ⟨p, r', D, s'⟩
  | .retry => ∀ d ds, c.retry = d :: ds → ∃ r', Agree c.temp r r' ∧ res = .inl ⟨d, r', D, s'⟩
  | .brk => ∀ l ls, c.loops = l :: ls → l.depth ≤ c.ens.length →
      ∃ p r' rt t h, Agree c.temp r r' ∧ c.temp ≤ t ∧ res = .inl ⟨p, r', D, s'⟩ ∧
        Loc P p ((pend (leaving c.ens l) c.loops rt t p).app (Code.one (.br l.brk))) h
  | .nxt => ∀ l ls, c.loops = l :: ls → l.depth ≤ c.ens.length →
      ∃ p r' rt t h, Agree c.temp r r' ∧ c.temp ≤ t ∧ res = .inl ⟨p, r', D, s'⟩ ∧
        Loc P p ((pend (leaving c.ens l) c.loops rt t p).app (Code.one (.br l.nxt))) h
  | .ret v =>
      (∃ p r' lo rt t h k, Agree c.temp r r' ∧ c.temp ≤ t ∧ res = .inl ⟨p, r', D, s'⟩ ∧
        k < t ∧ r' k = v ∧
        Loc P p ((pend c.ens lo rt t p).app (Code.one (.ret (.tmp k)))) h) ∨
      (u = false ∧ res = .inr (.ret v, D, s'))

theorem Post.agree {u c e hx hu r r0 D o s' res} (h : Agree c.temp r0 r)
    (H : Post I f P u c e hx hu r D o s' res) : Post I f P u c e hx hu r0 D o s' res := by
  cases o with
  | norm => obtain ⟨r', a, b⟩ := H; exact ⟨r', h.trans a, b⟩
  | exc x => obtain ⟨p, r', a, b⟩ := H; exact ⟨p, r', h.trans a, b⟩
  | unw x => obtain ⟨p, r', a, b⟩ := H; exact ⟨p, r', h.trans a, b⟩
  | retry => intro d ds hd; obtain ⟨r', a, b⟩ := H d ds hd; exact ⟨r', h.trans a, b⟩
  | brk =>
    intro l ls hl hd
    obtain ⟨p, r', rt, t, k, a, b⟩ := H l ls hl hd
    exact ⟨p, r', rt, t, k, h.trans a, b⟩
  | nxt =>
    intro l ls hl hd
    obtain ⟨p, r', rt, t, k, a, b⟩ := H l ls hl hd
    exact ⟨p, r', rt, t, k, h.trans a, b⟩
  | ret v =>
    rcases H with ⟨p, r', lo, rt, t, k, j, a, b⟩ | H
    · exact .inl ⟨p, r', lo, rt, t, k, j, h.trans a, b⟩
    · exact .inr H

/-- An abnormal outcome does not depend on the address of the normal end. -/
theorem Post.move {u c e e' hx hu r D o s' res} (ho : o ≠ .norm)
    (H : Post I f P u c e hx hu r D o s' res) : Post I f P u c e' hx hu r D o s' res := by
  cases o <;> first | exact absurd rfl ho | exact H

/-- The flag `u = false`: nothing around has an ensure clause. -/
def Bare (u : Bool) (h : Option Entry) (E : List Clo) : Prop :=
  u = false → h.bind Entry.ens = none ∧ ∀ g ∈ E, g = blank

/-- The claim for one evaluation of a statement. -/
def SimFor (I : Interp σ) (f : Nat) (P : Code) (s : Stmt) (st : σ) (o : Outc) (st' : σ) : Prop :=
  ∀ (u : Bool) (c : Ctx) (pc : Nat) (h : Option Entry) (r : Nat → Nat) (D : List (Nat × Unw)),
    Ok I u s → Bare u h c.ens → (hasEns s = true → Clean f D) → Good c.ens →
    Loc P pc (comp c pc s) h →
    ∃ res, Star I f P (.inl ⟨pc, r, D, st⟩) res ∧
      Post I f P u c (pc + (comp c pc s).len) h h r D o st' res

theorem pend_blank {gs : List Clo} (h : ∀ g ∈ gs, g = blank) (l r t p) :
    pend gs l r t p = Code.nil := by
  induction gs generalizing p with
  | nil => rfl
  | cons g gs ih =>
    rw [pend, h g (by simp)]
    rw [ih (fun g hg => h g (by simp [hg]))]
    rfl

theorem unwTo_congr {h h' : Option Entry} (e : h.bind Entry.ens = h'.bind Entry.ens) (w)
    (m : Cfg σ) : unwTo f h w m = unwTo f h' w m := by
  simp only [unwTo, e]

theorem leaving_cons (g : Clo) {E : List Clo} {l : Loop} (h : l.depth ≤ E.length) :
    leaving (g :: E) l = g :: leaving E l := by
  unfold leaving
  rw [List.length_cons, show E.length + 1 - l.depth = (E.length - l.depth) + 1 by omega]
  rfl

theorem good_leaving {E : List Clo} (h : Good E) (l : Loop) : Good (leaving E l) :=
  fun g hg => h g (List.mem_of_mem_take hg)

/-- Leaving a region with an ensure clause by `break`, `next` or `return`: the copy of the ensure
clause that comes first in the pending code is run. -/
theorem exit_region {c : Ctx} {n : Stmt} {s1 s2 : σ} {u : Bool} {e e' : Nat}
    {hx hu h h' : Option Entry} {r : Nat → Nat} {D : List (Nat × Unw)} {o : Outc} {res : Out2 σ}
    (hE : Good c.ens) (hn : SimFor I f P n s1 .norm s2) (hok : Ok I true n)
    (hne : hasEns n = false)
    (ho : o = .brk ∨ o = .nxt ∨ ∃ v, o = .ret v)
    (H : Post I f P true
      { c with ens := (fun loops retry t p => comp ⟨c.ens, loops, retry, t⟩ p n) :: c.ens }
      e hx hu r D o s1 res) :
    (c.loops = [] ∨ (∃ l ls, c.loops = l :: ls ∧ ¬ l.depth ≤ c.ens.length)) ∧ (o = .brk ∨ o = .nxt) ∨
    ∃ res', Star I f P res res' ∧ Post I f P u c e' h h' r D o s2 res' := by
  -- run the copy of `n` at the head of located pending code
  have key : ∀ (gs : List Clo) (p : Nat) (r' : Nat → Nat) (lo : List Loop) (rt : List Nat)
      (t : Nat) (k : Option Entry) (last : Instr), Good gs →
      Loc P p ((pend ((fun loops retry t p => comp ⟨c.ens, loops, retry, t⟩ p n) :: gs)
        lo rt t p).app (Code.one last)) k →
      ∃ r'' p', Star I f P (.inl ⟨p, r', D, s1⟩) (.inl ⟨p', r'', D, s2⟩) ∧ Agree t r' r'' ∧
        Loc P p' ((pend gs lo rt t p').app (Code.one last)) k := by
    intro gs p r' lo rt t k last hgs hL
    rw [pend, app_assoc] at hL
    have hw : Within (p + (comp ⟨c.ens, lo, rt, t⟩ p n).len)
        ((pend gs lo rt t (p + (comp ⟨c.ens, lo, rt, t⟩ p n).len)).app (Code.one last)) :=
      within_app (pend_within hgs.within _ _ _ _) (within_one _ _)
    have h1 := loc_left' hL hw
    have h2 := loc_right hL (comp_within n ⟨c.ens, lo, rt, t⟩ p hE)
    obtain ⟨res', hs, r'', ha, rfl⟩ := hn true ⟨c.ens, lo, rt, t⟩ p k r' D hok
      (by intro h; cases h) (by rw [hne]; intro h; cases h) hE h1
    exact ⟨r'', _, hs, ha, h2⟩
  rcases ho with rfl | rfl | ⟨v, rfl⟩
  · cases hl : c.loops with
    | nil => exact .inl ⟨.inl rfl, .inl rfl⟩
    | cons l ls =>
      by_cases hd : l.depth ≤ c.ens.length
      · right
        obtain ⟨p, r', rt, t, k, ha, ht, rfl, hL⟩ := H l ls hl (by simp; omega)
        rw [leaving_cons _ hd] at hL
        obtain ⟨r'', p', hs, ha', hL'⟩ := key _ p r' _ rt t k _ (good_leaving hE l) hL
        refine ⟨_, hs, ?_⟩
        intro l' ls' hl' _
        rw [hl] at hl'
        cases hl'
        exact ⟨p', r'', rt, t, k, ha.trans (ha'.mono ht), ht, rfl, hL'⟩
      · exact .inl ⟨.inr ⟨l, ls, rfl, hd⟩, .inl rfl⟩
  · cases hl : c.loops with
    | nil => exact .inl ⟨.inl rfl, .inr rfl⟩
    | cons l ls =>
      by_cases hd : l.depth ≤ c.ens.length
      · right
        obtain ⟨p, r', rt, t, k, ha, ht, rfl, hL⟩ := H l ls hl (by simp; omega)
        rw [leaving_cons _ hd] at hL
        obtain ⟨r'', p', hs, ha', hL'⟩ := key _ p r' _ rt t k _ (good_leaving hE l) hL
        refine ⟨_, hs, ?_⟩
        intro l' ls' hl' _
        rw [hl] at hl'
        cases hl'
        exact ⟨p', r'', rt, t, k, ha.trans (ha'.mono ht), ht, rfl, hL'⟩
      · exact .inl ⟨.inr ⟨l, ls, rfl, hd⟩, .inr rfl⟩
  · right
    rcases H with ⟨p, r', lo, rt, t, k, j, ha, ht, rfl, hj, hv, hL⟩ | ⟨h, _⟩
    · obtain ⟨r'', p', hs, ha', hL'⟩ := key _ p r' lo rt t k _ hE hL
      refine ⟨_, hs, .inl ⟨p', r'', lo, rt, t, k, j, ha.trans (ha'.mono ht), ht, rfl, hj, ?_, hL'⟩⟩
      rw [ha' j hj, hv]
    · cases h

/-- When `Post` says nothing (a `break` outside a loop), any state will do. -/
theorem post_vacuous {c : Ctx} {u e hx hu r D o} {s' : σ} {res : Out2 σ}
    (h : (c.loops = [] ∨ (∃ l ls, c.loops = l :: ls ∧ ¬ l.depth ≤ c.ens.length)) ∧
      (o = .brk ∨ o = .nxt)) : Post I f P u c e hx hu r D o s' res := by
  obtain ⟨h, rfl | rfl⟩ := h <;>
  · intro l ls hl hd
    rcases h with h | ⟨l', ls', h, h'⟩
    · rw [h] at hl; cases hl
    · rw [h] at hl; cases hl; exact absurd hd h'

end Verif.Ensure
