import Verif.Marshal.Sim

/-! # Reading back sequences and immediates (helper lemmas) -/

namespace Verif.Marshal

theorem cat_nil {w : W} {bs : List UInt8} {w' : W} (h : cat [] w = some (bs, w')) : bs = [] ∧ w' = w := by
  simp only [cat, lit, Option.some.injEq, Prod.mk.injEq] at h
  exact ⟨h.1.symm, h.2.symm⟩

theorem cat_cons {f : Wr} {fs : List Wr} {w : W} {bs : List UInt8} {w' : W}
    (h : cat (f :: fs) w = some (bs, w')) :
    ∃ b w1 c, f w = some (b, w1) ∧ cat fs w1 = some (c, w') ∧ bs = b ++ c := by
  simp only [cat] at h
  split at h
  · simp at h
  · rename_i b w1 e
    split at h
    · simp at h
    · rename_i c w2 e2
      simp only [Option.some.injEq, Prod.mk.injEq] at h
      obtain ⟨h1, h2⟩ := h
      subst h1; subst h2
      exact ⟨b, w1, c, e, e2, rfl⟩

theorem cat_append {fs gs : List Wr} : ∀ {w : W} {bs : List UInt8} {w' : W},
    cat (fs ++ gs) w = some (bs, w') →
    ∃ b w1 c, cat fs w = some (b, w1) ∧ cat gs w1 = some (c, w') ∧ bs = b ++ c := by
  induction fs with
  | nil => intro w bs w' h; exact ⟨[], w, bs, rfl, h, rfl⟩
  | cons f fs ih =>
    intro w bs w' h
    obtain ⟨b, w1, c, h1, h2, h3⟩ := cat_cons h
    obtain ⟨b2, w2, c2, g1, g2, g3⟩ := ih h2
    refine ⟨b ++ b2, w2, c2, ?_, g2, by rw [h3, g3, List.append_assoc]⟩
    simp [cat, h1, g1]

theorem cat_one {f : Wr} {w : W} {bs : List UInt8} {w' : W} (h : cat [f] w = some (bs, w')) :
    f w = some (bs, w') := by
  obtain ⟨b, w1, c, h1, h2, h3⟩ := cat_cons h
  obtain ⟨h4, h5⟩ := cat_nil h2
  subst h4; subst h5
  rw [h1, h3, List.append_nil]

theorem lit_some {bs : List UInt8} {w : W} {b : List UInt8} {w' : W} (h : lit bs w = some (b, w')) :
    b = bs ∧ w' = w := by
  simp only [lit, Option.some.injEq, Prod.mk.injEq] at h
  exact ⟨h.1.symm, h.2.symm⟩

theorem symW_some {s : Sym} {w : W} {b : List UInt8} {w' : W} (h : symW s w = some (b, w')) :
    wSym s w.syms = (b, w'.syms) ∧ w' = { w with syms := w'.syms } := by
  unfold symW at h
  cases hx : wSym s w.syms with
  | mk x y =>
  rw [hx] at h
  simp only [Option.some.injEq, Prod.mk.injEq] at h
  obtain ⟨h1, h2⟩ := h
  subst h1; subst h2
  exact ⟨rfl, rfl⟩

/-! Every writer used for a value writes at least a byte. -/

/-- It writes at least a byte. -/
def Pos (f : Wr) : Prop := ∀ w bs w', f w = some (bs, w') → 1 ≤ bs.length

theorem Pos.lit (b : UInt8) (bs : List UInt8) : Pos (lit (b :: bs)) := by
  intro w bs w' h
  rw [(lit_some h).1]; simp

theorem Pos.lit' {bs : List UInt8} (h : 1 ≤ bs.length) : Pos (Marshal.lit bs) := by
  intro w bs w' h
  rw [(lit_some h).1]; assumption

theorem Pos.sym (s : Sym) : Pos (symW s) := by
  intro w bs w' h
  have := wSym_pos s w.syms
  rw [(symW_some h).1] at this
  exact this

theorem Pos.cat {f : Wr} {fs : List Wr} (hf : Pos f) (h : f ∈ fs) : Pos (cat fs) := by
  induction fs with
  | nil => simp at h
  | cons g fs ih =>
    intro w bs w' hw
    obtain ⟨b, w1, c, h1, h2, h3⟩ := cat_cons hw
    subst h3
    simp only [List.length_append]
    rcases List.mem_cons.mp h with e | e
    · subst e; have := hf _ _ _ h1; omega
    · have := ih e _ _ _ h2; omega

theorem Pos.slot {k : Val} {f : Wr} (hf : Pos f) : Pos (withSlot k f) := by
  intro w bs w' h
  unfold withSlot at h
  split at h
  · simp only [Option.some.injEq, Prod.mk.injEq] at h
    rw [← h.1]; simp
  · exact hf _ _ _ h

theorem Pos.none : Pos (fun _ => none) := by intro w bs w' h; simp at h

theorem Pos.wrapI {dv : Val → Wr} {o : Obj} {core : Wr} (h : Pos core) : Pos (wrapI dv o core) := by
  unfold Marshal.wrapI
  split
  · exact h.cat (by simp)
  · exact h.cat (by simp)

theorem Pos.wObj {E : Env} {dv : Val → Wr} {o : Obj} : Pos (wObj E dv o) := by
  unfold Marshal.wObj
  split
  · unfold wStr
    split
    · exact (Pos.lit _ _).wrapI
    · exact (Pos.lit 73 []).cat (by simp)
  · exact Pos.wrapI ((Pos.lit _ _).cat (List.mem_cons_self))
  · refine Pos.wrapI ?_
    unfold wHashCore
    rename_i ps d i _
    exact Pos.cat (f := Marshal.lit ((if d.isSome then 125 else 123) :: wLen ps.length)) (Pos.lit _ _)
      (by simp)
  · exact Pos.lit _ _
  · exact Pos.lit _ _
  · split
    · exact Pos.none
    · exact (Pos.lit 111 []).cat (by simp)
  · split
    · exact Pos.none
    · split
      · exact (Pos.lit 83 []).cat (by simp)
      · exact (Pos.lit 73 []).cat (by simp)
  · exact (Pos.lit 111 []).cat (by simp)
  · exact (Pos.lit 73 []).cat (by simp)

theorem Pos.dumpV {E : Env} {H : List Obj} (n : Nat) (v : Val) : Pos (dumpV E H n v) := by
  cases n with
  | zero => exact Pos.none
  | succ n =>
    cases v with
    | nil => exact Pos.lit _ _
    | tru => exact Pos.lit _ _
    | fls => exact Pos.lit _ _
    | fix k =>
      simp only [Marshal.dumpV]
      split
      · exact Pos.lit _ _
      · exact Pos.lit _ _
    | flo b => exact Pos.slot (Pos.lit _ _)
    | sym s => exact Pos.sym s
    | cls name =>
      simp only [Marshal.dumpV]
      refine Pos.slot ?_
      split
      · exact Pos.lit _ _
      · exact Pos.cat (Pos.lit _ _) List.mem_cons_self
    | ref a =>
      simp only [Marshal.dumpV]
      split
      · exact Pos.none
      · exact Pos.slot Pos.wObj

theorem cat_length {α : Type} {f : α → Wr} {l : List α} (hp : ∀ x ∈ l, Pos (f x)) :
    ∀ {w bs w'}, cat (l.map f) w = some (bs, w') → l.length ≤ bs.length := by
  induction l with
  | nil => intro w bs w' _; simp
  | cons x l ih =>
    intro w bs w' h
    obtain ⟨b, w1, c, h1, h2, h3⟩ := cat_cons h
    have := hp x (by simp) _ _ _ h1
    have := ih (fun y hy => hp y (by simp [hy])) h2
    subst h3
    simp only [List.length_append, List.length_cons]
    omega

/-! Readers that read back what a writer wrote. -/

/-- `m` reads back what `wr` writes, as `g`; the values in `vs` then have their slots. -/
def Rd (H : List Obj) {α : Type} (m : Nat → M α) (g : (Nat → Nat) → α) (vs : List Val)
    (wr : Wr) : Prop :=
  (∀ f f' : Nat → Nat, (∀ a, .ref a ∈ vs → f a = f' a) → g f = g f') ∧
  ∀ w bs w' f r rest F, wr w = some (bs, w') → Sim H f w r → r.inp = bs ++ rest → bs.length ≤ F →
    ∃ f' r', m F r = .ok (g f', r') ∧ r'.inp = rest ∧ Ext H none f w r f' w' r' ∧
      ∀ a, .ref a ∈ vs → .ref a ∈ w'.objs

variable {E : Env} {H : List Obj}

theorem Rd.pair {α β : Type} {m : Nat → M α} {k : Nat → M β} {g : (Nat → Nat) → α} {h : (Nat → Nat) → β}
    {vs us : List Val} {x y : Wr} (hm : Rd H m g vs x) (hk : Rd H k h us y) :
    Rd H (fun F => do let a ← m F; let b ← k F; pure (a, b)) (fun f => (g f, h f)) (vs ++ us)
      (cat [x, y]) := by
  refine ⟨fun f f' hf => Prod.ext (hm.1 f f' fun a ha => hf a (by simp [ha]))
    (hk.1 f f' fun a ha => hf a (by simp [ha])), ?_⟩
  intro w bs w' f r rest F hw hs hin hF
  obtain ⟨b, w1, c, h1, h2, h3⟩ := cat_cons hw
  have h2 := cat_one h2
  subst h3
  simp only [List.length_append] at hF
  obtain ⟨f1, r1, e1, i1, x1, v1⟩ := hm.2 w b w1 f r (c ++ rest) F h1 hs (by rw [hin, List.append_assoc])
    (by omega)
  obtain ⟨f2, r2, e2, i2, x2, v2⟩ := hk.2 w1 c w' f1 r1 rest F h2 x1.sim i1 (by omega)
  refine ⟨f2, r2, ?_, i2, x1.trans x2, ?_⟩
  · show (m F >>= fun a => k F >>= fun b => pure (a, b)) r = .ok ((g f2, h f2), r2)
    rw [bind_ok e1, bind_ok e2, pure_eq, hm.1 f1 f2 fun a ha => (x2.agree a (v1 a ha)).symm]
  · intro a ha
    rcases List.mem_append.mp ha with ha | ha
    · exact x2.sub _ (v1 a ha)
    · exact v2 a ha

theorem Rd.times {α γ : Type} {m : Nat → M α} {g : γ → (Nat → Nat) → α} {vs : γ → List Val} {wr : γ → Wr}
    {l : List γ} (hm : ∀ x ∈ l, Rd H m (g x) (vs x) (wr x)) :
    Rd H (fun F => times (m F) l.length) (fun f => l.map fun x => g x f) (l.flatMap vs)
      (cat (l.map wr)) := by
  refine ⟨fun f f' hf => List.map_congr_left fun x hx => (hm x hx).1 f f' fun a ha =>
    hf a (List.mem_flatMap.mpr ⟨x, hx, ha⟩), ?_⟩
  induction l with
  | nil =>
    intro w bs w' f r rest F hw hs hin hF
    obtain ⟨h1, h2⟩ := cat_nil hw
    subst h1; subst h2
    exact ⟨f, r, rfl, hin, Ext.refl hs, by simp⟩
  | cons x l ih =>
    intro w bs w' f r rest F hw hs hin hF
    obtain ⟨b, w1, c, h1, h2, h3⟩ := cat_cons hw
    subst h3
    simp only [List.length_append] at hF
    have hx := hm x (by simp)
    obtain ⟨f1, r1, e1, i1, x1, v1⟩ := hx.2 w b w1 f r (c ++ rest) F h1 hs
      (by rw [hin, List.append_assoc]) (by omega)
    obtain ⟨f2, r2, e2, i2, x2, v2⟩ := ih (fun y hy => hm y (by simp [hy])) w1 c w' f1 r1 rest F h2 x1.sim i1
      (by omega)
    refine ⟨f2, r2, ?_, i2, x1.trans x2, ?_⟩
    · show (m F >>= fun a => Marshal.times (m F) l.length >>= fun as => pure (a :: as)) r = _
      rw [bind_ok e1, bind_ok e2, pure_eq, hx.1 f1 f2 fun a ha => (x2.agree a (v1 a ha)).symm]
      rfl
    · intro a ha
      simp only [List.flatMap_cons, List.mem_append] at ha
      rcases ha with ha | ha
      · exact x2.sub _ (v1 a ha)
      · exact v2 a ha

/-- A value. -/
abbrev RdV (E : Env) (H : List Obj) (v : Val) (wr : Wr) : Prop :=
  Rd H (fun F => readV E F) (fun f => v.map f) [v] wr

theorem wSym_length {s : Sym} {syms syms' : List Sym} {bs : List UInt8} (h : wSym s syms = (bs, syms')) :
    syms'.length ≤ syms.length + bs.length := by
  unfold wSym at h
  split at h
  · simp only [Prod.mk.injEq] at h; rw [← h.2]; omega
  · split at h
    · simp only [Prod.mk.injEq] at h; rw [← h.2, ← h.1]; simp
    · have hp : ∀ e l, (wEncPair e l).2.length ≤ l.length + 1 := by
        intro e l
        have hq : ∀ s l, (wSymAscii s l).2.length ≤ l.length + 1 := by
          intro s l; unfold wSymAscii; split <;> simp
        unfold wEncPair
        split
        · exact hq _ _
        · exact hq _ _
      have := hp s.enc (syms ++ [s])
      simp only [Prod.mk.injEq] at h
      rw [← h.2, ← h.1]
      simp only [List.length_append, List.length_cons, List.length_nil] at this ⊢
      omega

theorem RdV.sym {s : Sym} (hg : GoodSym s) : RdV E H (.sym s) (symW s) := by
  refine ⟨fun _ _ _ => rfl, ?_⟩
  intro w bs w' f r rest F hw hs hin hF
  obtain ⟨h1, h2⟩ := symW_some hw
  have hp := Pos.sym s _ _ _ hw
  obtain ⟨F, rfl⟩ : ∃ k, F = k + 1 := ⟨F - 1, by omega⟩
  rw [← hs.syms] at h1
  have hl := wSym_length h1
  refine ⟨f, _, (rd_sym E F h1 hg hin (by rw [hs.syms]; exact hs.nsym) hs.sized).1, rfl, ?_, by simp⟩
  rw [h2]
  exact Ext.adv hs hin (by have := hs.nsym; rw [← hs.syms] at this; omega)

theorem Rd.symbol {s : Sym} (hg : GoodSym s) :
    Rd H (fun F => readSymbol E (readV E F)) (fun _ => s) [] (symW s) := by
  refine ⟨fun _ _ _ => rfl, ?_⟩
  intro w bs w' f r rest F hw hs hin hF
  obtain ⟨h1, h2⟩ := symW_some hw
  have hp := Pos.sym s _ _ _ hw
  obtain ⟨F, rfl⟩ : ∃ k, F = k + 1 := ⟨F - 1, by omega⟩
  rw [← hs.syms] at h1
  have hl := wSym_length h1
  refine ⟨f, _, (rd_sym E F h1 hg hin (by rw [hs.syms]; exact hs.nsym) hs.sized).2, rfl, ?_, by simp⟩
  rw [h2]
  exact Ext.adv hs hin (by have := hs.nsym; rw [← hs.syms] at this; omega)

/-- A length. -/
theorem Rd.len {k : Nat} (hk : k < 2 ^ 31) :
    Rd H (fun _ => readLen) (fun _ => k) [] (lit (wLen k)) := by
  refine ⟨fun _ _ _ => rfl, ?_⟩
  intro w bs w' f r rest F hw hs hin hF
  obtain ⟨h1, h2⟩ := lit_some hw
  subst h1; subst h2
  exact ⟨f, _, rd_len hin hk hs.sized, rfl, Ext.adv' hs hin, by simp⟩

/-- A value whose writer begins with a tag. -/
theorem RdV.tag {v : Val} {t : UInt8} {bs : List UInt8} {m : M Val}
    (ha : ∀ rv, act E rv t.toNat = m)
    (hv : ∀ f, v.map f = v)
    (hm : ∀ r rest, r.inp = bs ++ rest → Sized r → m r = .ok (v, adv r bs rest r.syms)) :
    RdV E H v (lit (t :: bs)) := by
  refine ⟨fun f f' _ => by simp only [hv], ?_⟩
  intro w bs' w' f r rest F hw hs hin hF
  obtain ⟨h1, h2⟩ := lit_some hw
  subst h1; subst h2
  obtain ⟨F, rfl⟩ : ∃ k, F = k + 1 := ⟨F - 1, by simp at hF; omega⟩
  have hin' : r.inp = t :: (bs ++ rest) := by simpa using hin
  refine ⟨f, adv r (t :: bs) rest r.syms, ?_, rfl, Ext.adv' hs hin, ?_⟩
  · show readV E (F + 1) r = .ok (v.map f, _)
    rw [readV_act E F hin', ha, hv, hm (adv r [t] (bs ++ rest) r.syms) rest rfl (hs.sized.adv1 hin' _),
      adv_adv]
    rfl
  · intro a h
    simp only [List.mem_singleton] at h
    have := hv (fun n => n + 1)
    rw [← h] at this
    simp [Val.map] at this

theorem RdV.fix {k : Int} (h1 : -(2 ^ 31) ≤ k) (h2 : k < 2 ^ 31) : RdV E H (.fix k) (lit (105 :: wFix k)) := by
  refine RdV.tag (m := do let n ← readFix; pure (.fix n)) (fun _ => rfl) (fun _ => rfl) ?_
  intro r rest hin hB
  rw [bind_ok (rd_fix hin h1 h2 hB), pure_eq]

theorem RdV.imm {v : Val} {t : UInt8} (hv : ∀ f, v.map f = v) (ha : ∀ rv, act E rv t.toNat = pure v) :
    RdV E H v (lit [t]) := by
  refine RdV.tag (m := pure v) ha hv ?_
  intro r rest hin hB
  rw [pure_eq]
  simp only [adv, List.length_nil, Nat.add_zero]
  rw [List.nil_append] at hin
  rw [← hin]

theorem RdV.nil : RdV E H .nil (lit [48]) := RdV.imm (fun _ => rfl) fun _ => rfl
theorem RdV.tru : RdV E H .tru (lit [84]) := RdV.imm (fun _ => rfl) fun _ => rfl
theorem RdV.fls : RdV E H .fls (lit [70]) := RdV.imm (fun _ => rfl) fun _ => rfl

/-- A link. -/
theorem rd_link {v : Val} {w : W} {f : Nat → Nat} {r : RS} {rest : List UInt8} {i F : Nat}
    (hi : w.objs.idxOf? v = some i) (hs : Sim H f w r) (hin : r.inp = 64 :: wLen i ++ rest)
    (hF : (64 :: wLen i).length ≤ F) :
    ∃ f' r', readV E F r = .ok (v.map f', r') ∧ r'.inp = rest ∧ Ext H none f w r f' w r' ∧
      ∀ a, .ref a ∈ [v] → .ref a ∈ w.objs := by
  obtain ⟨F, rfl⟩ : ∃ k, F = k + 1 := ⟨F - 1, by simp at hF; omega⟩
  obtain ⟨g1, g2⟩ := idxOf?_some hi
  have hin' : r.inp = 64 :: (wLen i ++ rest) := by simpa using hin
  refine ⟨f, adv r (64 :: wLen i) rest r.syms, ?_, rfl, Ext.adv' hs hin, ?_⟩
  · rw [readV_act E F hin']
    show getObj _ = _
    unfold getObj
    have hB := hs.sized.adv1 hin' r.syms
    have := hs.nobj
    have := hs.sized.len (bs := [64]) hin'
    rw [bind_ok (rd_len (r := adv r [64] _ _) rfl (by omega) hB), adv_adv]
    simp only [adv_objs, hs.objs, List.getElem?_map, g1, Option.map_some]
    rfl
  · intro a ha
    simp only [List.mem_singleton] at ha
    rw [ha]
    exact List.mem_of_getElem? g1

/-- Take a slot for an immediate. -/
theorem Ext.push {f : Nat → Nat} {w : W} {r : RS} (h : Sim H f w r) {v : Val} (hv : ∀ a, v ≠ .ref a)
    (hp : w.objs.length + 1 ≤ r.pos) :
    Ext H none f w r f { w with objs := w.objs ++ [v] } { r with objs := r.objs ++ [v] } where
  sim :=
    { syms := h.syms
      objs := by
        simp only [List.map_append, h.objs, List.map_cons, List.map_nil]
        congr 2
        cases v <;> first | rfl | exact absurd rfl (hv _)
      lt := fun a ha => h.lt a (by
        simp only [List.mem_append, List.mem_singleton] at ha
        exact ha.resolve_right fun e => hv a e.symm)
      inj := fun a b ha hb => by
        simp only [List.mem_append, List.mem_singleton] at ha hb
        exact h.inj a b (ha.resolve_right fun e => hv a e.symm) (hb.resolve_right fun e => hv b e.symm)
      nsym := h.nsym
      nobj := by simpa using hp
      sized := h.sized
      strs := fun a o bs e ha => h.strs a o bs e (by
        simp only [List.mem_append, List.mem_singleton] at ha
        exact ha.resolve_right fun e => hv a e.symm) }
  sub := fun v hv => by simp [hv]
  agree := fun _ _ => rfl
  frame := fun _ _ => rfl
  mono := Nat.le_refl _
  done := fun a ha hn _ => by
    simp only [List.mem_append, List.mem_singleton] at ha
    exact absurd (ha.resolve_right fun e => hv a e.symm) hn

/-- An immediate with a slot. -/
theorem RdV.slot {v : Val} {t : UInt8} {bs : List UInt8} {m : M Val}
    (ha : ∀ rv, act E rv t.toNat = m)
    (hv : ∀ a, v ≠ .ref a)
    (hm : ∀ r rest, r.inp = bs ++ rest → Sized r →
      m r = .ok (v, { adv r bs rest r.syms with objs := r.objs ++ [v] })) :
    RdV E H v (withSlot v (lit (t :: bs))) := by
  have hvf : ∀ f : Nat → Nat, v.map f = v := by
    intro f; cases v <;> first | rfl | exact absurd rfl (hv _)
  refine ⟨fun f f' _ => by simp only [hvf], ?_⟩
  intro w bs' w' f r rest F hw hs hin hF
  unfold withSlot at hw
  split at hw
  · rename_i i hi
    simp only [Option.some.injEq, Prod.mk.injEq] at hw
    obtain ⟨h1, h2⟩ := hw
    subst h1; subst h2
    exact rd_link hi hs hin hF
  · obtain ⟨h1, h2⟩ := lit_some hw
    subst h1; subst h2
    obtain ⟨F, rfl⟩ : ∃ k, F = k + 1 := ⟨F - 1, by simp at hF; omega⟩
    have hin' : r.inp = t :: (bs ++ rest) := by simpa using hin
    refine ⟨f, { adv r (t :: bs) rest r.syms with objs := r.objs ++ [v] }, ?_, rfl, ?_, ?_⟩
    · show readV E (F + 1) r = .ok (v.map f, _)
      rw [readV_act E F hin', ha, hvf, hm (adv r [t] (bs ++ rest) r.syms) rest rfl (hs.sized.adv1 hin' _),
        adv_adv]
      rfl
    · have x1 := Ext.adv' hs hin
      refine x1.trans (Ext.push x1.sim hv ?_)
      have := hs.nobj
      simp only [adv_pos, List.length_cons]
      omega
    · intro a h
      simp only [List.mem_singleton] at h
      exact absurd h.symm (hv a)

end Verif.Marshal
