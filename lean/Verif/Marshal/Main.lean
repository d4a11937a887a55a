import Verif.Marshal.Good

/-! # The round trip (helper lemmas) -/

namespace Verif.Marshal

variable {E : Env} {H : List Obj}

theorem RdC.congr {a : Nat} {o : Obj} {c d : Wr} (h : RdC E H a o c) (he : ∀ w, d w = c w) : RdC E H a o d := by
  intro w bs w' f r rest F ha hw
  rw [he] at hw
  exact h w bs w' f r rest F ha hw

theorem cat_single (c : Wr) (w : W) : cat [c] w = c w := by
  simp only [cat, lit]
  cases c w with
  | none => rfl
  | some p => simp

theorem RdC.exts {a : Nat} {o : Obj} {fs : List Wr} (h : RdC E H a o (cat fs)) (ho : o.ext = [])
    (l : List Sym) (hnd : l.Nodup) (hl : ∀ m ∈ l, GoodSym m ∧ E.kind m.bytes = some .module) :
    RdC E H a { o with ext := l } (cat (l.map (fun m => cat [lit [101], symW m]) ++ fs)) := by
  induction l with
  | nil =>
    have : { o with ext := [] } = o := by rw [← ho]
    rw [this]; exact h
  | cons m l ih =>
    rw [List.nodup_cons] at hnd
    have := RdC.ext (ih hnd.2 fun x hx => hl x (by simp [hx])) (hl m (by simp)).1 (hl m (by simp)).2 hnd.1
    exact this

theorem RdC.head {a : Nat} {o : Obj} {b : Body} {core : Wr} (h : RdC E H a { body := b } core)
    (hg : GoodHead E o) :
    RdC E H a { body := b, cls := o.cls, ext := o.ext } (cat (wHead o ++ [core])) := by
  obtain ⟨h1, h2, h3⟩ := hg
  have h0 : RdC E H a { body := b } (cat [core]) := h.congr (cat_single core)
  unfold wHead
  rw [List.append_assoc]
  cases hc : o.cls with
  | none => exact RdC.exts (o := { body := b }) h0 rfl o.ext h1 h2
  | some c =>
    obtain ⟨q1, q2, q3⟩ := h3 c hc
    exact RdC.exts (o := { body := b, cls := some c }) (RdC.cls h0 q1 q2 q3) rfl o.ext h1 h2

theorem Starts.head {o : Obj} {core : Wr} (h : Starts core) : Starts (Marshal.cat (wHead o ++ [core])) := by
  have h1 : Starts (Marshal.cat [core]) := h.cat
  have h2 : ∀ (t : UInt8) (s : Sym), (t.toNat ≠ 34 ∧ t.toNat ≠ 58 ∧ t.toNat ≠ 117) →
      Starts (Marshal.cat [Marshal.lit [t], symW s]) := fun t s ht => (Starts.lit ht).cat
  unfold wHead
  cases he : o.ext with
  | nil =>
    cases hc : o.cls with
    | none => exact h1
    | some c => exact (h2 67 c (by decide)).cat
  | cons m l => exact (h2 101 m (by decide)).cat

theorem RdC.wrap {a : Nat} {o : Obj} {core : Wr} {dv : Val → Wr} (h : RdC E H a { body := o.body } core)
    (hst : Starts core) (hg : GoodHead E o) (hi : GoodIvars o)
    (hv : ∀ p ∈ o.ivars, RdV E H p.2 (dv p.2)) : RdC E H a o (wrapI dv o core) := by
  unfold wrapI
  split
  · rename_i he
    have := h.head hg
    have ho : ({ body := o.body, cls := o.cls, ext := o.ext } : Obj) = o := by
      obtain ⟨b, c, e, i⟩ := o
      simp only at he
      subst he; rfl
    rw [ho] at this
    exact this
  · rename_i hne
    refine RdC.ivars (o := { body := o.body, cls := o.cls, ext := o.ext }) (h.head hg) hst.head rfl hne
      (fun p hp => (hi.2 p hp).1) hv hi.1 (fun p hp => (hi.2 p hp).2) (fun w => ?_)
    simp

theorem plain_eq {o : Obj} (h : Plain o) : o = { body := o.body } := by
  obtain ⟨b, c, e, i⟩ := o
  obtain ⟨h1, h2, h3⟩ := h
  simp only at h1 h2 h3
  subst h1; subst h2; subst h3
  rfl

theorem Starts.hash {dv : Val → Wr} {ps : List (Val × Val)} {d : Option Val} {i : Bool} :
    Starts (wHashCore dv ps d i) := by
  unfold wHashCore
  cases i with
  | true => exact Starts.cat (Starts.lit (by decide))
  | false =>
    cases d with
    | none => exact Starts.cat (Starts.lit (by decide))
    | some v => exact Starts.cat (Starts.lit (t := 125) (by decide))

/-- Every good object is read back. -/
theorem RdC.all {a : Nat} {o : Obj} {n : Nat} (ho : H[a]? = some o) (hg : GoodObj E H o)
    (hv : ∀ v ∈ o.vals, RdV E H v (dumpV E H n v)) : RdC E H a o (wObj E (dumpV E H n) o) := by
  have hiv : ∀ p ∈ o.ivars, RdV E H p.2 (dumpV E H n p.2) := fun p hp => hv p.2 (by
    simp only [Obj.vals, List.mem_append, List.mem_map]; exact .inr ⟨p, hp, rfl⟩)
  have hbv : ∀ v ∈ o.body.vals, RdV E H v (dumpV E H n v) := fun v hb => hv v (by
    simp only [Obj.vals, List.mem_append]; exact .inl hb)
  have hns : (∀ bs e, o.body ≠ .str bs e) → NotStr H a := by
    intro h o1 bs e h1
    rw [ho] at h1
    simp only [Option.some.injEq] at h1
    rw [← h1]; exact h bs e
  unfold GoodObj at hg
  unfold wObj
  cases hb : o.body with
  | str bs e =>
    rw [hb] at hg
    simp only at hg ⊢
    have hstr : ∀ o1 b e', H[a]? = some o1 → o1.body = .str b e' → Body.str bs e = .str b e' := by
      intro o1 b e' h1 h2
      rw [ho] at h1
      simp only [Option.some.injEq] at h1
      rw [← h1, hb] at h2; exact h2
    obtain ⟨hi, ⟨he, hh⟩ | ⟨he, hc, hx⟩⟩ := hg
    · subst he
      unfold wStr wrapI
      rw [if_pos rfl, if_pos hi]
      have := (RdC.str (E := E) (H := H) (a := a) (bs := bs) hstr).head hh
      have h2 : ({ body := .str bs .binary, cls := o.cls, ext := o.ext } : Obj) = o := by
        obtain ⟨b, c, e, i⟩ := o
        simp only at hi hb
        subst hi; subst hb; rfl
      rw [h2] at this
      exact this
    · unfold wStr
      rw [if_neg (by rcases he with he | he <;> simp [he])]
      have h1 := RdC.strI (E := E) (H := H) (a := a) (bs := bs) he hstr
      have h2 : ({ body := .str bs e } : Obj) = o := by
        rw [← hb]; exact (plain_eq ⟨hc, hx, hi⟩).symm
      rw [h2] at h1
      refine h1.congr fun w => ?_
      simp [wHead, hc, hx, hi, wPairs]
  | arr vs =>
    rw [hb] at hg hbv
    simp only at hg ⊢
    refine RdC.wrap ?_ (Starts.cat (Starts.lit (by decide))) hg.1 hg.2 hiv
    rw [hb]
    exact RdC.arr (hns (by simp [hb])) hbv (fun v _ => Pos.dumpV n v)
  | hash ps d i =>
    rw [hb] at hg hbv
    simp only at hg ⊢
    obtain ⟨g1, g2, g3, g4, g5, g6⟩ := hg
    refine RdC.wrap ?_ Starts.hash g1 g2 hiv
    rw [hb]
    have h0 : RdC E H a { body := .hash ps d false } (wHashCore (dumpV E H n) ps d false) :=
      RdC.hash (hns (by simp [hb])) g3 g4 g5 hbv (fun v => Pos.dumpV n v)
    cases i with
    | false => exact h0
    | true =>
      exact (RdC.byId (h0.congr (cat_single _)) (g6 rfl) rfl (hns (by simp [hb]))).congr
        fun w => hashCore_byId w
  | big k =>
    rw [hb] at hg
    simp only at hg ⊢
    rw [plain_eq hg.1, hb]
    exact RdC.big (hns (by simp [hb])) hg.2
  | float x =>
    rw [hb] at hg
    simp only at hg ⊢
    rw [plain_eq hg.1, hb]
    exact RdC.float (hns (by simp [hb])) hg.2.1 hg.2.2.1 hg.2.2.2
  | obj =>
    rw [hb] at hg
    simp only at hg ⊢
    obtain ⟨c, hc, g1, g2, g3, g4, g5, g6, g7⟩ := hg
    rw [hc]
    simp only
    have := RdC.exts (RdC.obj (E := E) (H := H) (a := a) (ps := o.ivars) (dv := dumpV E H n)
      (hns (by simp [hb])) g1 g2 rfl g3 g7 hiv g6) rfl o.ext g4 g5
    have h2 : ({ body := .obj, cls := some c, ivars := o.ivars, ext := o.ext } : Obj) = o := by
      rw [← hc, ← hb]
    rw [h2] at this
    exact this
  | struct ms =>
    rw [hb] at hg hbv
    simp only at hg ⊢
    obtain ⟨c, hc, g1, g2, g3, g4, g5, g6⟩ := hg
    rw [hc]
    simp only
    have h1 := RdC.exts (RdC.struct (E := E) (H := H) (a := a) (ps := ms) (dv := dumpV E H n)
      (hns (by simp [hb])) g1 g2 g3 (fun p hp => hbv p.2 (by
        simp only [Body.vals, List.mem_map]; exact ⟨p, hp, rfl⟩))) rfl o.ext g4 g5
    split
    · rename_i hi
      have h2 : ({ body := .struct ms, cls := some c, ext := o.ext } : Obj) = o := by
        rw [← hc, ← hb]
        obtain ⟨b, c, e, i⟩ := o
        simp only at hi
        subst hi; rfl
      rw [h2] at h1
      simpa using h1
    · rename_i hne
      have h2 : ({ body := .struct ms, cls := some c, ext := o.ext, ivars := o.ivars } : Obj) = o := by
        rw [← hc, ← hb]
      rw [← h2]
      refine RdC.ivars (o := { body := .struct ms, cls := some c, ext := o.ext }) (h1.congr (d := cat [_]) (cat_single _))
        ?_ rfl hne (fun p hp => (g6.2 p hp).1) hiv g6.1 (fun p hp => (g6.2 p hp).2) (fun w => ?_)
      · refine Starts.cat ?_
        cases he : o.ext with
        | nil => exact Starts.cat (Starts.lit (by decide))
        | cons m l => exact Starts.cat (Starts.cat (Starts.lit (by decide)))
      · simp
  | range x y z =>
    rw [hb] at hg hbv
    simp only at hg ⊢
    obtain ⟨g1, g2, g3, g4⟩ := hg
    rw [plain_eq g1, hb]
    obtain ⟨k, hk⟩ := Option.ne_none_iff_exists'.mp g4
    cases n with
    | zero =>
      intro w bs w' f r rest F ha hw
      simp [wRange, cat, dumpV, lit, symW] at hw
    | succ n =>
      exact RdC.range (hns (by simp [hb])) hk rfl rfl g2 g3 (hbv x (by simp [Body.vals]))
        (hbv y (by simp [Body.vals])) (Leafy.dumpV g2 _) (Leafy.dumpV g3 _)
  | regexp x y z =>
    rw [hb] at hg
    exact absurd hg (by simp)

/-- Every value is read back. -/
theorem RdV.all (n : Nat) : ∀ v, Fine E H v → RdV E H v (dumpV E H n v) := by
  induction n with
  | zero =>
    intro v _
    refine ⟨fun f f' h => Val.map_congr fun a ha => h a (by simp [ha]), ?_⟩
    intro w bs w' f r rest F hw
    simp [dumpV] at hw
  | succ n ih =>
    intro v hf
    cases v with
    | nil => exact RdV.nil
    | tru => exact RdV.tru
    | fls => exact RdV.fls
    | fix k =>
      have := hf.1
      simp only [GoodVal] at this
      simp only [dumpV, if_pos this]
      exact RdV.fix (by omega) (by omega)
    | flo b => exact RdV.flo hf.1.1 hf.1.2.1 hf.1.2.2
    | sym s => exact RdV.sym hf.1
    | cls name =>
      obtain ⟨k, hk⟩ := Option.ne_none_iff_exists'.mp hf.1.1
      exact RdV.cls hk hf.1.2
    | ref a =>
      obtain ⟨o, ho, hg, hs⟩ := hf.sub
      refine ⟨fun f f' h => Val.map_congr fun a ha => h a (by simp [ha]), ?_⟩
      intro w bs w' f r rest F hw hsim hin hF
      simp only [dumpV, ho] at hw
      unfold withSlot at hw
      split at hw
      · rename_i i hi
        simp only [Option.some.injEq, Prod.mk.injEq] at hw
        obtain ⟨h1, h2⟩ := hw
        subst h1; subst h2
        exact rd_link hi hsim hin hF
      · rename_i hi
        obtain ⟨f', r', e1, i1, o1⟩ := RdC.all ho hg (fun u hu => ih u (hs u hu)) w bs w' f r rest F
          (idxOf?_none hi) hw hsim hin hF
        refine ⟨f', r', e1, i1, o1.close ho, ?_⟩
        intro b hb
        simp only [List.mem_singleton] at hb
        rw [hb]; exact o1.mem

theorem reach_mem {w : W} {f : Nat → Nat} {r : RS} (hd : ∀ a, .ref a ∈ w.objs → Done H f w r a) {v : Val} {a : Nat}
    (h : Reach H v a) : (∀ b, v = .ref b → .ref b ∈ w.objs) → .ref a ∈ w.objs := by
  induction h with
  | here a => intro h; exact h a rfl
  | step h1 hu _ ih =>
    intro h
    refine ih ?_
    intro c hc
    obtain ⟨o', q1, -, q3⟩ := hd _ (h _ rfl)
    rw [h1] at q1
    simp only [Option.some.injEq] at q1
    subst q1; subst hc
    exact q3 c hu

theorem start_sim {b : List UInt8} (hl : b.length + 2 < 2 ^ 31) : Sim H id {} { inp := b } :=
  { syms := rfl
    objs := rfl
    lt := by simp
    inj := by simp
    nsym := Nat.le_refl _
    nobj := Nat.le_refl _
    sized := by unfold Sized; simp only; omega
    strs := by simp }

theorem roundtrip_read {v : Val} (hf : Fine E H v) {n : Nat} {b : List UInt8} {w' : W}
    (hx : dumpV E H n v {} = some (b, w')) (hl : b.length + 2 < 2 ^ 31) :
    ∃ f r, readV E (b.length + 1) { inp := b } = .ok (v.map f, r) ∧ r.inp = [] := by
  obtain ⟨f, r, e1, i1, -⟩ := (RdV.all n v hf).2 {} b w' id _ [] (b.length + 1) hx (start_sim hl)
    (by simp) (by omega)
  exact ⟨f, r, e1, i1⟩

theorem roundtrip {v : Val} (hf : Fine E H v) {bs : List UInt8} (hd : dump E H v = some bs)
    (hl : bs.length < 2 ^ 31) : ∃ v' H', load E bs = .ok (v', H') ∧ Copy H v H' v' := by
  unfold dump at hd
  cases hx : dumpV E H (H.length + 2) v {} with
  | none => rw [hx] at hd; simp at hd
  | some p =>
    obtain ⟨b, w'⟩ := p
    rw [hx] at hd
    simp only [Option.some.injEq] at hd
    subst hd
    simp only [List.length_cons] at hl
    have hs : Sim H id {} { inp := b } := start_sim (by omega)
    obtain ⟨f, r, e1, i1, x1, m1⟩ := (RdV.all (H.length + 2) v hf).2 {} b w' id _ [] (b.length + 1) hx hs
      (by simp) (by omega)
    refine ⟨v.map f, r.heap, ?_, f, ?_, rfl, ?_⟩
    · have e1' : readV E (b.length + 1) { inp := b } = .ok (v.map f, r) := e1
      simp only [load, e1']
    · have hd : ∀ a, .ref a ∈ w'.objs → Done H f w' r a := fun a ha => x1.done a ha (by simp) (by simp)
      have hv : ∀ b, v = .ref b → .ref b ∈ w'.objs := fun b hb => m1 b (by simp [hb])
      intro a c ha hc he
      exact x1.sim.inj a c (reach_mem hd ha hv) (reach_mem hd hc hv) he
    · have hd : ∀ a, .ref a ∈ w'.objs → Done H f w' r a := fun a ha => x1.done a ha (by simp) (by simp)
      have hv : ∀ b, v = .ref b → .ref b ∈ w'.objs := fun b hb => m1 b (by simp [hb])
      intro a ha
      obtain ⟨o, q1, q2, -⟩ := hd a (reach_mem hd ha hv)
      exact ⟨o, q1, q2⟩

/-! Every good value can be dumped. -/

/-- How many objects have no slot yet. -/
def left (H : List Obj) (w : W) : Nat := (List.range H.length).countP fun a => decide (.ref a ∉ w.objs)

/-- It writes whenever at most `k` objects are left. -/
def Tot (H : List Obj) (k : Nat) (wr : Wr) : Prop :=
  ∀ w, left H w ≤ k → ∃ bs w', wr w = some (bs, w') ∧ left H w' ≤ k

theorem Tot.lit {k : Nat} (bs : List UInt8) : Tot H k (lit bs) := fun w h => ⟨bs, w, rfl, h⟩

theorem Tot.sym {k : Nat} (s : Sym) : Tot H k (symW s) := fun _ h => ⟨_, _, rfl, h⟩

theorem Tot.enc {k : Nat} (e : Enc) : Tot H k (encW e) := fun _ h => ⟨_, _, rfl, h⟩

theorem Tot.cat {k : Nat} {fs : List Wr} (h : ∀ f ∈ fs, Tot H k f) : Tot H k (cat fs) := by
  induction fs with
  | nil => exact Tot.lit []
  | cons f fs ih =>
    intro w hw
    obtain ⟨b, w1, e1, h1⟩ := h f (by simp) w hw
    obtain ⟨c, w2, e2, h2⟩ := ih (fun g hg => h g (by simp [hg])) w1 h1
    exact ⟨b ++ c, w2, by simp [Marshal.cat, e1, e2], h2⟩

theorem left_append (w : W) (v : Val) : left H { w with objs := w.objs ++ [v] } ≤ left H w := by
  unfold left
  refine List.countP_mono_left fun a _ h => ?_
  simp only [decide_eq_true_eq, List.mem_append, not_or] at h ⊢
  exact h.1

theorem left_reg {w : W} {a : Nat} (ha : a < H.length) (hn : .ref a ∉ w.objs) :
    left H (w.reg a) + 1 ≤ left H w := by
  unfold left
  have hmem : a ∈ List.range H.length := List.mem_range.mpr ha
  generalize List.range H.length = l at hmem
  have hle : ∀ l : List Nat, (l.countP fun b => decide (.ref b ∉ (w.reg a).objs)) ≤
      l.countP fun b => decide (.ref b ∉ w.objs) := by
    intro l
    refine List.countP_mono_left fun b _ h => ?_
    simp only [W.reg, decide_eq_true_eq, List.mem_append, not_or] at h ⊢
    exact h.1
  induction l with
  | nil => simp at hmem
  | cons b l ih =>
    simp only [List.countP_cons]
    by_cases e : b = a
    · subst e
      have := hle l
      have h1 : decide (.ref b ∉ (w.reg b).objs) = false := by simp [W.reg]
      have h2 : decide (.ref b ∉ w.objs) = true := by simpa using hn
      rw [h1, h2]
      simp only [Bool.false_eq_true, if_false, if_true]
      omega
    · have h3 := ih (by simpa [Ne.symm e] using hmem)
      have h1 : decide (.ref b ∉ (w.reg a).objs) = decide (.ref b ∉ w.objs) := by simp [W.reg, e]
      rw [h1]
      omega

theorem Tot.slot {k : Nat} {v : Val} {wr : Wr} (h : Tot H k wr) : Tot H k (withSlot v wr) := by
  intro w hw
  unfold withSlot
  split
  · exact ⟨_, _, rfl, hw⟩
  · exact h _ (Nat.le_trans (left_append w v) hw)

theorem Tot.pairs {k : Nat} {dv : Val → Wr} {ps : List (Sym × Val)} (h : ∀ p ∈ ps, Tot H k (dv p.2)) :
    ∀ f ∈ wPairs dv ps, Tot H k f := by
  intro f hf
  simp only [wPairs, List.mem_map] at hf
  obtain ⟨p, hp, rfl⟩ := hf
  refine Tot.cat fun g hg => ?_
  simp only [List.mem_cons, List.not_mem_nil, or_false] at hg
  rcases hg with rfl | rfl
  · exact Tot.sym _
  · exact h p hp

theorem Tot.ivars {k : Nat} {dv : Val → Wr} {ps : List (Sym × Val)} (h : ∀ p ∈ ps, Tot H k (dv p.2)) :
    Tot H k (wIvars dv ps) := by
  refine Tot.cat fun g hg => ?_
  rcases List.mem_cons.mp hg with rfl | hg
  · exact Tot.lit _
  · exact Tot.pairs h g hg

theorem Tot.tagSym {k : Nat} (t : UInt8) (s : Sym) : Tot H k (Marshal.cat [Marshal.lit [t], symW s]) := by
  refine Tot.cat fun g hg => ?_
  simp only [List.mem_cons, List.not_mem_nil, or_false] at hg
  rcases hg with rfl | rfl
  · exact Tot.lit _
  · exact Tot.sym _

theorem Tot.exts {k : Nat} {l : List Sym} :
    ∀ f ∈ l.map (fun m => Marshal.cat [Marshal.lit [101], symW m]), Tot H k f := by
  intro f hf
  simp only [List.mem_map] at hf
  obtain ⟨m, -, rfl⟩ := hf
  exact Tot.tagSym _ _

theorem Tot.heads {k : Nat} {o : Obj} : ∀ f ∈ wHead o, Tot H k f := by
  intro f hf
  unfold wHead at hf
  rcases List.mem_append.mp hf with hf | hf
  · exact Tot.exts f hf
  · cases hc : o.cls with
    | none => simp [hc] at hf
    | some c =>
      rw [hc] at hf
      simp only [List.mem_singleton] at hf
      rw [hf]; exact Tot.tagSym _ _

theorem Tot.wrapI {k : Nat} {dv : Val → Wr} {o : Obj} {core : Wr} (hc : Tot H k core)
    (h : ∀ p ∈ o.ivars, Tot H k (dv p.2)) : Tot H k (wrapI dv o core) := by
  unfold Marshal.wrapI
  split
  · refine Tot.cat fun g hg => ?_
    rcases List.mem_append.mp hg with hg | hg
    · exact Tot.heads g hg
    · simp only [List.mem_singleton] at hg; rw [hg]; exact hc
  · refine Tot.cat fun g hg => ?_
    simp only [List.mem_append, List.mem_cons, List.not_mem_nil, or_false] at hg
    rcases hg with (rfl | hg) | rfl | rfl
    · exact Tot.lit _
    · exact Tot.heads g hg
    · exact hc
    · exact Tot.ivars h

theorem Tot.wObj {k : Nat} {dv : Val → Wr} {o : Obj} (hg : GoodObj E H o) (h : ∀ v ∈ o.vals, Tot H k (dv v)) :
    Tot H k (wObj E dv o) := by
  have hiv : ∀ p ∈ o.ivars, Tot H k (dv p.2) := fun p hp => h p.2 (by
    simp only [Obj.vals, List.mem_append, List.mem_map]; exact .inr ⟨p, hp, rfl⟩)
  have hbv : ∀ v ∈ o.body.vals, Tot H k (dv v) := fun v hb => h v (by
    simp only [Obj.vals, List.mem_append]; exact .inl hb)
  unfold GoodObj at hg
  unfold Marshal.wObj
  cases hb : o.body with
  | str bs e =>
    simp only
    unfold wStr
    split
    · exact Tot.wrapI (Tot.lit _) hiv
    · refine Tot.cat fun g hg => ?_
      simp only [List.mem_append, List.mem_cons, List.not_mem_nil, or_false] at hg
      rcases hg with ((rfl | hg) | rfl | rfl | rfl) | hg
      · exact Tot.lit _
      · exact Tot.heads g hg
      · exact Tot.lit _
      · exact Tot.lit _
      · exact Tot.enc _
      · exact Tot.pairs hiv g hg
  | arr vs =>
    rw [hb] at hbv
    refine Tot.wrapI (Tot.cat fun g hg => ?_) hiv
    rcases List.mem_cons.mp hg with rfl | hg
    · exact Tot.lit _
    · simp only [List.mem_map] at hg
      obtain ⟨v, hv, rfl⟩ := hg
      exact hbv v hv
  | hash ps d i =>
    rw [hb] at hbv
    simp only
    refine Tot.wrapI ?_ hiv
    unfold wHashCore
    refine Tot.cat fun g hg => ?_
    simp only [List.mem_append, List.mem_singleton, List.mem_map] at hg
    rcases hg with ((hg | rfl) | ⟨p, hp, rfl⟩) | hg
    · cases i with
      | false => simp at hg
      | true =>
        simp only [if_true, List.mem_cons, List.not_mem_nil, or_false] at hg
        rcases hg with rfl | rfl
        · exact Tot.lit _
        · exact Tot.sym _
    · exact Tot.lit _
    · refine Tot.cat fun g hg => ?_
      simp only [List.mem_cons, List.not_mem_nil, or_false] at hg
      rcases hg with rfl | rfl
      · exact hbv _ (by simp only [Body.vals, List.mem_append, List.mem_map]; exact .inl (.inl ⟨p, hp, rfl⟩))
      · exact hbv _ (by simp only [Body.vals, List.mem_append, List.mem_map]; exact .inl (.inr ⟨p, hp, rfl⟩))
    · cases d with
      | none => simp at hg
      | some v =>
        simp only [List.mem_singleton] at hg
        rw [hg]
        exact hbv v (by simp [Body.vals])
  | big n => exact Tot.lit _
  | float b => exact Tot.lit _
  | obj =>
    rw [hb] at hg
    obtain ⟨c, hc, -⟩ := hg
    rw [hc]
    simp only
    refine Tot.cat fun g hg => ?_
    simp only [List.mem_append, List.mem_cons, List.not_mem_nil, or_false] at hg
    rcases hg with hg | rfl | rfl | rfl
    · exact Tot.exts g hg
    · exact Tot.lit _
    · exact Tot.sym _
    · exact Tot.ivars hiv
  | struct ms =>
    rw [hb] at hg hbv
    obtain ⟨c, hc, -⟩ := hg
    rw [hc]
    simp only
    have hcore : Tot H k (Marshal.cat (o.ext.map (fun m => Marshal.cat [Marshal.lit [101], symW m]) ++
        [Marshal.lit [83], symW c, Marshal.lit (wLen ms.length)] ++ wPairs dv ms)) := by
      refine Tot.cat fun g hg => ?_
      simp only [List.mem_append, List.mem_cons, List.not_mem_nil, or_false] at hg
      rcases hg with (hg | rfl | rfl | rfl) | hg
      · exact Tot.exts g hg
      · exact Tot.lit _
      · exact Tot.sym _
      · exact Tot.lit _
      · exact Tot.pairs (fun p hp => hbv p.2 (by
          simp only [Body.vals, List.mem_map]; exact ⟨p, hp, rfl⟩)) g hg
    split
    · exact hcore
    · refine Tot.cat fun g hg => ?_
      simp only [List.mem_cons, List.not_mem_nil, or_false] at hg
      rcases hg with rfl | rfl | rfl
      · exact Tot.lit _
      · exact hcore
      · exact Tot.ivars hiv
  | range x y z =>
    rw [hb] at hbv
    refine Tot.cat fun g hg => ?_
    simp only [List.mem_cons, List.not_mem_nil, or_false] at hg
    rcases hg with rfl | rfl | rfl | rfl | rfl | rfl | rfl | rfl | rfl
    · exact Tot.lit _
    · exact Tot.sym _
    · exact Tot.lit _
    · exact Tot.sym _
    · exact Tot.lit _
    · exact Tot.sym _
    · exact hbv x (by simp [Body.vals])
    · exact Tot.sym _
    · exact hbv y (by simp [Body.vals])
  | regexp x y z =>
    rw [hb] at hg
    exact absurd hg (by simp)

theorem Tot.dumpV (n : Nat) : ∀ v k, Fine E H v → k + 1 ≤ n → Tot H k (dumpV E H n v) := by
  induction n with
  | zero => intro v k _ h; omega
  | succ n ih =>
    intro v k hf hk
    cases v with
    | nil => exact Tot.lit _
    | tru => exact Tot.lit _
    | fls => exact Tot.lit _
    | fix k =>
      simp only [Marshal.dumpV]
      split
      · exact Tot.lit _
      · exact Tot.lit _
    | flo b => exact Tot.slot (Tot.lit _)
    | sym s => exact Tot.sym s
    | cls name =>
      simp only [Marshal.dumpV]
      refine Tot.slot ?_
      split
      · exact Tot.lit _
      · refine Tot.cat fun g hg => ?_
        simp only [List.mem_cons, List.not_mem_nil, or_false] at hg
        rcases hg with rfl | rfl | rfl
        · exact Tot.lit _
        · exact Tot.sym _
        · exact Tot.lit _
    | ref a =>
      obtain ⟨o, ho, hg, hs⟩ := hf.sub
      intro w hw
      simp only [Marshal.dumpV, ho]
      unfold withSlot
      split
      · exact ⟨_, _, rfl, hw⟩
      · rename_i hi
        have ha : a < H.length := (List.getElem?_eq_some_iff.mp ho).1
        have hl := left_reg ha (idxOf?_none hi)
        obtain ⟨bs, w', e, h'⟩ := Tot.wObj (k := k - 1) hg
          (fun u hu => ih u (k - 1) (hs u hu) (by omega)) (w.reg a) (by omega)
        exact ⟨bs, w', e, by omega⟩

theorem dump_total {v : Val} (hf : Fine E H v) : ∃ bs, dump E H v = some bs := by
  have hl : left H {} ≤ H.length := by
    unfold left
    exact Nat.le_trans List.countP_le_length (by simp)
  obtain ⟨bs, w', e, -⟩ := Tot.dumpV (H.length + 2) v H.length hf (by omega) {} hl
  exact ⟨4 :: 8 :: bs, by simp [dump, e]⟩

end Verif.Marshal
