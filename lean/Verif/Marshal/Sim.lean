import Verif.Marshal.Syms
import Verif.Marshal.Spec

/-! # The tables of the writer and of the reader (helper lemmas) -/

namespace Verif.Marshal

theorem Val.map_congr {f g : Nat → Nat} {v : Val} (h : ∀ a, v = .ref a → f a = g a) :
    v.map f = v.map g := by
  cases v <;> simp only [Val.map]
  rw [h _ rfl]

theorem Body.map_congr {f g : Nat → Nat} {b : Body} (h : ∀ a, .ref a ∈ b.vals → f a = g a) :
    b.map f = b.map g := by
  cases b with
  | arr vs =>
    simp only [Body.map, Body.arr.injEq]
    refine List.map_congr_left fun v hv => Val.map_congr fun a ha => h a ?_
    subst ha; exact hv
  | hash ps d i =>
    simp only [Body.map, Body.hash.injEq, and_true]
    refine ⟨List.map_congr_left fun p hp => Prod.ext ?_ ?_, ?_⟩
    · refine Val.map_congr fun a ha => h a ?_
      simp only [Body.vals, List.mem_append, List.mem_map]
      exact .inl (.inl ⟨p, hp, ha⟩)
    · refine Val.map_congr fun a ha => h a ?_
      simp only [Body.vals, List.mem_append, List.mem_map]
      exact .inl (.inr ⟨p, hp, ha⟩)
    · cases d with
      | none => rfl
      | some v =>
        simp only [Option.map_some, Option.some.injEq]
        refine Val.map_congr fun a ha => h a ?_
        subst ha
        simp [Body.vals]
  | struct ms =>
    simp only [Body.map, Body.struct.injEq]
    refine List.map_congr_left fun p hp => Prod.ext rfl ?_
    refine Val.map_congr fun a ha => h a ?_
    simp only [Body.vals, List.mem_map]
    exact ⟨p, hp, ha⟩
  | range x y z =>
    simp only [Body.map, Body.range.injEq, and_true]
    exact ⟨Val.map_congr fun a ha => h a (by subst ha; simp [Body.vals]),
      Val.map_congr fun a ha => h a (by subst ha; simp [Body.vals])⟩
  | _ => rfl

theorem Obj.map_congr {f g : Nat → Nat} {o : Obj} (h : ∀ a, .ref a ∈ o.vals → f a = g a) :
    o.map f = o.map g := by
  unfold Obj.map
  rw [Body.map_congr fun a ha => h a (by simp only [Obj.vals, List.mem_append]; exact .inl ha)]
  congr 1
  refine List.map_congr_left fun p hp => Prod.ext rfl ?_
  refine Val.map_congr fun a ha => h a ?_
  simp only [Obj.vals, List.mem_append, List.mem_map]
  exact .inr ⟨p, hp, ha⟩

/-- The tables correspond; `f` says where the reader has put the objects of the writer. -/
structure Sim (H : List Obj) (f : Nat → Nat) (w : W) (r : RS) : Prop where
  syms : r.syms = w.syms
  objs : r.objs = w.objs.map (Val.map f)
  lt : ∀ a, .ref a ∈ w.objs → f a < r.heap.length
  inj : ∀ a b, .ref a ∈ w.objs → .ref b ∈ w.objs → f a = f b → a = b
  nsym : w.syms.length ≤ r.pos
  nobj : w.objs.length ≤ r.pos
  sized : Sized r
  strs : ∀ a o bs e, .ref a ∈ w.objs → H[a]? = some o → o.body = .str bs e →
    ∃ o', r.heap[f a]? = some o' ∧ o'.body = .str bs e

/-- The copy of `a` is complete. -/
def Done (H : List Obj) (f : Nat → Nat) (w : W) (r : RS) (a : Nat) : Prop :=
  ∃ o, H[a]? = some o ∧ r.heap[f a]? = some (o.map f) ∧ ∀ b, .ref b ∈ o.vals → .ref b ∈ w.objs

/-- From one pair of states to a later one: nothing old has changed, and what is new is complete, except
perhaps `x`. -/
structure Ext (H : List Obj) (x : Option Nat) (f : Nat → Nat) (w : W) (r : RS) (f' : Nat → Nat) (w' : W)
    (r' : RS) : Prop where
  sim : Sim H f' w' r'
  sub : ∀ v, v ∈ w.objs → v ∈ w'.objs
  agree : ∀ a, .ref a ∈ w.objs → f' a = f a
  frame : ∀ b, b < r.heap.length → r'.heap[b]? = r.heap[b]?
  mono : r.heap.length ≤ r'.heap.length
  done : ∀ a, .ref a ∈ w'.objs → .ref a ∉ w.objs → some a ≠ x → Done H f' w' r' a

theorem Done.mono {H f w r f' w' r'} {x : Option Nat} (h : Ext H x f w r f' w' r') {a : Nat}
    (hs : Sim H f w r) (ha : .ref a ∈ w.objs) (hd : Done H f w r a) : Done H f' w' r' a := by
  obtain ⟨o, h1, h2, h3⟩ := hd
  refine ⟨o, h1, ?_, fun b hb => h.sub _ (h3 b hb)⟩
  rw [h.agree a ha, h.frame _ (hs.lt a ha), h2]
  congr 1
  exact Obj.map_congr fun b hb => (h.agree b (h3 b hb)).symm

theorem Ext.trans {H f w r f1 w1 r1 f2 w2 r2} {x : Option Nat} (h : Ext H x f w r f1 w1 r1)
    (k : Ext H none f1 w1 r1 f2 w2 r2) : Ext H x f w r f2 w2 r2 where
  sim := k.sim
  sub := fun v hv => k.sub v (h.sub v hv)
  agree := fun a ha => by rw [k.agree a (h.sub _ ha), h.agree a ha]
  frame := fun b hb => by rw [k.frame b (by have := h.mono; omega), h.frame b hb]
  mono := Nat.le_trans h.mono k.mono
  done := fun a ha hn hx => by
    by_cases h1 : .ref a ∈ w1.objs
    · exact (h.done a h1 hn hx).mono k h.sim h1
    · exact k.done a ha h1 (by simp)

theorem Ext.refl {H f w r} (h : Sim H f w r) : Ext H none f w r f w r where
  sim := h
  sub := fun _ h => h
  agree := fun _ _ => rfl
  frame := fun _ _ => rfl
  mono := Nat.le_refl _
  done := fun _ h h' _ => absurd h h'

/-- Only bytes and symbols are read. -/
theorem Ext.adv {H f w r} (h : Sim H f w r) {bs rest : List UInt8} {syms : List Sym}
    (hin : r.inp = bs ++ rest) (hn : syms.length ≤ r.pos + bs.length) :
    Ext H none f w r f { w with syms := syms } (Marshal.adv r bs rest syms) where
  sim :=
    { syms := rfl
      objs := h.objs
      lt := h.lt
      inj := h.inj
      nsym := hn
      nobj := by have := h.nobj; simp only [adv_pos]; omega
      sized := h.sized.adv hin syms
      strs := h.strs }
  sub := fun _ h => h
  agree := fun _ _ => rfl
  frame := fun _ _ => rfl
  mono := Nat.le_refl _
  done := fun _ h h' _ => absurd h h'

theorem Ext.adv' {H f w r} (h : Sim H f w r) {bs rest : List UInt8}
    (hin : r.inp = bs ++ rest) :
    Ext H none f w r f w (Marshal.adv r bs rest r.syms) := by
  have := Ext.adv h (syms := r.syms) hin (by have := h.nsym; rw [h.syms]; omega)
  rw [h.syms] at this ⊢
  exact this

/-- The start may be replaced by one with the same objects. -/
theorem Ext.start {H f w r f' w' r'} {x : Option Nat} (h : Ext H x f w r f' w' r') {w0 : W} {r0 : RS}
    (hw : w0.objs = w.objs) (hr : r0.heap = r.heap) : Ext H x f w0 r0 f' w' r' where
  sim := h.sim
  sub := fun v hv => h.sub v (hw ▸ hv)
  agree := fun a ha => h.agree a (hw ▸ ha)
  frame := fun b hb => by rw [hr] at hb ⊢; exact h.frame b hb
  mono := by rw [hr]; exact h.mono
  done := fun a ha hn hx => h.done a ha (by rw [hw] at hn; exact hn) hx

/-- Take a slot. -/
def W.reg (w : W) (a : Nat) : W := { w with objs := w.objs ++ [.ref a] }

/-- Allocate an object and take a slot for it. -/
def RS.open (r : RS) (o : Obj) : RS :=
  { r with heap := r.heap ++ [o], objs := r.objs ++ [.ref r.heap.length] }

/-- `f` with the new object. -/
def put (f : Nat → Nat) (a n : Nat) : Nat → Nat := fun b => if b = a then n else f b

@[simp] theorem put_self (f : Nat → Nat) (a n : Nat) : put f a n a = n := by simp [put]

theorem put_ne (f : Nat → Nat) {a b : Nat} (n : Nat) (h : b ≠ a) : put f a n b = f b := by
  simp [put, h]

theorem map_put {f : Nat → Nat} {a n : Nat} {l : List Val} (h : .ref a ∉ l) :
    l.map (Val.map (put f a n)) = l.map (Val.map f) := by
  refine List.map_congr_left fun v hv => Val.map_congr fun b hb => put_ne _ _ ?_
  intro e; subst e; subst hb; exact h hv

/-- Taking a slot for a new object. -/
theorem Ext.opn {H f w r} (h : Sim H f w r) {a : Nat} (ha : .ref a ∉ w.objs) (o : Obj)
    (hp : w.objs.length + 1 ≤ r.pos)
    (hstr : ∀ o1 bs e, H[a]? = some o1 → o1.body = .str bs e → o.body = .str bs e) :
    Ext H (some a) f w r (put f a r.heap.length) (w.reg a) (r.open o) where
  sim :=
    { syms := h.syms
      objs := by
        simp only [RS.open, W.reg, List.map_append, map_put ha, h.objs, List.map_cons, List.map_nil,
          Val.map, put_self]
      lt := by
        intro b hb
        simp only [W.reg, List.mem_append, List.mem_singleton] at hb
        simp only [RS.open, List.length_append, List.length_singleton]
        by_cases e : b = a
        · subst e; simp
        · rw [put_ne _ _ e]
          rcases hb with hb | hb
          · have := h.lt b hb; omega
          · simp only [Val.ref.injEq] at hb; exact absurd hb e
      inj := by
        intro b c hb hc he
        simp only [W.reg, List.mem_append, List.mem_singleton, Val.ref.injEq] at hb hc
        by_cases e1 : b = a
        · by_cases e2 : c = a
          · rw [e1, e2]
          · rw [e1, put_self, put_ne _ _ e2] at he
            have := h.lt c (hc.resolve_right e2)
            omega
        · by_cases e2 : c = a
          · rw [e2, put_self, put_ne _ _ e1] at he
            have := h.lt b (hb.resolve_right e1)
            omega
          · rw [put_ne _ _ e1, put_ne _ _ e2] at he
            exact h.inj b c (hb.resolve_right e1) (hc.resolve_right e2) he
      nsym := h.nsym
      nobj := by simpa [W.reg, RS.open] using hp
      sized := h.sized
      strs := by
        intro b o1 bs e hb h1 h2
        simp only [W.reg, List.mem_append, List.mem_singleton, Val.ref.injEq] at hb
        by_cases e1 : b = a
        · subst e1
          exact ⟨o, by simp [RS.open], hstr o1 bs e h1 h2⟩
        · obtain ⟨o', g1, g2⟩ := h.strs b o1 bs e (hb.resolve_right e1) h1 h2
          refine ⟨o', ?_, g2⟩
          rw [put_ne _ _ e1]
          simp only [RS.open]
          rw [List.getElem?_append_left (h.lt b (hb.resolve_right e1)), g1] }
  sub := fun v hv => by simp [W.reg, hv]
  agree := fun b hb => put_ne _ _ (by intro e; subst e; exact ha hb)
  frame := fun b hb => by simp only [RS.open]; rw [List.getElem?_append_left hb]
  mono := by simp [RS.open]
  done := fun b hb hn hx => by
    simp only [W.reg, List.mem_append, List.mem_singleton, Val.ref.injEq] at hb
    rcases hb with hb | hb
    · exact absurd hb hn
    · subst hb; exact absurd rfl hx

/-- An object in progress: it is `o` so far. -/
structure Opn (H : List Obj) (a : Nat) (o : Obj) (f : Nat → Nat) (w : W) (r : RS) (f' : Nat → Nat) (w' : W)
    (r' : RS) : Prop where
  ext : Ext H (some a) f w r f' w' r'
  mem : .ref a ∈ w'.objs
  new : .ref a ∉ w.objs
  at_ : r'.heap[f' a]? = some (o.map f')
  refs : ∀ b, .ref b ∈ o.vals → .ref b ∈ w'.objs
  ge : r.heap.length ≤ f' a

theorem Opn.start {H a o f w r f' w' r'} (h : Opn H a o f w r f' w' r') {w0 : W} {r0 : RS}
    (hw : w0.objs = w.objs) (hr : r0.heap = r.heap) : Opn H a o f w0 r0 f' w' r' where
  ext := h.ext.start hw hr
  mem := h.mem
  new := by rw [hw]; exact h.new
  at_ := h.at_
  refs := h.refs
  ge := by rw [hr]; exact h.ge

theorem Opn.opn {H f w r} (h : Sim H f w r) {a : Nat} (ha : .ref a ∉ w.objs) (o : Obj)
    (hv : o.vals = [])
    (hp : w.objs.length + 1 ≤ r.pos)
    (hstr : ∀ o1 bs e, H[a]? = some o1 → o1.body = .str bs e → o.body = .str bs e) :
    Opn H a o f w r (put f a r.heap.length) (w.reg a) (r.open (o.map id)) where
  ext := Ext.opn h ha _ hp (by
    intro o1 bs e h1 h2
    have := hstr o1 bs e h1 h2
    simp [Obj.map, this, Body.map])
  mem := by simp [W.reg]
  new := ha
  at_ := by
    simp only [put_self, RS.open, List.getElem?_concat_length, Option.some.injEq]
    exact Obj.map_congr (by simp [hv])
  refs := by simp [hv]
  ge := by simp

theorem Opn.trans {H a o f w r f1 w1 r1 f2 w2 r2} (h : Opn H a o f w r f1 w1 r1)
    (k : Ext H none f1 w1 r1 f2 w2 r2) : Opn H a o f w r f2 w2 r2 where
  ext := h.ext.trans k
  mem := k.sub _ h.mem
  new := h.new
  at_ := by
    rw [k.agree a h.mem, k.frame _ (h.ext.sim.lt a h.mem), h.at_]
    congr 1
    exact Obj.map_congr fun b hb => (k.agree b (h.refs b hb)).symm
  refs := fun b hb => k.sub _ (h.refs b hb)
  ge := by rw [k.agree a h.mem]; exact h.ge

/-- Change the object in progress. -/
theorem Opn.upd {H a o f w r f' w' r'} (h : Opn H a o f w r f' w' r') (g : Obj → Obj) (o' : Obj)
    (hg : g (o.map f') = o'.map f') (hv : ∀ b, .ref b ∈ o'.vals → .ref b ∈ w'.objs)
    (hstr : ∀ o1 bs e, H[a]? = some o1 → o1.body = .str bs e → o'.body = .str bs e) :
    Opn H a o' f w r f' w' { r' with heap := r'.heap.modify (f' a) g } where
  ext :=
    { sim :=
        { syms := h.ext.sim.syms
          objs := h.ext.sim.objs
          lt := fun b hb => by simpa using h.ext.sim.lt b hb
          inj := h.ext.sim.inj
          nsym := h.ext.sim.nsym
          nobj := h.ext.sim.nobj
          sized := h.ext.sim.sized
          strs := by
            intro b o1 bs e hb h1 h2
            by_cases e1 : b = a
            · subst e1
              refine ⟨o'.map f', ?_, ?_⟩
              · simp [h.at_, hg]
              · have := hstr o1 bs e h1 h2
                simp [Obj.map, this, Body.map]
            · obtain ⟨o2, g1, g2⟩ := h.ext.sim.strs b o1 bs e hb h1 h2
              refine ⟨o2, ?_, g2⟩
              have hne : f' a ≠ f' b := fun hh => e1 (h.ext.sim.inj _ _ h.mem hb hh).symm
              simp [hne, g1] }
      sub := h.ext.sub
      agree := h.ext.agree
      frame := fun b hb => by
        have hne : f' a ≠ b := by have := h.ge; omega
        simpa [hne] using h.ext.frame b hb
      mono := by simpa using h.ext.mono
      done := fun b hb hn hx => by
        obtain ⟨o1, g1, g2, g3⟩ := h.ext.done b hb hn hx
        refine ⟨o1, g1, ?_, g3⟩
        have hne : f' a ≠ f' b := fun hh => hx (by rw [h.ext.sim.inj _ _ h.mem hb hh])
        simp [hne, g2] }
  mem := h.mem
  new := h.new
  at_ := by simp [h.at_, hg]
  refs := hv
  ge := h.ge

theorem Opn.close {H a o f w r f' w' r'} (h : Opn H a o f w r f' w' r') (ho : H[a]? = some o) :
    Ext H none f w r f' w' r' :=
  { h.ext with
    done := fun b hb hn _ => by
      by_cases e : b = a
      · subst e; exact ⟨o, ho, h.at_, h.refs⟩
      · exact h.ext.done b hb hn (by simpa using e) }

end Verif.Marshal
