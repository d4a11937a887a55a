import Verif.Marshal.Values

/-! # Reading back objects (helper lemmas) -/

namespace Verif.Marshal

variable {E : Env} {H : List Obj}

/-- `c`, run once `a` has its slot, writes something that is read as `o`, the copy of `a` so far. -/
def RdC (E : Env) (H : List Obj) (a : Nat) (o : Obj) (c : Wr) : Prop :=
  ∀ w bs w' f r rest F, .ref a ∉ w.objs → c (w.reg a) = some (bs, w') → Sim H f w r →
    r.inp = bs ++ rest → bs.length ≤ F →
    ∃ f' r', readV E F r = .ok (.ref (f' a), r') ∧ r'.inp = rest ∧ Opn H a o f w r f' w' r'

/-- Not a String. -/
def NotStr (H : List Obj) (a : Nat) : Prop := ∀ o bs e, H[a]? = some o → o.body ≠ .str bs e

theorem NotStr.elim {a : Nat} (h : NotStr H a) (b : Body) :
    ∀ o1 bs e, H[a]? = some o1 → o1.body = .str bs e → b = .str bs e :=
  fun o1 bs e h1 h2 => absurd h2 (h o1 bs e h1)

theorem rd_cap {n : Nat} {r : RS} (h : n < 2 ^ 60) : withCapacity n r = .ok ((), r) := by
  unfold withCapacity
  rw [if_neg (by omega)]
  rfl

theorem alloc_eq (o : Obj) (r : RS) :
    alloc o r = .ok (.ref r.heap.length, { r with heap := r.heap ++ [o] }) := rfl

theorem pushObj_eq (v : Val) (r : RS) : pushObj v r = .ok ((), { r with objs := r.objs ++ [v] }) := rfl

theorem modify_eq (a : Nat) (f : Obj → Obj) (r : RS) :
    modify a f r = .ok ((), { r with heap := r.heap.modify a f }) := rfl

/-- Allocating and taking a slot. -/
theorem open_eq {α : Type} (o : Obj) (k : Val → M α) (r : RS) :
    (alloc o >>= fun v => pushObj v >>= fun _ => k v) r = k (.ref r.heap.length) (r.open o) := by
  rw [bind_ok (alloc_eq o r), bind_ok (pushObj_eq _ _)]
  rfl

theorem RdC.big {a : Nat} {n : Int} (hn : NotStr H a) (hb : ¬(-(2 ^ 62) ≤ n ∧ n < 2 ^ 62)) :
    RdC E H a { body := .big n } (lit (wBig n)) := by
  intro w bs w' f r rest F ha hw hs hin hF
  obtain ⟨h1, h2⟩ := lit_some hw
  subst h1; subst h2
  obtain ⟨F, rfl⟩ : ∃ k, F = k + 1 := ⟨F - 1, by simp [wBig] at hF; omega⟩
  have x1 := Ext.adv' hs hin
  refine ⟨put f a r.heap.length, (adv r (wBig n) rest r.syms).open { body := .big n }, ?_, rfl, ?_⟩
  · generalize hsg : (if n < 0 then (45 : UInt8) else 43) = sg
    set_option linter.unusedVariables false in
    let k := ((natLE n.natAbs).length + 1) / 2
    let ds := natLE n.natAbs ++ (if (natLE n.natAbs).length % 2 ≠ 0 then [0] else [])
    have hin' : r.inp = 108 :: sg :: (wLen k ++ (ds ++ rest)) := by
      rw [hin, ← hsg]; simp [wBig, k, ds]
    have hwb : wBig n = [108] ++ ([sg] ++ (wLen k ++ ds)) := by
      rw [← hsg]; simp [wBig, k, ds]
    have hdl : ds.length = k * 2 := by
      simp only [ds, k]
      by_cases h : (natLE n.natAbs).length % 2 ≠ 0
      · rw [if_pos h]; simp only [List.length_append, List.length_singleton]; omega
      · rw [if_neg h]; simp only [List.append_nil]; omega
    have hB1 := hs.sized.adv1 hin' r.syms
    have hB2 := hB1.adv1 (b := sg) rfl r.syms
    have hB3 := hB2.adv (bs := wLen k) rfl r.syms
    have hl := hB3.len (bs := ds) rfl
    rw [readV_act E F hin']
    show readBig _ = _
    unfold readBig
    rw [bind_ok (rd_byte (r := adv r [108] _ _) rfl)]
    simp only [adv_syms]
    rw [bind_ok (rd_len (r := adv (adv r [108] _ _) [sg] _ _) rfl (by omega) hB2)]
    simp only [adv_syms]
    have hk : k * 2 % 2 ^ 64 = ds.length := by omega
    rw [hk, bind_ok (rd_bytes (r := adv (adv (adv r [108] _ _) [sg] _ _) _ _ _) rfl hB3)]
    have hval : (if sg = 45 then -(leNat ds : Int) else (leNat ds : Int)) = n := by
      have : leNat ds = n.natAbs := by
        simp only [ds]
        by_cases h : (natLE n.natAbs).length % 2 ≠ 0
        · rw [if_pos h, leNat_append_zero, leNat_natLE]
        · rw [if_neg h, List.append_nil, leNat_natLE]
      rw [this, ← hsg]
      by_cases h : n < 0
      · simp only [h, if_true]; omega
      · simp only [h, if_false]
        rw [if_neg (by decide)]; omega
    rw [hval]
    unfold mkInt
    rw [if_neg hb, open_eq, pure_eq]
    simp only [adv_adv, adv_heap, put_self, adv_syms, hwb, List.append_assoc]
  · exact (Opn.opn x1.sim ha { body := .big n } rfl (by
      have := hs.nobj
      simp only [adv_pos, wBig, List.length_append, List.length_cons]; omega) (hn.elim _)).start rfl rfl

theorem takeWhile_nz {l : List UInt8} (h : 0 ∉ l) : l.takeWhile (· ≠ 0) = l := by
  induction l with
  | nil => rfl
  | cons x l ih =>
    simp only [List.mem_cons, not_or] at h
    simp only [List.takeWhile_cons]
    rw [if_pos (by simpa using fun e => h.1 e.symm), ih h.2]

theorem RdC.float {a : Nat} {b : UInt64} (hn : NotStr H a) (hb : E.isFlo b = false)
    (h0 : 0 ∉ E.txt b) (h1 : E.num (E.txt b) = some b) :
    RdC E H a { body := .float b } (lit (wFloat E b)) := by
  intro w bs w' f r rest F ha hw hs hin hF
  obtain ⟨h3, h2⟩ := lit_some hw
  subst h3; subst h2
  obtain ⟨F, rfl⟩ : ∃ k, F = k + 1 := ⟨F - 1, by simp [wFloat] at hF; omega⟩
  have x1 := Ext.adv' hs hin
  refine ⟨put f a r.heap.length, (adv r (wFloat E b) rest r.syms).open { body := .float b }, ?_, rfl, ?_⟩
  · have hin' : r.inp = 102 :: (wLen (E.txt b).length ++ (E.txt b ++ rest)) := by
      rw [hin]; simp [wFloat]
    have hB1 := hs.sized.adv1 hin' r.syms
    have hB2 := hB1.adv (bs := wLen (E.txt b).length) rfl r.syms
    have hl := hB2.len (bs := E.txt b) rfl
    rw [readV_act E F hin']
    show readFloat E _ = _
    unfold readFloat
    rw [bind_ok (rd_len (r := adv r [102] _ _) rfl (by omega) hB1)]
    simp only [adv_syms]
    rw [bind_ok (rd_bytes (r := adv (adv r [102] _ _) _ _ _) rfl hB2)]
    rw [takeWhile_nz h0, h1]
    simp only [mkFloat, hb, Bool.false_eq_true, if_false]
    rw [open_eq, pure_eq]
    simp only [adv_adv, adv_heap, put_self, adv_syms, wFloat, List.cons_append, List.nil_append]
  · exact (Opn.opn x1.sim ha { body := .float b } rfl (by
      have := hs.nobj
      simp only [adv_pos, wFloat, List.length_append, List.length_cons]; omega) (hn.elim _)).start rfl rfl

/-- A Float in a word. -/
theorem RdV.flo {b : UInt64} (hb : E.isFlo b = true)
    (h0 : 0 ∉ E.txt b) (h1 : E.num (E.txt b) = some b) :
    RdV E H (.flo b) (withSlot (.flo b) (lit (wFloat E b))) := by
  refine RdV.slot (m := readFloat E) (fun _ => rfl) (by simp) ?_
  intro r rest hin hB
  simp only [List.append_eq, List.append_assoc] at hin ⊢
  have hB1 := hB.adv hin r.syms
  have hl := hB1.len (bs := E.txt b) rfl
  unfold readFloat
  rw [bind_ok (rd_len hin (by omega) hB)]
  rw [bind_ok (rd_bytes (r := adv r _ _ _) rfl hB1)]
  rw [takeWhile_nz h0, h1]
  simp only [mkFloat, hb, if_true, adv_adv, adv_syms]
  rw [bind_ok (pure_eq _ _), bind_ok (pushObj_eq _ _), pure_eq]
  rfl

/-- A class or module. -/
theorem RdV.cls {name : List UInt8} {k : Kind} (hk : E.kind name = some k) (ha : ascii name = true) :
    RdV E H (.cls name) (withSlot (.cls name)
      (let tag : UInt8 := if E.kind name = some .module then 109 else 99
      if ascii name then lit (tag :: wLen name.length ++ name)
        else cat [lit (73 :: tag :: wLen name.length ++ name ++ wLen 1), symW (asciiSym nE), lit [84]])) := by
  rw [if_pos ha, List.cons_append]
  have hm : ∀ okM okC, (if k = .module then okM else okC) = true → ∀ r rest,
      r.inp = wLen name.length ++ name ++ rest → Sized r →
      readClassRef E okM okC r = .ok (.cls name,
        { adv r (wLen name.length ++ name) rest r.syms with objs := r.objs ++ [.cls name] }) := by
    intro okM okC hok r rest hin hB
    rw [List.append_assoc] at hin
    have hB1 := hB.adv hin r.syms
    have hl := hB1.len (bs := name) rfl
    unfold readClassRef
    rw [bind_ok (rd_len hin (by omega) hB)]
    rw [bind_ok (rd_bytes (r := adv r _ _ _) rfl hB1)]
    rw [hk]
    simp only [hok, if_true, adv_adv, adv_syms]
    rw [bind_ok (pushObj_eq _ _), pure_eq]
    rfl
  by_cases hmod : k = .module
  · simp only [hk, hmod, if_true]
    exact RdV.slot (m := readClassRef E true false) (fun _ => rfl) (by simp) (hm _ _ (by simp [hmod]))
  · simp only [hk, Option.some.injEq, hmod, if_false]
    exact RdV.slot (m := readClassRef E false true) (fun _ => rfl) (by simp) (hm _ _ (by simp [hmod]))

/-- The bytes of a String. -/
theorem RdC.str {a : Nat} {bs : List UInt8}
    (hstr : ∀ o1 b e, H[a]? = some o1 → o1.body = .str b e → Body.str bs .binary = .str b e) :
    RdC E H a { body := .str bs .binary } (lit (34 :: wLen bs.length ++ bs)) := by
  intro w bs' w' f r rest F ha hw hs hin hF
  obtain ⟨h3, h2⟩ := lit_some hw
  subst h3; subst h2
  obtain ⟨F, rfl⟩ : ∃ k, F = k + 1 := ⟨F - 1, by simp at hF; omega⟩
  have x1 := Ext.adv' hs hin
  refine ⟨put f a r.heap.length,
    (adv r (34 :: wLen bs.length ++ bs) rest r.syms).open { body := .str bs .binary }, ?_, rfl, ?_⟩
  · have hin' : r.inp = 34 :: (wLen bs.length ++ (bs ++ rest)) := by
      rw [hin]; simp
    have hB1 := hs.sized.adv1 hin' r.syms
    have hB2 := hB1.adv (bs := wLen bs.length) rfl r.syms
    have hl := hB2.len (bs := bs) rfl
    rw [readV_act E F hin']
    show readRawStr _ = _
    unfold readRawStr
    rw [bind_ok (rd_len (r := adv r [34] _ _) rfl (by omega) hB1)]
    simp only [adv_syms]
    rw [bind_ok (rd_bytes (r := adv (adv r [34] _ _) _ _ _) rfl hB2)]
    rw [open_eq, pure_eq]
    simp only [adv_adv, adv_heap, put_self, adv_syms, List.cons_append, List.nil_append]
  · exact (Opn.opn x1.sim ha { body := .str bs .binary } rfl (by
      have := hs.nobj
      simp only [adv_pos, List.length_append, List.length_cons]; omega) hstr).start rfl rfl

theorem wEncPair_length {e : Enc} {syms syms' : List Sym} {bs : List UInt8}
    (h : wEncPair e syms = (bs, syms')) : syms'.length ≤ syms.length + bs.length := by
  have hq : ∀ s l, (wSymAscii s l).2.length ≤ l.length + 1 ∧ 1 ≤ (wSymAscii s l).1.length := by
    intro s l; unfold wSymAscii; split <;> simp
  unfold wEncPair at h
  split at h
  · have := hq (asciiSym nEncoding) syms
    simp only [Prod.mk.injEq] at h
    rw [← h.2, ← h.1]; simp only [List.length_append]; omega
  · have := hq (asciiSym nE) syms
    simp only [Prod.mk.injEq] at h
    rw [← h.2, ← h.1]; simp only [List.length_append]; omega

theorem encW_some {e : Enc} {w : W} {b : List UInt8} {w' : W} (h : encW e w = some (b, w')) :
    wEncPair e w.syms = (b, w'.syms) ∧ w' = { w with syms := w'.syms } := by
  unfold encW at h
  cases hx : wEncPair e w.syms with
  | mk x y =>
  rw [hx] at h
  simp only [Option.some.injEq, Prod.mk.injEq] at h
  obtain ⟨h1, h2⟩ := h
  subst h1; subst h2
  exact ⟨rfl, rfl⟩

/-- A String with its encoding. -/
theorem RdC.strI {a : Nat} {bs : List UInt8} {e : Enc} (he : e = .utf8 ∨ e = .usAscii)
    (hstr : ∀ o1 b e', H[a]? = some o1 → o1.body = .str b e' → Body.str bs e = .str b e') :
    RdC E H a { body := .str bs e }
      (cat [lit [73], lit (34 :: wLen bs.length ++ bs), lit (wLen 1), encW e]) := by
  intro w bs' w' f r rest F ha hw hs hin hF
  obtain ⟨b1, w1, c1, h1, hw1, h3⟩ := cat_cons hw
  obtain ⟨h4, h5⟩ := lit_some h1
  subst h4; subst h5; subst h3
  obtain ⟨b1, w1, c1, h1, hw2, h3⟩ := cat_cons hw1
  obtain ⟨h4, h5⟩ := lit_some h1
  subst h4; subst h5; subst h3
  obtain ⟨b1, w1, p, h1, hw3, h3⟩ := cat_cons hw2
  obtain ⟨h4, h5⟩ := lit_some h1
  subst h4; subst h5; subst h3
  obtain ⟨h6, h7⟩ := encW_some (cat_one hw3)
  simp only [W.reg] at h6
  rw [← hs.syms] at h6
  obtain ⟨F, rfl⟩ : ∃ k, F = k + 1 := ⟨F - 1, by simp at hF; omega⟩
  have hl := wEncPair_length h6
  have hns := hs.nsym
  rw [← hs.syms] at hns
  have x1 := Ext.adv hs (syms := w'.syms) hin (by simp only [List.length_append]; omega)
  refine ⟨put f a r.heap.length,
    (adv r ([73] ++ (34 :: wLen bs.length ++ bs ++ (wLen 1 ++ p))) rest w'.syms).open { body := .str bs e },
    ?_, rfl, ?_⟩
  · have hin' : r.inp = 73 :: 34 :: (wLen bs.length ++ (bs ++ (wLen 1 ++ (p ++ rest)))) := by
      rw [hin]; simp
    have hB1 := hs.sized.adv1 hin' r.syms
    have hB2 := hB1.adv1 (b := 34) rfl r.syms
    have hB3 := hB2.adv (bs := wLen bs.length) rfl r.syms
    have hB4 := hB3.adv (bs := bs) rfl r.syms
    have hl := hB3.len (bs := bs) rfl
    rw [readV_act E F hin']
    show readIvarWrapped E _ _ = _
    unfold readIvarWrapped
    rw [bind_ok (rd_byte (r := adv r [73] _ _) rfl)]
    simp only [adv_syms]
    show (readLen >>= fun n => _) _ = _
    rw [bind_ok (rd_len (r := adv (adv r [73] _ _) [34] _ _) rfl (by omega) hB2)]
    simp only [adv_syms]
    rw [bind_ok (rd_bytes (r := adv (adv (adv r [73] _ _) [34] _ _) _ _ _) rfl hB3)]
    simp only [adv_syms]
    rw [bind_ok (rd_encOne E (readV E F) (r := adv (adv (adv (adv r [73] _ _) [34] _ _) _ _ _) _ _ _)
      h6 he rfl (by show r.syms.length ≤ _; simp only [adv_pos]; omega) hB4)]
    simp only [adv_adv]
    rw [open_eq]
    simp only [setIvars, if_true]
    rw [bind_ok (pure_eq _ _), pure_eq]
    simp only [adv_heap, put_self, List.cons_append, List.nil_append, List.append_assoc]
  · have := (Opn.opn x1.sim ha { body := .str bs e } rfl (by
      have := hs.nobj
      simp only [adv_pos, List.length_append, List.length_cons]; omega) hstr).start
        (w0 := w) (r0 := r) rfl rfl
    rw [h7]
    exact this

theorem Body.map_str {b : Body} {f : Nat → Nat} {bs : List UInt8} {e : Enc} (h : b.map f = .str bs e) :
    b = .str bs e := by
  cases b <;> simp only [Body.map] at h <;> first | exact h | exact absurd h (by simp)

/-- What is known of an object in progress when it is a String. -/
theorem Opn.str {a : Nat} {o : Obj} {f f' : Nat → Nat} {w w' : W} {r r' : RS}
    (h : Opn H a o f w r f' w' r') :
    ∀ o1 bs e, H[a]? = some o1 → o1.body = .str bs e → o.body = .str bs e := by
  intro o1 bs e h1 h2
  obtain ⟨o2, q1, q2⟩ := h.ext.sim.strs a o1 bs e h.mem h1 h2
  rw [h.at_] at q1
  simp only [Option.some.injEq] at q1
  rw [← q1] at q2
  exact Body.map_str q2

theorem Opn.pre {a : Nat} {o : Obj} {f f1 f2 : Nat → Nat} {w w1 w2 : W} {r r1 r2 : RS}
    (h : Ext H none f w r f1 w1 r1) (hw : w1.objs = w.objs) (k : Opn H a o f1 w1 r1 f2 w2 r2) :
    Opn H a o f w r f2 w2 r2 where
  ext :=
    { sim := k.ext.sim
      sub := fun v hv => k.ext.sub v (h.sub v hv)
      agree := fun b hb => by rw [k.ext.agree b (h.sub _ hb), h.agree b hb]
      frame := fun b hb => by rw [k.ext.frame b (by have := h.mono; omega), h.frame b hb]
      mono := Nat.le_trans h.mono k.ext.mono
      done := fun b hb hn hx => k.ext.done b hb (by rw [hw]; exact hn) hx }
  mem := k.mem
  new := by rw [← hw]; exact k.new
  at_ := k.at_
  refs := k.refs
  ge := Nat.le_trans h.mono k.ge

/-- A tag and a name before an object. -/
theorem rd_head {a : Nat} {o : Obj} {t : UInt8} {s : Sym} {fs : List Wr} (h : RdC E H a o (cat fs))
    (hg : GoodSym s) {w : W} {bs : List UInt8} {w' : W} {f : Nat → Nat} {r : RS} {rest : List UInt8} {F : Nat}
    (ha : .ref a ∉ w.objs) (hw : cat (cat [lit [t], symW s] :: fs) (w.reg a) = some (bs, w'))
    (hs : Sim H f w r) (hin : r.inp = bs ++ rest) (hF : bs.length ≤ F) :
    ∃ F' l r2 f3 r3, F = F' + 1 ∧ r.inp = t :: l ∧
      readSymbol E (readV E F') (adv r [t] l r.syms) = .ok (s, r2) ∧
      readV E F' r2 = .ok (.ref (f3 a), r3) ∧ r3.inp = rest ∧ Opn H a o f w r f3 w' r3 := by
  obtain ⟨b, w1, c, h1, h2, h3⟩ := cat_cons hw
  obtain ⟨b1, w2, c1, g1, g2, g3⟩ := cat_cons h1
  obtain ⟨g4, g5⟩ := lit_some g1
  subst g4; subst g5; subst g3; subst h3
  have g2 := cat_one g2
  obtain ⟨k1, k2⟩ := symW_some g2
  simp only [List.length_append, List.length_cons, List.length_nil] at hF
  obtain ⟨F, rfl⟩ : ∃ k, F = k + 1 := ⟨F - 1, by omega⟩
  have hin' : r.inp = t :: (c1 ++ (c ++ rest)) := by rw [hin]; simp
  have x1 : Ext H none f w r f w (adv r [t] (c1 ++ (c ++ rest)) r.syms) :=
    Ext.adv' hs (bs := [t]) hin'
  have hsy : symW s w = some (c1, { w with syms := w1.syms }) := by
    unfold symW
    simp only [W.reg] at k1
    rw [k1]
  obtain ⟨f2, r2, e2, i2, x2, -⟩ := (Rd.symbol (E := E) (H := H) hg).2 w c1 _ f _ (c ++ rest) F hsy
    x1.sim rfl (by omega)
  have hw1 : w1 = W.reg { w with syms := w1.syms } a := k2
  rw [hw1] at h2
  obtain ⟨f3, r3, e3, i3, x3⟩ := h { w with syms := w1.syms } c w' f2 r2 rest F ha h2 x2.sim i2 (by omega)
  exact ⟨F, _, r2, f3, r3, rfl, hin', e2, e3, i3, Opn.pre (x1.trans x2) rfl x3⟩

/-- `e`: a module. -/
theorem RdC.ext {a : Nat} {o : Obj} {m : Sym} {fs : List Wr} (h : RdC E H a o (cat fs)) (hg : GoodSym m)
    (hk : E.kind m.bytes = some .module) (hm : m ∉ o.ext) :
    RdC E H a { o with ext := m :: o.ext } (cat (cat [lit [101], symW m] :: fs)) := by
  intro w bs w' f r rest F ha hw hs hin hF
  obtain ⟨F, l, r2, f3, r3, rfl, hin', e2, e3, i3, x3⟩ := rd_head h hg ha hw hs hin hF
  refine ⟨f3, { r3 with heap := r3.heap.modify (f3 a) fun o =>
      { o with ext := if m ∈ o.ext then o.ext else m :: o.ext } }, ?_, i3, ?_⟩
  · rw [readV_act E F hin']
    show readExtended E _ _ = _
    unfold readExtended
    rw [bind_ok e2, bind_ok e3, hk]
    simp only
    rw [bind_ok (modify_eq _ _ _), pure_eq]
  · refine x3.upd _ _ ?_ x3.refs x3.str
    simp only [Obj.map, hm, if_false]

/-- `C`: a class, of an object that is not a Hash or is not of class `Hash`. -/
theorem RdC.cls {a : Nat} {o : Obj} {c : Sym} {fs : List Wr} (h : RdC E H a o (cat fs)) (hg : GoodSym c)
    (ht : E.top c.bytes = true) (hc : c.bytes ≠ nHash) :
    RdC E H a { o with cls := some c } (cat (cat [lit [67], symW c] :: fs)) := by
  intro w bs w' f r rest F ha hw hs hin hF
  obtain ⟨F, l, r2, f3, r3, rfl, hin', e2, e3, i3, x3⟩ := rd_head h hg ha hw hs hin hF
  refine ⟨f3, { r3 with heap := r3.heap.modify (f3 a) fun o => { o with cls := some c } }, ?_, i3, ?_⟩
  · rw [readV_act E F hin']
    show readUserClass E _ _ = _
    unfold readUserClass
    rw [bind_ok e2, bind_ok e3, ht, if_pos rfl]
    simp only
    have hg : ∀ r : RS, (fun r => Res.ok (r.heap[f3 a]?, r) : M (Option Obj)) r = .ok (r.heap[f3 a]?, r) :=
      fun _ => rfl
    rw [bind_ok (hg _), x3.at_]
    simp only [if_neg hc]
    generalize Obj.map f3 o = o'
    obtain ⟨b', c', e', i'⟩ := o'
    cases b' <;> rfl
  · exact x3.upd _ _ rfl x3.refs x3.str

/-- `C:Hash`: by identity. -/
theorem RdC.byId {a : Nat} {o : Obj} {ps : List (Val × Val)} {d : Option Val} {i : Bool} {fs : List Wr}
    (h : RdC E H a o (cat fs)) (ht : E.top nHash = true) (hb : o.body = .hash ps d i)
    (hn : NotStr H a) :
    RdC E H a { o with body := .hash ps d true } (cat (cat [lit [67], symW (asciiSym nHash)] :: fs)) := by
  intro w bs w' f r rest F ha hw hs hin hF
  obtain ⟨F, l, r2, f3, r3, rfl, hin', e2, e3, i3, x3⟩ := rd_head h (by unfold GoodSym; decide) ha hw hs hin hF
  refine ⟨f3, { r3 with heap := r3.heap.modify (f3 a) fun o' =>
    { o' with body := (Body.hash ps d true).map f3 } }, ?_, i3, ?_⟩
  · rw [readV_act E F hin']
    show readUserClass E _ _ = _
    unfold readUserClass
    rw [bind_ok e2, bind_ok e3]
    show (if E.top nHash then _ else _ : M Val) _ = _
    rw [ht, if_pos rfl]
    simp only
    have hg : ∀ r : RS, (fun r => Res.ok (r.heap[f3 a]?, r) : M (Option Obj)) r = .ok (r.heap[f3 a]?, r) :=
      fun _ => rfl
    rw [bind_ok (hg _), x3.at_]
    simp only [Obj.map, hb, Body.map]
    rw [if_pos (show (asciiSym nHash).bytes = nHash from rfl), bind_ok (modify_eq _ _ _), pure_eq]
  · refine x3.upd _ _ rfl ?_ (hn.elim _)
    intro b hb'
    refine x3.refs b ?_
    simpa only [Obj.vals, hb, Body.vals] using hb'

end Verif.Marshal
