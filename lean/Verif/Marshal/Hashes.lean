import Verif.Marshal.Containers

/-! # Reading back hashes, user objects, structs and ranges (helper lemmas) -/

namespace Verif.Marshal

variable {E : Env} {H : List Obj}

/-- An immediate or a String. -/
def KeyOk (H : List Obj) (v : Val) : Prop :=
  ∀ a, v = .ref a → ∃ o bs e, H[a]? = some o ∧ o.body = .str bs e

theorem keyEq_map {f : Nat → Nat} {w : W} {r : RS} (hs : Sim H f w r) {x y : Val} (hx : KeyOk H x)
    (hy : KeyOk H y) (mx : ∀ a, x = .ref a → .ref a ∈ w.objs) (my : ∀ a, y = .ref a → .ref a ∈ w.objs)
    (h : keyEq H x y = false) : keyEq r.heap (x.map f) (y.map f) = false := by
  unfold keyEq at h ⊢
  simp only [Bool.or_eq_false_iff, decide_eq_false_iff_not] at h ⊢
  obtain ⟨hne, hm⟩ := h
  cases x with
  | ref a =>
    cases y with
    | ref b =>
      obtain ⟨o1, s, e1, h1, b1⟩ := hx a rfl
      obtain ⟨o2, t, e2, h2, b2⟩ := hy b rfl
      obtain ⟨o1', g1, c1⟩ := hs.strs a o1 s e1 (mx a rfl) h1 b1
      obtain ⟨o2', g2, c2⟩ := hs.strs b o2 t e2 (my b rfl) h2 b2
      have hst : s ≠ t := by
        intro e
        obtain ⟨ob1, oc1, oe1, oi1⟩ := o1
        obtain ⟨ob2, oc2, oe2, oi2⟩ := o2
        simp only at b1 b2
        subst b1; subst b2
        simp only [h1, h2] at hm
        simp [e] at hm
      refine ⟨?_, ?_⟩
      · simp only [Val.map, Val.ref.injEq]
        intro e
        exact hne (by rw [hs.inj a b (mx a rfl) (my b rfl) e])
      · simp only [Val.map]
        obtain ⟨ob1, oc1, oe1, oi1⟩ := o1'
        obtain ⟨ob2, oc2, oe2, oi2⟩ := o2'
        simp only at c1 c2
        subst c1; subst c2
        simp only [g1, g2]
        simp [hst]
    | _ => simp [Val.map]
  | _ =>
    cases y with
    | ref b => simp [Val.map]
    | _ => exact ⟨hne, rfl⟩

theorem insert_fold {h : List Obj} {ps : List (Val × Val)}
    (hp : ps.Pairwise fun p q => keyEq h p.1 q.1 = false) :
    ∀ acc : List (Val × Val), (∀ p ∈ ps, ∀ q ∈ acc, keyEq h q.1 p.1 = false) →
      ps.foldl (insert h) acc = acc ++ ps := by
  induction ps with
  | nil => intro acc _; simp
  | cons p ps ih =>
    intro acc ha
    rw [List.pairwise_cons] at hp
    rw [List.foldl_cons]
    have : insert h acc p = acc ++ [p] := by
      unfold insert
      rw [if_neg]
      simp only [List.any_eq_true, not_exists, not_and]
      intro q hq
      rw [ha p (by simp) q hq]
      simp
    rw [this, ih hp.2, List.append_assoc]
    · rfl
    · intro q hq x hx
      simp only [List.mem_append, List.mem_singleton] at hx
      rcases hx with hx | hx
      · exact ha q (by simp [hq]) x hx
      · subst hx; exact hp.1 q hq

/-- The pairs are inserted. -/
def hashed (f : Nat → Nat) (a : Nat) (ps : List (Val × Val)) (d : Option Val) (r : RS) : RS :=
  let b := Body.hash ((ps.map fun p => (p.1.map f, p.2.map f)).foldl (insert r.heap) []) (d.map (Val.map f)) false
  { r with heap := r.heap.modify (f a) fun o => { o with body := b } }

/-- The last step of reading a Hash. -/
theorem hash_fin {a : Nat} {ps : List (Val × Val)} {d : Option Val} (hn : NotStr H a)
    (hk : ∀ p ∈ ps, KeyOk H p.1) (hpw : ps.Pairwise fun p q => keyEq H p.1 q.1 = false)
    {f f2 : Nat → Nat} {w w' : W} {r r2 : RS} {o : Obj}
    (o2 : Opn H a o f w r f2 w' r2) (ho : o.cls = none ∧ o.ext = [] ∧ o.ivars = [])
    (hm : ∀ b, .ref b ∈ (Body.hash ps d false).vals → .ref b ∈ w'.objs) :
    Opn H a { body := .hash ps d false } f w r f2 w' (hashed f2 a ps d r2) := by
  refine o2.upd _ _ ?_ ?_ (hn.elim _)
  · have hmem : ∀ p ∈ ps, ∀ b, p.1 = .ref b → .ref b ∈ w'.objs := by
      intro p hp b hb
      refine hm b ?_
      simp only [Body.vals, List.mem_append, List.mem_map]
      exact .inl (.inl ⟨p, hp, hb⟩)
    rw [insert_fold (acc := []) _ (by simp)]
    · simp only [Obj.map, Body.map, ho.1, ho.2.1, ho.2.2, List.nil_append, List.map_nil]
    · rw [List.pairwise_map]
      refine List.Pairwise.imp_of_mem ?_ hpw
      intro p q hp hq he
      exact keyEq_map o2.ext.sim (hk p hp) (hk q hq) (hmem p hp) (hmem q hq) he
  · intro b hb
    refine hm b ?_
    simpa [Obj.vals] using hb

theorem hash_length {ps : List (Val × Val)} {dv : Val → Wr} (hp : ∀ v, Pos (dv v)) {w : W} {bs : List UInt8} {w' : W}
    (h : cat (ps.map fun p => cat [dv p.1, dv p.2]) w = some (bs, w')) : ps.length ≤ bs.length :=
  cat_length (f := fun p : Val × Val => cat [dv p.1, dv p.2])
    (fun p _ => (hp p.1).cat (by simp)) h

theorem mem_hash {ps : List (Val × Val)} {v : Val} (h : v ∈ ps.map (·.1) ++ ps.map (·.2)) :
    v ∈ ps.flatMap fun p => [p.1] ++ [p.2] := by
  simp only [List.mem_append, List.mem_map] at h
  rcases h with ⟨p, hp, he⟩ | ⟨p, hp, he⟩
  · exact List.mem_flatMap.mpr ⟨p, hp, by simp [he]⟩
  · exact List.mem_flatMap.mpr ⟨p, hp, by simp [he]⟩

theorem RdC.hash {a : Nat} {ps : List (Val × Val)} {d : Option Val} {dv : Val → Wr} (hn : NotStr H a)
    (hk : ∀ p ∈ ps, KeyOk H p.1) (hpw : ps.Pairwise fun p q => keyEq H p.1 q.1 = false)
    (hd : d ≠ some .nil)
    (hv : ∀ v ∈ (Body.hash ps d false).vals, RdV E H v (dv v)) (hp : ∀ v, Pos (dv v)) :
    RdC E H a { body := .hash ps d false } (wHashCore dv ps d false) := by
  intro w bs w' f r rest F ha hw hs hin hF
  unfold wHashCore at hw
  simp only [Bool.false_eq_true, if_false, List.nil_append] at hw
  obtain ⟨b1, w1, c1, hA, hD, h3⟩ := cat_append hw
  obtain ⟨b2, w2, c2, h1, h2, h4⟩ := cat_cons hA
  obtain ⟨g4, g5⟩ := lit_some h1
  subst g4; subst g5; subst h4; subst h3
  have hlen := hash_length hp h2
  simp only [List.length_append, List.length_cons] at hF
  obtain ⟨F, rfl⟩ : ∃ k, F = k + 1 := ⟨F - 1, by omega⟩
  generalize ht : (if d.isSome then (125 : UInt8) else 123) = t at *
  have hin' : r.inp = t :: (wLen ps.length ++ (c2 ++ (c1 ++ rest))) := by rw [hin]; simp
  have hB1 := hs.sized.adv1 hin' r.syms
  have hB2 := hB1.adv (bs := wLen ps.length) rfl r.syms
  have hl := hB2.len (bs := c2) rfl
  have x1 : Ext H none f w r f w (adv r (t :: wLen ps.length) (c2 ++ (c1 ++ rest)) r.syms) :=
    Ext.adv' hs (by rw [hin']; simp)
  have o1 := Opn.opn x1.sim ha { body := .hash [] none false } rfl (by
      have := hs.nobj
      simp only [adv_pos, List.length_cons]; omega) (hn.elim _)
  have hpr := Rd.times (H := H)
    (m := fun F => (do let k ← readV E F; let x ← readV E F; pure (k, x)))
    (g := fun p f => (p.1.map f, p.2.map f)) (vs := fun p => [p.1] ++ [p.2])
    (wr := fun p : Val × Val => cat [dv p.1, dv p.2]) (l := ps)
    (fun p hp => (hv p.1 (by simp only [Body.vals, List.mem_append, List.mem_map]; exact .inl (.inl ⟨p, hp, rfl⟩))).pair
      (hv p.2 (by simp only [Body.vals, List.mem_append, List.mem_map]; exact .inl (.inr ⟨p, hp, rfl⟩))))
  obtain ⟨f2, r2, e2, i2, x2, v2⟩ := hpr.2 (w.reg a) c2 w1 _ _ (c1 ++ rest) F h2 o1.ext.sim rfl (by omega)
  have o2 := (Opn.pre x1 rfl o1).trans x2
  have hf2 : f2 a = r.heap.length := by rw [x2.agree a o1.mem]; simp
  have e2' : times (do let k ← readV E F; let x ← readV E F; pure (k, x)) ps.length
      ((adv r ([t] ++ wLen ps.length) (c2 ++ (c1 ++ rest)) r.syms).open
        { body := .hash [] none false }) = .ok (ps.map fun p => (p.1.map f2, p.2.map f2), r2) := e2
  have hact : ∀ hasD, act E (readV E F) t.toNat = readHash (readV E F) hasD →
      readV E (F + 1) r = readHash (readV E F) hasD
        (adv r [t] (wLen ps.length ++ (c2 ++ (c1 ++ rest))) r.syms) := by
    intro hasD he
    rw [readV_act E F hin', he]
  cases d with
  | none =>
    simp only [Option.isSome_none, Bool.false_eq_true, if_false] at ht
    subst ht
    obtain ⟨h5, h6⟩ := cat_nil hD
    subst h5; subst h6
    refine ⟨f2, _, ?_, ?_, hash_fin hn hk hpw o2 ⟨rfl, rfl, rfl⟩ ?_⟩
    · rw [hact false rfl]
      unfold readHash
      rw [bind_ok (rd_len (r := adv r [123] _ _) rfl (by omega) hB1)]
      rw [adv_adv, open_eq]
      simp only [adv_syms, adv_heap]
      rw [bind_ok e2']
      rw [if_neg (by simp), bind_ok (pure_eq _ _)]
      simp only [← hf2]
      rfl
    · exact i2
    · intro b hb
      refine v2 b (mem_hash ?_)
      simpa [Body.vals] using hb
  | some v =>
    simp only [Option.isSome_some, if_true] at ht
    subst ht
    have hD := cat_one hD
    obtain ⟨f3, r3, e3, i3, x3, v3⟩ := (hv v (by simp [Body.vals])).2 w1 c1 w' f2 r2 rest F hD o2.ext.sim i2 (by omega)
    have hps : (ps.map fun p => (p.1.map f2, p.2.map f2)) = ps.map fun p => (p.1.map f3, p.2.map f3) :=
      hpr.1 f2 f3 fun b hb => (x3.agree b (v2 b hb)).symm
    have hf3 : f3 a = r.heap.length := by rw [x3.agree a o2.mem, hf2]
    refine ⟨f3, _, ?_, ?_, hash_fin hn hk hpw (o2.trans x3) ⟨rfl, rfl, rfl⟩ ?_⟩
    · rw [hact true rfl]
      unfold readHash
      rw [bind_ok (rd_len (r := adv r [125] _ _) rfl (by omega) hB1)]
      rw [adv_adv, open_eq]
      simp only [adv_syms, adv_heap]
      rw [bind_ok e2', if_pos trivial]
      have hvn : v.map f3 ≠ .nil := by
        cases v <;> simp_all [Val.map]
      have e3' : (readV E F >>= fun x => (pure (if x = .nil then none else some x) : M (Option Val))) r2 =
          .ok (some (v.map f3), r3) := by
        rw [bind_ok e3, pure_eq, if_neg hvn]
      rw [bind_ok e3', hps]
      simp only [← hf3]
      rfl
    · exact i3
    · intro b hb
      simp only [Body.vals, Option.toList_some] at hb
      rcases List.mem_append.mp hb with hb | hb
      · exact x3.sub _ (v2 b (mem_hash hb))
      · exact v3 b hb

/-- The writer of a Hash by identity. -/
theorem hashCore_byId {dv : Val → Wr} {ps : List (Val × Val)} {d : Option Val} (w : W) :
    wHashCore dv ps d true w = cat [cat [lit [67], symW (asciiSym nHash)], wHashCore dv ps d false] w := by
  unfold wHashCore
  simp only [if_true, Bool.false_eq_true, if_false, List.nil_append, List.cons_append, cat, lit, symW]
  generalize cat _ _ = z
  rcases z with _ | ⟨c, w2⟩ <;> simp

/-- An instance of a user class. -/
theorem RdC.obj {a : Nat} {c : Sym} {ps : List (Sym × Val)} {dv : Val → Wr} {k : Kind} (hn : NotStr H a)
    (hc : GoodSym c) (hk : E.kind c.bytes = some k) (hk' : k = .plain) (hr : c.bytes ≠ nRange)
    (hg : ∀ p ∈ ps, GoodSym p.1) (hv : ∀ p ∈ ps, RdV E H p.2 (dv p.2))
    (hnd : (ps.map (·.1)).Nodup) :
    RdC E H a { body := .obj, cls := some c, ivars := ps } (cat [lit [111], symW c, wIvars dv ps]) := by
  intro w bs w' f r rest F ha hw hs hin hF
  obtain ⟨b1, w1, c1, h1, h2, h3⟩ := cat_cons hw
  obtain ⟨g4, g5⟩ := lit_some h1
  subst g4; subst g5; subst h3
  obtain ⟨b2, w2, c2, g2, h4, h3⟩ := cat_cons h2
  subst h3
  obtain ⟨b3, w3, c3, h5, h6, h7⟩ := cat_cons (cat_one h4)
  obtain ⟨g4, g5⟩ := lit_some h5
  subst g4; subst g5; subst h7
  have hlen := pairs_length h6
  obtain ⟨k1, k2⟩ := symW_some g2
  simp only [List.length_append, List.length_cons, List.length_nil] at hF
  obtain ⟨F, rfl⟩ : ∃ k, F = k + 1 := ⟨F - 1, by omega⟩
  have hin' : r.inp = 111 :: (b2 ++ (wLen ps.length ++ (c3 ++ rest))) := by rw [hin]; simp
  have x1 : Ext H none f w r f w (adv r [111] (b2 ++ (wLen ps.length ++ (c3 ++ rest))) r.syms) :=
    Ext.adv' hs (bs := [111]) hin'
  have hsy : symW c w = some (b2, { w with syms := w3.syms }) := by
    unfold symW
    simp only [W.reg] at k1
    rw [k1]
  obtain ⟨f2, r2, e2, i2, x2, -⟩ := (Rd.symbol (E := E) (H := H) hc).2 w b2 _ f _ _ F hsy
    x1.sim rfl (by omega)
  have hw1 : w3 = W.reg { w with syms := w3.syms } a := k2
  have hB2 := x2.sim.sized.adv i2 r2.syms
  have hl := hB2.len (bs := c3) rfl
  have x3 : Ext H none f2 { w with syms := w3.syms } r2 f2 { w with syms := w3.syms }
      (adv r2 (wLen ps.length) (c3 ++ rest) r2.syms) := Ext.adv' x2.sim i2
  have o1 := Opn.opn x3.sim ha { body := .obj, cls := some c } rfl (by
      have q1 : w.objs.length ≤ r2.pos := x2.sim.nobj
      have q2 := wLen_pos ps.length
      simp only [adv_pos]
      omega) (hn.elim _)
  rw [hw1] at h6
  obtain ⟨f4, r4, e4, i4, x4, v4⟩ := (Rd.pairs hg hv).2 _ c3 w' _ _ rest F h6 o1.ext.sim rfl (by omega)
  have o2 := (Opn.pre ((x1.trans x2).trans x3) rfl o1).trans x4
  have hf4 : f4 a = r2.heap.length := by rw [x4.agree a o1.mem]; simp
  refine ⟨f4, { r4 with heap := r4.heap.modify (f4 a) fun o =>
    { o with ivars := (ps.map fun p => (p.1, p.2.map f4)).foldl setIvar o.ivars } }, ?_, i4, ?_⟩
  · rw [readV_act E F hin']
    show readObject E _ _ = _
    unfold readObject
    rw [bind_ok e2, bind_ok (rd_len i2 (by omega) x2.sim.sized)]
    have hg : ∀ r : RS, (fun r => Res.ok (r.objs.length, r) : M Nat) r = .ok (r.objs.length, r) :=
      fun _ => rfl
    rw [bind_ok (hg _), hk]
    simp only
    rw [open_eq, bind_ok (rd_cap (by omega))]
    have e4' : readPairs E (readV E F) ps.length ((adv r2 (wLen ps.length) (c3 ++ rest) r2.syms).open
        { body := .obj, cls := some c }) = .ok (ps.map fun p => (p.1, p.2.map f4), r4) := e4
    rw [bind_ok e4', if_neg hr, if_pos (Or.inl hk')]
    simp only [adv_heap]
    rw [bind_ok (modify_eq _ _ _), pure_eq, hf4]
  · refine o2.upd _ _ ?_ ?_ (hn.elim _)
    · simp only [Obj.map, List.map_nil, setIvars_fold hnd]
    · intro b hb
      simp only [Obj.vals, Body.vals, List.nil_append] at hb
      exact v4 b (mem_snd hb)

/-- A struct. -/
theorem RdC.struct {a : Nat} {c : Sym} {ps : List (Sym × Val)} {dv : Val → Wr} (hn : NotStr H a)
    (hc : GoodSym c) (hk : E.kind c.bytes = some (.struct (ps.map (·.1))))
    (hg : ∀ p ∈ ps, GoodSym p.1) (hv : ∀ p ∈ ps, RdV E H p.2 (dv p.2)) :
    RdC E H a { body := .struct ps, cls := some c }
      (cat ([lit [83], symW c, lit (wLen ps.length)] ++ wPairs dv ps)) := by
  intro w bs w' f r rest F ha hw hs hin hF
  obtain ⟨b1, w1, c1, h1, h2, h3⟩ := cat_cons hw
  obtain ⟨g4, g5⟩ := lit_some h1
  subst g4; subst g5; subst h3
  obtain ⟨b2, w2, c2, g2, h4, h3⟩ := cat_cons h2
  subst h3
  obtain ⟨b3, w3, c3, h5, h6, h7⟩ := cat_cons h4
  obtain ⟨g4, g5⟩ := lit_some h5
  subst g4; subst g5; subst h7
  have hlen := pairs_length h6
  obtain ⟨k1, k2⟩ := symW_some g2
  simp only [List.length_append, List.length_cons, List.length_nil] at hF
  obtain ⟨F, rfl⟩ : ∃ k, F = k + 1 := ⟨F - 1, by omega⟩
  have hin' : r.inp = 83 :: (b2 ++ (wLen ps.length ++ (c3 ++ rest))) := by rw [hin]; simp
  have x1 : Ext H none f w r f w (adv r [83] (b2 ++ (wLen ps.length ++ (c3 ++ rest))) r.syms) :=
    Ext.adv' hs (bs := [83]) hin'
  have hsy : symW c w = some (b2, { w with syms := w3.syms }) := by
    unfold symW
    simp only [W.reg] at k1
    rw [k1]
  obtain ⟨f2, r2, e2, i2, x2, -⟩ := (Rd.symbol (E := E) (H := H) hc).2 w b2 _ f _ _ F hsy
    x1.sim rfl (by omega)
  have hw1 : w3 = W.reg { w with syms := w3.syms } a := k2
  have hB2 := x2.sim.sized.adv i2 r2.syms
  have hl := hB2.len (bs := c3) rfl
  have x3 : Ext H none f2 { w with syms := w3.syms } r2 f2 { w with syms := w3.syms }
      (adv r2 (wLen ps.length) (c3 ++ rest) r2.syms) := Ext.adv' x2.sim i2
  let o0 : Obj := { body := .struct ((ps.map (·.1)).map fun s => (s, .nil)), cls := some c }
  have ho0 : ∀ f : Nat → Nat, o0.map f = o0 := by
    intro f
    simp [o0, Obj.map, Body.map, Function.comp_def, Val.map]
  have o1 : Opn H a o0 f2 { w with syms := w3.syms } (adv r2 (wLen ps.length) (c3 ++ rest) r2.syms)
      (put f2 a r2.heap.length) (W.reg { w with syms := w3.syms } a)
      ((adv r2 (wLen ps.length) (c3 ++ rest) r2.syms).open o0) := by
    refine ⟨Ext.opn x3.sim ha o0 ?_ (hn.elim _), by simp [W.reg], ha, ?_, ?_, by simp⟩
    · have q1 : w.objs.length ≤ r2.pos := x2.sim.nobj
      have q2 := wLen_pos ps.length
      simp only [adv_pos]
      omega
    · rw [put_self, ho0]
      exact List.getElem?_concat_length
    · intro b hb
      simp [o0, Obj.vals, Body.vals] at hb
  rw [hw1] at h6
  obtain ⟨f4, r4, e4, i4, x4, v4⟩ := (Rd.pairs hg hv).2 _ c3 w' _ _ rest F h6 o1.ext.sim rfl (by omega)
  have o2 := (Opn.pre ((x1.trans x2).trans x3) rfl o1).trans x4
  have hf4 : f4 a = r2.heap.length := by rw [x4.agree a o1.mem]; simp
  refine ⟨f4, { r4 with heap := r4.heap.modify (f4 a) fun o =>
    { o with body := .struct (ps.map fun p => (p.1, p.2.map f4)) } }, ?_, i4, ?_⟩
  · rw [readV_act E F hin']
    show readStruct E _ _ = _
    unfold readStruct
    rw [bind_ok e2, bind_ok (rd_len i2 (by omega) x2.sim.sized), hk]
    simp only
    rw [if_neg (by simp), open_eq]
    have e4' : readPairs E (readV E F) ps.length ((adv r2 (wLen ps.length) (c3 ++ rest) r2.syms).open
        o0) = .ok (ps.map fun p => (p.1, p.2.map f4), r4) := e4
    rw [bind_ok e4', if_pos (map_fst f4 ps)]
    simp only [adv_heap]
    rw [bind_ok (modify_eq _ _ _), pure_eq, hf4]
  · refine o2.upd _ _ ?_ ?_ (hn.elim _)
    · simp only [Obj.map, o0, List.map_nil, Body.map]
    · intro b hb
      simp only [Obj.vals, Body.vals, List.map_nil, List.append_nil] at hb
      exact v4 b (mem_snd hb)

end Verif.Marshal
