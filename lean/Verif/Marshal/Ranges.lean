import Verif.Marshal.Hashes

/-! # Reading back ranges (helper lemmas) -/

namespace Verif.Marshal

variable {E : Env} {H : List Obj}

/-- It takes slots for immediates only. -/
def Leafy (wr : Wr) : Prop :=
  ∀ w bs w', wr w = some (bs, w') → ∃ t, w'.objs = w.objs ++ t ∧ ∀ a, .ref a ∉ t

theorem Leafy.lit (bs : List UInt8) : Leafy (lit bs) := by
  intro w bs w' h
  rw [(lit_some h).2]
  exact ⟨[], by simp, by simp⟩

theorem Leafy.sym (s : Sym) : Leafy (symW s) := by
  intro w bs w' h
  rw [(symW_some h).2]
  exact ⟨[], by simp, by simp⟩

theorem Leafy.cat {fs : List Wr} (h : ∀ f ∈ fs, Leafy f) : Leafy (cat fs) := by
  induction fs with
  | nil => exact Leafy.lit []
  | cons f fs ih =>
    intro w bs w' hw
    obtain ⟨b, w1, c, h1, h2, -⟩ := cat_cons hw
    obtain ⟨t, e1, n1⟩ := h f (by simp) w b w1 h1
    obtain ⟨u, e2, n2⟩ := ih (fun g hg => h g (by simp [hg])) w1 c w' h2
    refine ⟨t ++ u, by rw [e2, e1, List.append_assoc], ?_⟩
    intro a ha
    rcases List.mem_append.mp ha with ha | ha
    · exact n1 a ha
    · exact n2 a ha

theorem Leafy.slot {v : Val} (hv : ∀ a, v ≠ .ref a) {wr : Wr} (h : Leafy wr) : Leafy (withSlot v wr) := by
  intro w bs w' hw
  unfold withSlot at hw
  split at hw
  · simp only [Option.some.injEq, Prod.mk.injEq] at hw
    rw [← hw.2]
    exact ⟨[], by simp, by simp⟩
  · obtain ⟨t, e, n⟩ := h _ _ _ hw
    refine ⟨v :: t, by simp [e], ?_⟩
    intro a ha
    rcases List.mem_cons.mp ha with ha | ha
    · exact hv a ha.symm
    · exact n a ha

theorem Leafy.dumpV {v : Val} (hv : ∀ a, v ≠ .ref a) (n : Nat) : Leafy (dumpV E H n v) := by
  cases n with
  | zero => intro w bs w' h; simp [Marshal.dumpV] at h
  | succ n =>
    cases v with
    | nil => exact Leafy.lit _
    | tru => exact Leafy.lit _
    | fls => exact Leafy.lit _
    | fix k =>
      simp only [Marshal.dumpV]
      split
      · exact Leafy.lit _
      · exact Leafy.lit _
    | flo b => exact Leafy.slot (by simp) (Leafy.lit _)
    | sym s => exact Leafy.sym s
    | cls name =>
      simp only [Marshal.dumpV]
      refine Leafy.slot (by simp) ?_
      split
      · exact Leafy.lit _
      · refine Leafy.cat fun f hf => ?_
        simp only [List.mem_cons, List.not_mem_nil, or_false] at hf
        rcases hf with rfl | rfl | rfl
        · exact Leafy.lit _
        · exact Leafy.sym _
        · exact Leafy.lit _
    | ref a => exact absurd rfl (hv a)

theorem cat_two (x y : Wr) (l : List Wr) : cat (x :: y :: l) = cat (cat [x, y] :: l) := by
  funext w
  simp only [cat, lit]
  cases x w with
  | none => rfl
  | some p =>
    obtain ⟨b, w1⟩ := p
    simp only
    cases y w1 with
    | none => rfl
    | some q =>
      obtain ⟨c, w2⟩ := q
      simp only [List.append_nil]
      cases cat l w2 with
      | none => rfl
      | some s => simp

theorem cat_congr {x : Wr} {l l' : List Wr} (h : cat l = cat l') : cat (x :: l) = cat (x :: l') := by
  funext w
  simp only [cat, h]

/-- The three variables of a Range. -/
def rangeVars (b e : Val) (x : Bool) : List (Sym × Val) :=
  [(asciiSym nExcl, if x then .tru else .fls), (asciiSym nBegin, b), (asciiSym nEnd, e)]

theorem wRange_eq {dv : Val → Wr} {b e : Val} {x : Bool} (hT : dv .tru = lit [84]) (hF : dv .fls = lit [70]) :
    wRange dv b e x = cat ([lit [111], symW (asciiSym nRange), lit (wLen 3)] ++ wPairs dv (rangeVars b e x)) := by
  have hx : dv (if x then .tru else .fls) = lit [if x then 84 else 70] := by cases x <;> simp [hT, hF]
  unfold wRange
  refine cat_congr (cat_congr (cat_congr ?_))
  simp only [rangeVars, wPairs, List.map_cons, List.map_nil, hx]
  rw [cat_two]
  refine cat_congr ?_
  rw [cat_two]
  refine cat_congr ?_
  exact cat_two _ _ _

theorem RdC.range {a : Nat} {b e : Val} {x : Bool} {dv : Val → Wr} {k : Kind} (hn : NotStr H a)
    (hk : E.kind nRange = some k) (hT : dv .tru = lit [84]) (hFl : dv .fls = lit [70])
    (hb : ∀ a, b ≠ .ref a) (he : ∀ a, e ≠ .ref a) (hrb : RdV E H b (dv b)) (hre : RdV E H e (dv e))
    (hlb : Leafy (dv b)) (hle : Leafy (dv e)) :
    RdC E H a { body := .range b e x } (wRange dv b e x) := by
  intro w bs w' f r rest F ha hw hs hin hF
  rw [wRange_eq hT hFl] at hw
  have hg : ∀ p ∈ rangeVars b e x, GoodSym p.1 := by
    intro p hp
    simp only [rangeVars, List.mem_cons, List.not_mem_nil, or_false] at hp
    have g1 : GoodSym (asciiSym nExcl) := by unfold GoodSym; decide
    have g2 : GoodSym (asciiSym nBegin) := by unfold GoodSym; decide
    have g3 : GoodSym (asciiSym nEnd) := by unfold GoodSym; decide
    rcases hp with rfl | rfl | rfl
    · exact g1
    · exact g2
    · exact g3
  have hv : ∀ p ∈ rangeVars b e x, RdV E H p.2 (dv p.2) := by
    intro p hp
    simp only [rangeVars, List.mem_cons, List.not_mem_nil, or_false] at hp
    rcases hp with rfl | rfl | rfl
    · cases x
      · simp only [Bool.false_eq_true, if_false, hFl]; exact RdV.fls
      · simp only [if_true, hT]; exact RdV.tru
    · exact hrb
    · exact hre
  obtain ⟨b1, w1, c1, h1, h2, h3⟩ := cat_cons hw
  obtain ⟨g4, g5⟩ := lit_some h1
  subst g4; subst g5; subst h3
  obtain ⟨b2, w2, c2, g2, h4, h3⟩ := cat_cons h2
  subst h3
  obtain ⟨b3, w3, c3, h5, h6, h7⟩ := cat_cons h4
  obtain ⟨g4, g5⟩ := lit_some h5
  subst g4; subst g5; subst h7
  obtain ⟨k1, k2⟩ := symW_some g2
  simp only [List.length_append, List.length_cons, List.length_nil] at hF
  obtain ⟨F, rfl⟩ : ∃ k, F = k + 1 := ⟨F - 1, by omega⟩
  have hin' : r.inp = 111 :: (b2 ++ (wLen 3 ++ (c3 ++ rest))) := by rw [hin]; simp
  have x1 : Ext H none f w r f w (adv r [111] (b2 ++ (wLen 3 ++ (c3 ++ rest))) r.syms) :=
    Ext.adv' hs (bs := [111]) hin'
  have hsy : symW (asciiSym nRange) w = some (b2, { w with syms := w3.syms }) := by
    unfold symW
    simp only [W.reg] at k1
    rw [k1]
  obtain ⟨f2, r2, e2, i2, x2, -⟩ := (Rd.symbol (E := E) (H := H) (s := asciiSym nRange)
    (by unfold GoodSym; decide)).2 w b2 _ f _ _ F hsy x1.sim rfl (by omega)
  have hw1 : w3 = W.reg { w with syms := w3.syms } a := k2
  have x3 : Ext H none f2 { w with syms := w3.syms } r2 f2 { w with syms := w3.syms }
      (adv r2 (wLen 3) (c3 ++ rest) r2.syms) := Ext.adv' x2.sim i2
  have o1 := Opn.opn x3.sim ha { body := .obj, cls := some (asciiSym nRange) } rfl (by
      have q1 : w.objs.length ≤ r2.pos := x2.sim.nobj
      have q2 := wLen_pos 3
      simp only [adv_pos]
      omega) (hn.elim _)
  have hleaf : Leafy (cat (wPairs dv (rangeVars b e x))) := by
    refine Leafy.cat fun g hg => ?_
    simp only [wPairs, rangeVars, List.map_cons, List.map_nil, List.mem_cons, List.not_mem_nil, or_false] at hg
    have hpr : ∀ (s : Sym) (v : Wr), Leafy v → Leafy (cat [symW s, v]) := by
      intro s v h
      refine Leafy.cat fun f hf => ?_
      simp only [List.mem_cons, List.not_mem_nil, or_false] at hf
      rcases hf with rfl | rfl
      · exact Leafy.sym _
      · exact h
    rcases hg with rfl | rfl | rfl
    · refine hpr _ _ ?_
      cases x
      · simp only [Bool.false_eq_true, if_false, hFl]; exact Leafy.lit _
      · simp only [if_true, hT]; exact Leafy.lit _
    · exact hpr _ _ hlb
    · exact hpr _ _ hle
  obtain ⟨t, ht, hnt⟩ := hleaf _ _ _ h6
  have hobj : w'.objs = w.objs ++ .ref a :: t := by
    rw [ht, hw1]; simp [W.reg]
  rw [hw1] at h6
  obtain ⟨f4, r4, e4, i4, x4, v4⟩ := (Rd.pairs hg hv).2 _ c3 w' _ _ rest F h6 o1.ext.sim rfl (by omega)
  have o2 := (Opn.pre ((x1.trans x2).trans x3) rfl o1).trans x4
  have hf4 : f4 a = r2.heap.length := by rw [x4.agree a o1.mem]; simp
  have hbm : ∀ f : Nat → Nat, b.map f = b := by intro f; cases b <;> first | rfl | exact absurd rfl (hb _)
  have hem : ∀ f : Nat → Nat, e.map f = e := by intro f; cases e <;> first | rfl | exact absurd rfl (he _)
  have hmem : ∀ c, .ref c ∈ w'.objs → c ≠ a → .ref c ∈ w.objs := by
    intro c hc hne
    rw [hobj] at hc
    simp only [List.mem_append, List.mem_cons, Val.ref.injEq] at hc
    rcases hc with hc | hc | hc
    · exact hc
    · exact absurd hc hne
    · exact absurd hc (hnt c)
  have hlt : ∀ c, .ref c ∈ w.objs → f4 c < r.heap.length := by
    intro c hc
    rw [o2.ext.agree c hc]
    exact hs.lt c hc
  have hmono := o2.ext.mono
  have hne : ∀ c, .ref c ∈ w.objs → c ≠ a := fun c hc e => ha (e ▸ hc)
  refine ⟨put f4 a r4.heap.length, { r4 with
    heap := r4.heap ++ [{ body := .range b e x }]
    objs := r4.objs.set w.objs.length (.ref r4.heap.length) }, ?_, i4, ?_⟩
  · rw [readV_act E F hin']
    show readObject E _ _ = _
    unfold readObject
    rw [bind_ok e2, bind_ok (rd_len i2 (by omega) x2.sim.sized)]
    have hg : ∀ r : RS, (fun r => Res.ok (r.objs.length, r) : M Nat) r = .ok (r.objs.length, r) :=
      fun _ => rfl
    rw [bind_ok (hg _)]
    show (match E.kind nRange with | none => _ | some k => _ : M Val) _ = _
    rw [hk]
    simp only
    rw [open_eq, bind_ok (rd_cap (by omega))]
    have e4' : readPairs E (readV E F) 3 ((adv r2 (wLen 3) (c3 ++ rest) r2.syms).open
        { body := .obj, cls := some (asciiSym nRange) }) =
        .ok ((rangeVars b e x).map fun p => (p.1, p.2.map f4), r4) := e4
    rw [bind_ok e4', if_pos (show (asciiSym nRange).bytes = nRange from rfl)]
    have hlen : r2.objs.length = w.objs.length := by
      rw [x2.sim.objs]; simp
    have l1 : lastOf ((rangeVars b e x).map fun p => (p.1, p.2.map f4)) nExcl = if x then .tru else .fls := by
      cases x <;> rfl
    have l2 : lastOf ((rangeVars b e x).map fun p => (p.1, p.2.map f4)) nBegin = b := by
      show b.map f4 = b
      exact hbm f4
    have l3 : lastOf ((rangeVars b e x).map fun p => (p.1, p.2.map f4)) nEnd = e := by
      show e.map f4 = e
      exact hem f4
    rw [l1, l2, l3]
    rw [bind_ok (alloc_eq _ _)]
    simp only [adv_objs, hlen, put_self]
    have hx : decide ((if x = true then Val.tru else Val.fls) ≠ Val.nil ∧
        (if x = true then Val.tru else Val.fls) ≠ Val.fls) = x := by cases x <;> rfl
    rw [hx]
    rfl
  · refine ⟨?_, o2.mem, ha, ?_, ?_, ?_⟩
    · exact
        { sim :=
            { syms := o2.ext.sim.syms
              objs := by
                have h0 : r4.objs = w.objs.map (Val.map f4) ++ .ref (f4 a) :: t.map (Val.map f4) := by
                  rw [o2.ext.sim.objs, hobj]; simp [Val.map]
                show r4.objs.set w.objs.length _ = _
                rw [h0, hobj]
                simp only [List.map_append, List.map_cons, map_put ha, map_put (hnt a), Val.map, put_self]
                rw [List.set_append_right _ _ (by simp)]
                simp
              lt := by
                intro c hc
                simp only [List.length_append, List.length_singleton]
                by_cases ec : c = a
                · subst ec; simp
                · rw [put_ne _ _ ec]
                  have := hlt c (hmem c hc ec); omega
              inj := by
                intro c d hc hd hcd
                by_cases e1 : c = a
                · by_cases e2 : d = a
                  · rw [e1, e2]
                  · rw [e1, put_self, put_ne _ _ e2] at hcd
                    have := hlt d (hmem d hd e2); omega
                · by_cases e2 : d = a
                  · rw [e2, put_self, put_ne _ _ e1] at hcd
                    have := hlt c (hmem c hc e1); omega
                  · rw [put_ne _ _ e1, put_ne _ _ e2] at hcd
                    exact o2.ext.sim.inj c d hc hd hcd
              nsym := o2.ext.sim.nsym
              nobj := o2.ext.sim.nobj
              sized := o2.ext.sim.sized
              strs := by
                intro c o bs' e' hc q1 q2
                by_cases ec : c = a
                · subst ec; exact absurd q2 (hn o bs' e' q1)
                · obtain ⟨o', q1, q2⟩ := o2.ext.sim.strs c o bs' e' hc q1 q2
                  refine ⟨o', ?_, q2⟩
                  rw [put_ne _ _ ec]
                  show (r4.heap ++ [_])[_]? = _
                  rw [List.getElem?_append_left (o2.ext.sim.lt c hc)]
                  exact q1 }
          sub := o2.ext.sub
          agree := fun c hc => by rw [put_ne _ _ (hne c hc)]; exact o2.ext.agree c hc
          frame := fun c hc => by
            show (r4.heap ++ [_])[_]? = _
            rw [List.getElem?_append_left (by omega)]
            exact o2.ext.frame c hc
          mono := by simp only [List.length_append]; omega
          done := fun c hc hn hx => by
            by_cases ec : c = a
            · subst ec; exact absurd rfl hx
            · exact absurd (hmem c hc ec) hn }
    · rw [put_self]
      show (r4.heap ++ [_])[_]? = _
      rw [List.getElem?_concat_length]
      simp [Obj.map, Body.map, hbm, hem]
    · intro c hc
      simp only [Obj.vals, Body.vals, List.map_nil, List.append_nil, List.mem_cons, List.not_mem_nil, or_false] at hc
      rcases hc with hc | hc
      · exact absurd hc.symm (hb c)
      · exact absurd hc.symm (he c)
    · rw [put_self]; exact hmono

end Verif.Marshal
