import Verif.Marshal.Objects

/-! # Reading back objects that hold values (helper lemmas) -/

namespace Verif.Marshal

variable {E : Env} {H : List Obj}

theorem RdC.arr {a : Nat} {vs : List Val} {dv : Val → Wr} (hn : NotStr H a)
    (hv : ∀ v ∈ vs, RdV E H v (dv v)) (hp : ∀ v ∈ vs, Pos (dv v)) :
    RdC E H a { body := .arr vs } (cat (lit (91 :: wLen vs.length) :: vs.map dv)) := by
  intro w bs w' f r rest F ha hw hs hin hF
  obtain ⟨b, w1, c, h1, h2, h3⟩ := cat_cons hw
  obtain ⟨g4, g5⟩ := lit_some h1
  subst g4; subst g5; subst h3
  have hlen := cat_length hp h2
  simp only [List.length_append, List.length_cons] at hF
  obtain ⟨F, rfl⟩ : ∃ k, F = k + 1 := ⟨F - 1, by omega⟩
  have hin' : r.inp = 91 :: (wLen vs.length ++ (c ++ rest)) := by rw [hin]; simp
  have hB1 := hs.sized.adv1 hin' r.syms
  have hB2 := hB1.adv (bs := wLen vs.length) rfl r.syms
  have hl := hB2.len (bs := c) rfl
  have x1 : Ext H none f w r f w (adv r (91 :: wLen vs.length) (c ++ rest) r.syms) :=
    Ext.adv' hs (by rw [hin']; simp)
  have o1 := Opn.opn x1.sim ha { body := .arr [] } rfl (by
      have := hs.nobj
      simp only [adv_pos, List.length_cons]; omega) (hn.elim _)
  obtain ⟨f2, r2, e2, i2, x2, v2⟩ := (Rd.times (m := fun F => readV E F) (g := fun v f => v.map f)
    (vs := fun v => [v]) (wr := dv) (l := vs) hv).2 (w.reg a) c w' _ _ rest F h2 o1.ext.sim rfl (by omega)
  have o2 := (Opn.pre x1 rfl o1).trans x2
  have hf2 : f2 a = r.heap.length := by rw [x2.agree a o1.mem]; simp
  refine ⟨f2, { r2 with heap := r2.heap.modify (f2 a) fun o => { o with body := (Body.arr vs).map f2 } },
    ?_, i2, ?_⟩
  · rw [readV_act E F hin']
    show readArray _ _ = _
    unfold readArray
    rw [bind_ok (rd_len (r := adv r [91] _ _) rfl (by omega) hB1)]
    rw [bind_ok (rd_cap (by omega)), adv_adv, open_eq]
    have e2' : times (readV E F) vs.length ((adv r ([91] ++ wLen vs.length) (c ++ rest) r.syms).open
        { body := .arr [] }) = .ok (vs.map fun v => v.map f2, r2) := e2
    simp only [adv_syms, adv_heap]
    rw [bind_ok e2']
    rw [bind_ok (modify_eq _ _ _), pure_eq, hf2]
    rfl
  · refine o2.upd _ _ rfl ?_ (hn.elim _)
    intro b hb
    refine v2 b ?_
    simp only [Obj.vals, Body.vals, List.map_nil, List.append_nil] at hb
    exact List.mem_flatMap.mpr ⟨.ref b, hb, by simp⟩

/-! Instance variables. -/

theorem setIvar_fold {ps : List (Sym × Val)} (hn : (ps.map (·.1)).Nodup) :
    ∀ acc : List (Sym × Val), (∀ p ∈ ps, ∀ q ∈ acc, q.1 ≠ p.1) → ps.foldl setIvar acc = acc ++ ps := by
  induction ps with
  | nil => intro acc _; simp
  | cons p ps ih =>
    intro acc h
    simp only [List.map_cons, List.nodup_cons] at hn
    rw [List.foldl_cons]
    have : setIvar acc p = acc ++ [p] := by
      unfold setIvar
      rw [if_neg]
      simp only [List.any_eq_true, decide_eq_true_eq, not_exists, not_and]
      exact fun q hq => h p (by simp) q hq
    rw [this, ih hn.2, List.append_assoc]
    · rfl
    · intro q hq x hx
      simp only [List.mem_append, List.mem_singleton] at hx
      rcases hx with hx | hx
      · exact h q (by simp [hq]) x hx
      · subst hx
        intro e
        exact hn.1 (by rw [e]; exact List.mem_map_of_mem hq)

theorem map_fst (f : Nat → Nat) (ps : List (Sym × Val)) :
    (ps.map fun p => (p.1, p.2.map f)).map (·.1) = ps.map (·.1) := by
  simp [List.map_map, Function.comp_def]

theorem setIvars_fold {ps : List (Sym × Val)} (hn : (ps.map (·.1)).Nodup) (f : Nat → Nat) :
    (ps.map fun p => (p.1, p.2.map f)).foldl setIvar [] = ps.map fun p => (p.1, p.2.map f) := by
  rw [setIvar_fold (by rw [map_fst]; exact hn) [] (by simp)]
  rfl

/-- The names and values of an ivar block or a struct. -/
theorem Rd.pairs {ps : List (Sym × Val)} {dv : Val → Wr} (hg : ∀ p ∈ ps, GoodSym p.1)
    (hv : ∀ p ∈ ps, RdV E H p.2 (dv p.2)) :
    Rd H (fun F => readPairs E (readV E F) ps.length) (fun f => ps.map fun p => (p.1, p.2.map f))
      (ps.flatMap fun p => [p.2]) (cat (wPairs dv ps)) :=
  Rd.times (m := fun F => (do let s ← readSymbol E (readV E F); let v ← readV E F; pure (s, v)))
    (g := fun p f => (p.1, p.2.map f)) (vs := fun p => [p.2]) (wr := fun p => cat [symW p.1, dv p.2])
    fun p hp => (Rd.symbol (hg p hp)).pair (hv p hp)

theorem pairs_length {ps : List (Sym × Val)} {dv : Val → Wr} {w : W} {bs : List UInt8} {w' : W}
    (h : cat (wPairs dv ps) w = some (bs, w')) : ps.length ≤ bs.length :=
  cat_length (f := fun p : Sym × Val => cat [symW p.1, dv p.2])
    (fun p _ => (Pos.sym p.1).cat (by simp)) h

theorem mem_snd {ps : List (Sym × Val)} {v : Val} (h : v ∈ ps.map (·.2)) : v ∈ ps.flatMap fun p => [p.2] := by
  simp only [List.mem_map] at h
  obtain ⟨p, hp, he⟩ := h
  exact List.mem_flatMap.mpr ⟨p, hp, by simp [he]⟩

/-- An ivar block after an object in progress. -/
theorem rd_ivars {a : Nat} {o : Obj} {ps : List (Sym × Val)} {dv : Val → Wr}
    (hg : ∀ p ∈ ps, GoodSym p.1) (hv : ∀ p ∈ ps, RdV E H p.2 (dv p.2))
    {w w1 w' : W} {f f1 : Nat → Nat} {r r1 : RS} {bs rest : List UInt8} {F : Nat}
    (ho : Opn H a o f w r f1 w1 r1) (hw : wIvars dv ps w1 = some (bs, w')) (hin : r1.inp = bs ++ rest)
    (hF : bs.length ≤ F) :
    ∃ f2 r2, (readLen >>= fun n => readPairs E (readV E F) n) r1 =
        .ok (ps.map fun p => (p.1, p.2.map f2), r2) ∧ r2.inp = rest ∧ ps.length < 2 ^ 31 ∧
      Opn H a o f w r f2 w' r2 ∧ f2 a = f1 a ∧ ∀ b, .ref b ∈ ps.map (·.2) → .ref b ∈ w'.objs := by
  obtain ⟨b, w2, c, h1, h2, h3⟩ := cat_cons hw
  obtain ⟨g4, g5⟩ := lit_some h1
  subst g4; subst g5; subst h3
  have hlen := pairs_length h2
  have hs := ho.ext.sim
  rw [List.append_assoc] at hin
  have hB1 := hs.sized.adv hin r1.syms
  have hl := hB1.len (bs := c) rfl
  simp only [List.length_append] at hF
  have x1 : Ext H none f1 w2 r1 f1 w2 (adv r1 (wLen ps.length) (c ++ rest) r1.syms) := Ext.adv' hs hin
  obtain ⟨f2, r2, e2, i2, x2, v2⟩ := (Rd.pairs hg hv).2 w2 c w' f1 _ rest F h2 x1.sim rfl (by omega)
  refine ⟨f2, r2, ?_, i2, by omega, ho.trans (x1.trans x2), ?_, ?_⟩
  · rw [bind_ok (rd_len hin (by omega) hs.sized)]
    exact e2
  · rw [(x1.trans x2).agree a ho.mem]
  · exact fun b hb => v2 b (mem_snd hb)

/-- What it writes does not begin as a String or a Symbol does. -/
def Starts (c : Wr) : Prop := ∀ w bs w', c w = some (bs, w') →
  ∃ t l, bs = t :: l ∧ t.toNat ≠ 34 ∧ t.toNat ≠ 58 ∧ t.toNat ≠ 117

theorem Starts.lit {t : UInt8} {l : List UInt8} (h : t.toNat ≠ 34 ∧ t.toNat ≠ 58 ∧ t.toNat ≠ 117) :
    Starts (lit (t :: l)) := by
  intro w bs w' hw
  obtain ⟨h1, -⟩ := lit_some hw
  exact ⟨t, l, h1, h⟩

theorem Starts.cat {c : Wr} {fs : List Wr} (h : Starts c) : Starts (cat (c :: fs)) := by
  intro w bs w' hw
  obtain ⟨b, w1, d, h1, h2, h3⟩ := cat_cons hw
  obtain ⟨t, l, e, ht⟩ := h w b w1 h1
  exact ⟨t, l ++ d, by rw [h3, e]; rfl, ht⟩

theorem readIvarWrapped_other {rv : M Val} {r : RS} {t : UInt8} {l : List UInt8} (h : r.inp = t :: l)
    (ht : t.toNat ≠ 34 ∧ t.toNat ≠ 58 ∧ t.toNat ≠ 117) :
    readIvarWrapped E rv r = (rv >>= fun v => readLen >>= fun n => readPairs E rv n >>= fun ps =>
      setIvars v (ps.filter fun p => p.1.bytes ≠ nE ∧ p.1.bytes ≠ nEncoding) >>= fun _ => pure v) r := by
  unfold readIvarWrapped
  rw [bind_ok (rd_byte h)]
  generalize t.toNat = k at ht
  split
  · exact absurd rfl ht.1
  · exact absurd rfl ht.2.1
  · exact absurd rfl ht.2.2
  · rw [bind_ok (unread_adv h)]

/-- `I` before and an ivar block after an object. -/
theorem RdC.ivars {a : Nat} {o : Obj} {ps : List (Sym × Val)} {dv : Val → Wr} {c : Wr} {fs : List Wr}
    (h : RdC E H a o (cat fs)) (hst : Starts (cat fs)) (ho : o.ivars = []) (hne : ps ≠ [])
    (hg : ∀ p ∈ ps, GoodSym p.1) (hv : ∀ p ∈ ps, RdV E H p.2 (dv p.2))
    (hnd : (ps.map (·.1)).Nodup) (hE : ∀ p ∈ ps, p.1.bytes ≠ nE ∧ p.1.bytes ≠ nEncoding)
    (hc : ∀ w, c w = cat (lit [73] :: (fs ++ [wIvars dv ps])) w) :
    RdC E H a { o with ivars := ps } c := by
  intro w bs w' f r rest F ha hw hs hin hF
  rw [hc] at hw
  obtain ⟨b, w1, d, h1, h2, h3⟩ := cat_cons hw
  obtain ⟨g4, g5⟩ := lit_some h1
  subst g4; subst g5; subst h3
  obtain ⟨b, w2, d2, h3, h4, h5⟩ := cat_append h2
  have h4 := cat_one h4
  subst h5
  obtain ⟨t, l, hb, ht⟩ := hst _ _ _ h3
  simp only [List.length_append, List.length_cons, List.length_nil] at hF
  obtain ⟨F, rfl⟩ : ∃ k, F = k + 1 := ⟨F - 1, by omega⟩
  have hin' : r.inp = 73 :: (b ++ (d2 ++ rest)) := by rw [hin]; simp
  have x1 : Ext H none f w r f w (adv r [73] (b ++ (d2 ++ rest)) r.syms) :=
    Ext.adv' hs (bs := [73]) hin'
  obtain ⟨f2, r2, e2, i2, o2⟩ := h w b w2 f _ (d2 ++ rest) F ha h3 x1.sim rfl (by omega)
  have o2 := Opn.pre x1 rfl o2
  obtain ⟨f3, r3, e3, i3, hl3, o3, ha3, hv3⟩ := rd_ivars hg hv o2 h4 i2 (F := F) (by omega)
  refine ⟨f3, { r3 with heap := r3.heap.modify (f3 a) fun o =>
    { o with ivars := (ps.map fun p => (p.1, p.2.map f3)).foldl setIvar o.ivars } }, ?_, i3, ?_⟩
  · rw [readV_act E F hin']
    show readIvarWrapped E _ _ = _
    rw [readIvarWrapped_other (t := t) (l := l ++ (d2 ++ rest)) (by rw [adv_inp, hb]; rfl) ht]
    rw [bind_ok e2]
    have hassoc : ∀ k : List (Sym × Val) → M Val,
        (readLen >>= fun n => readPairs E (readV E F) n >>= k) r2 =
        ((readLen >>= fun n => readPairs E (readV E F) n) >>= k) r2 := by
      intro k
      show M.bind _ _ _ = M.bind (M.bind _ _) _ _
      simp only [M.bind, bind]
      cases readLen r2 <;> rfl
    rw [hassoc, bind_ok e3]
    have hfil : ((ps.map fun p => (p.1, p.2.map f3)).filter fun p =>
        p.1.bytes ≠ nE ∧ p.1.bytes ≠ nEncoding) = ps.map fun p => (p.1, p.2.map f3) := by
      rw [List.filter_eq_self]
      intro p hp
      simp only [List.mem_map] at hp
      obtain ⟨q, hq, rfl⟩ := hp
      simpa using hE q hq
    rw [hfil]
    unfold setIvars
    rw [if_neg (by simpa using hne), bind_ok (modify_eq _ _ _), pure_eq, ha3]
  · refine o3.upd _ _ ?_ ?_ o3.str
    · simp only [Obj.map, ho, List.map_nil, setIvars_fold hnd]
    · intro b hb
      simp only [Obj.vals, List.mem_append] at hb
      rcases hb with hb | hb
      · exact o3.refs b (by simp only [Obj.vals, List.mem_append]; exact .inl hb)
      · exact hv3 b hb

end Verif.Marshal
