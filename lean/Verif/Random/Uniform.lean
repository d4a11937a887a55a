import Verif.Random.Bounded
import Mathlib.Data.Set.Card

/-!
Uniformity: over finite sequences of generator words, every value is selected equally often.
-/

namespace Verif.Random

/-- a finite sequence of words as a source -/
def lnext : List W → W × List W
  | [] => (0#32, [])
  | w :: ws => (w, ws)

theorem skip_lnext : ∀ (k : Nat) (ws : List W), skip lnext k ws = ws.drop k := by
  intro k
  induction k with
  | zero => intro ws; rfl
  | succ k ih =>
    intro ws
    cases ws with
    | nil => rw [skip]; simp only [lnext]; rw [ih]; simp
    | cons w ws => rw [skip]; simp only [lnext]; rw [ih]; simp

theorem words_lnext : ∀ (ws : List W), words lnext ws.length ws = ws := by
  intro ws
  induction ws with
  | nil => rfl
  | cons w ws ih => simp only [List.length_cons, words, lnext, ih]

/-- a pass depends only on the words it consumes -/
theorem pass_local : ∀ (l : List W) (mask : W) (b : Bool) (ws : List W) (c : Nat) (o : Option (List W))
    (rest : List W) (c' : Nat), pass lnext l mask b ws c = (o, rest, c') → c' - c ≤ ws.length →
    ∀ r, pass lnext l mask b (ws.take (c' - c) ++ r) c = (o, r, c') := by
  intro l
  induction l with
  | nil =>
    intro mask b ws c o rest c' h hk r
    simp only [pass, Prod.mk.injEq] at h ⊢
    obtain ⟨rfl, rfl, rfl⟩ := h
    simp
  | cons lim tl ih =>
    intro mask b ws c o rest c' h hk r
    have hadv := pass_adv lnext (lim :: tl) mask b ws c
    rw [h] at hadv
    obtain ⟨k0, hk0, -⟩ := hadv
    simp only at hk0
    rw [pass] at h ⊢
    simp only at h ⊢
    generalize (if mask ≠ 0#32 then 0xffffffff#32 else makeMask lim) = mask' at h ⊢
    by_cases hm : mask' ≠ 0#32
    · simp only [if_pos hm] at h ⊢
      -- at least one word is consumed
      have hc : c + 1 ≤ c' := by
        split at h
        · simp only [Prod.mk.injEq] at h; omega
        · have ha := pass_adv lnext tl mask' (b && !decide ((lnext ws).1 &&& mask' < lim))
            (lnext ws).2 (c + 1)
          generalize pass lnext tl mask' (b && !decide ((lnext ws).1 &&& mask' < lim))
            (lnext ws).2 (c + 1) = q at h ha
          obtain ⟨o1, s1, c1⟩ := q
          obtain ⟨k1, hk1, -⟩ := ha
          cases o1 <;> simp only [Prod.mk.injEq] at h <;> simp only at hk1 <;> omega
      cases ws with
      | nil => simp at hk; omega
      | cons w ws =>
        obtain ⟨n, hn⟩ : ∃ n, c' - c = n + 1 := ⟨c' - c - 1, by omega⟩
        rw [hn, List.take_succ_cons, List.cons_append, lnext]
        rw [lnext] at h
        by_cases hlt : (b && decide (lim < w &&& mask')) = true
        · rw [if_pos hlt] at h ⊢
          simp only [Prod.mk.injEq] at h ⊢
          obtain ⟨rfl, rfl, rfl⟩ := h
          obtain rfl : n = 0 := by omega
          simp
        · rw [if_neg hlt] at h ⊢
          have ih' := ih mask' (b && !decide (w &&& mask' < lim)) ws (c + 1)
          generalize pass lnext tl mask' (b && !decide (w &&& mask' < lim)) ws (c + 1) = q at h ih'
          obtain ⟨o1, s1, c1⟩ := q
          have hc1 : c1 = c' := by cases o1 <;> simp only [Prod.mk.injEq] at h <;> exact h.2.2
          subst hc1
          have h3 := ih' o1 s1 c1 rfl (by simp at hk; omega) r
          rw [show c1 - (c + 1) = n by omega] at h3
          rw [h3]
          cases o1 <;> simp only [Prod.mk.injEq] at h <;> rw [← h.1]
    · simp only [if_neg hm] at h ⊢
      have ih' := ih mask' b ws c
      generalize pass lnext tl mask' b ws c = q at h ih'
      obtain ⟨o1, s1, c1⟩ := q
      have hc1 : c1 = c' := by cases o1 <;> simp only [Prod.mk.injEq] at h <;> exact h.2.2
      subst hc1
      rw [ih' o1 s1 c1 rfl hk r]
      cases o1 <;> simp only [Prod.mk.injEq] at h <;> rw [← h.1]

/-! ## Rewriting the accepted words -/

/-- words that select `tgt`, with the unused bits of `ws` -/
def recode (b : Nat) : List W → List W → List W
  | t :: tl, w :: _ => BitVec.ofNat 32 (w.toNat / 2 ^ b * 2 ^ b + t.toNat) :: tl
  | _, _ => []

theorem recode_toNat {b : Nat} (hb : b ≤ 32) (w t : W) (ht : t.toNat < 2 ^ b) :
    (BitVec.ofNat 32 (w.toNat / 2 ^ b * 2 ^ b + t.toNat)).toNat
      = w.toNat / 2 ^ b * 2 ^ b + t.toNat := by
  rw [BitVec.toNat_ofNat]
  apply Nat.mod_eq_of_lt
  have hw : w.toNat < 2 ^ (32 - b) * 2 ^ b := by
    rw [← Nat.pow_add, show 32 - b + b = 32 by omega]; exact w.isLt
  have h1 : w.toNat / 2 ^ b < 2 ^ (32 - b) := (Nat.div_lt_iff_lt_mul (by positivity)).2 hw
  calc w.toNat / 2 ^ b * 2 ^ b + t.toNat < w.toNat / 2 ^ b * 2 ^ b + 2 ^ b := by omega
    _ = (w.toNat / 2 ^ b + 1) * 2 ^ b := by ring
    _ ≤ 2 ^ (32 - b) * 2 ^ b := Nat.mul_le_mul_right _ h1
    _ = 2 ^ 32 := by rw [← Nat.pow_add, show 32 - b + b = 32 by omega]

theorem recode_high {b : Nat} (hb : b ≤ 32) (w t : W) (ht : t.toNat < 2 ^ b) :
    (BitVec.ofNat 32 (w.toNat / 2 ^ b * 2 ^ b + t.toNat)).toNat / 2 ^ b = w.toNat / 2 ^ b := by
  rw [recode_toNat hb w t ht, Nat.add_comm, Nat.add_mul_div_right _ _ (by positivity),
    Nat.div_eq_of_lt ht, Nat.zero_add]

theorem selected_recode (top t w : W) (tl ws : List W) (ht : t.toNat < 2 ^ bits top) :
    selected top (recode (bits top) (t :: tl) (w :: ws)) = t :: tl := by
  simp only [recode, selected]
  congr 1
  apply BitVec.eq_of_toNat_eq
  rw [and_makeMask_toNat, recode_toNat (bits_le top) w t ht, Nat.add_comm, Nat.add_mul_mod_self_right,
    Nat.mod_eq_of_lt ht]

theorem recode_recode (b : Nat) (hb : b ≤ 32) (t w t' : W) (tl tl' ws : List W)
    (ht : t.toNat < 2 ^ b) :
    recode b (t' :: tl') (recode b (t :: tl) (w :: ws)) = recode b (t' :: tl') (w :: ws) := by
  simp only [recode]
  rw [recode_high hb w t ht]

theorem recode_selected (top w : W) (ws : List W) :
    recode (bits top) (selected top (w :: ws)) (w :: ws) = w :: ws := by
  simp only [selected, recode]
  congr 1
  apply BitVec.eq_of_toNat_eq
  rw [and_makeMask_toNat, Nat.mul_comm, Nat.div_add_mod]
  simp

/-- digits of a value up to the limit start with few enough bits -/
theorem top_lt (top t : W) (rest tl : List W) (hl : tl.length = rest.length)
    (h : msdVal (t :: tl) ≤ msdVal (top :: rest)) : t.toNat < 2 ^ bits top := by
  have h1 := lt_two_pow_bits top
  have hr := msdVal_lt rest
  simp only [msdVal, hl] at h
  have hp : 0 < 4294967296 ^ rest.length := by positivity
  have : t.toNat ≤ top.toNat := by
    by_contra hc
    have : top.toNat * 4294967296 ^ rest.length + 4294967296 ^ rest.length
        ≤ t.toNat * 4294967296 ^ rest.length := by
      rw [← Nat.succ_mul]; exact Nat.mul_le_mul_right _ (by omega)
    omega
  omega

/-- the words of a run that ends with one value, rewritten to end with another -/
def retarget (l tgt : List W) (b : Nat) : Nat → List W → Nat → List W
  | 0, ws, _ => ws
  | fuel + 1, ws, c =>
    match pass lnext l.reverse 0#32 true ws c with
    | (some _, _, _) => recode b tgt ws
    | (none, rest, c') => ws.take (c' - c) ++ retarget l tgt b fuel rest c'

/-- the loop, on exactly the words `ws`, ends with value `v` -/
def Ends (l : List W) (fuel : Nat) (ws : List W) (c : Nat) (v : Nat) : Prop :=
  ∃ ds s', limitedRand lnext l fuel ws c = some (ds, s', c + ws.length) ∧ digitsVal ds = v

theorem retarget_spec (l : List W) (top : W) (rest : List W) (hl : l.reverse = top :: rest)
    (ht : top ≠ 0#32) (u v : Nat) (tu tv : List W) (htu : tu.length = l.length)
    (htv : tv.length = l.length) (hu : msdVal tu = u) (hv : msdVal tv = v)
    (hvl : v ≤ digitsVal l) :
    ∀ (fuel : Nat) (ws : List W) (c : Nat), Ends l fuel ws c u →
      (retarget l tv (bits top) fuel ws c).length = ws.length ∧
      Ends l fuel (retarget l tv (bits top) fuel ws c) c v ∧
      retarget l tu (bits top) fuel (retarget l tv (bits top) fuel ws c) c = ws := by
  have hlen : l.length = rest.length + 1 := by rw [← List.length_reverse, hl]; rfl
  rw [← msdVal_reverse l, hl] at hvl
  obtain ⟨t, tl, rfl⟩ : ∃ t tl, tv = t :: tl := by
    cases tv with
    | nil => simp [hlen] at htv
    | cons t tl => exact ⟨t, tl, rfl⟩
  obtain ⟨t', tl', rfl⟩ : ∃ t tl, tu = t :: tl := by
    cases tu with
    | nil => simp [hlen] at htu
    | cons t tl => exact ⟨t, tl, rfl⟩
  have htl : tl.length = rest.length := by simp at htv; omega
  have htl' : tl'.length = rest.length := by simp at htu; omega
  have htb := top_lt top t rest tl htl (by rw [hv]; exact hvl)
  intro fuel
  induction fuel with
  | zero => rintro ws c ⟨ds, s', h, -⟩; simp [limitedRand] at h
  | succ fuel ih =>
    rintro ws c ⟨ds, s', h, hds⟩
    rw [limitedRand, hl] at h
    have hspec := pass_spec lnext top rest ws c ht
    have hloc := pass_local (top :: rest) 0#32 true ws c
    have hadv := pass_adv lnext (top :: rest) 0#32 true ws c
    rw [retarget, hl]
    generalize hq : pass lnext (top :: rest) 0#32 true ws c = q at h hspec hloc hadv
    obtain ⟨o, s1, c1⟩ := q
    cases o with
    | some d =>
      simp only [Option.some.injEq, Prod.mk.injEq] at h
      obtain ⟨rfl, rfl, hc1⟩ := h
      have hle : msdVal (selected top (words lnext (rest.length + 1) ws)) ≤ msdVal (top :: rest) := by
        by_contra hc
        have := hspec.2 (by omega)
        simp at this
      have h1 := hspec.1 hle
      simp only [Prod.mk.injEq, Option.some.injEq] at h1
      obtain ⟨hd, hs1, hc2⟩ := h1
      have hwl : ws.length = rest.length + 1 := by omega
      have hwords : words lnext (rest.length + 1) ws = ws := by
        rw [← hwl]; exact words_lnext ws
      obtain ⟨w, ws', rfl⟩ : ∃ w ws', ws = w :: ws' := by
        cases ws with
        | nil => simp at hwl
        | cons w ws' => exact ⟨w, ws', rfl⟩
      simp only
      have hrl : (recode (bits top) (t :: tl) (w :: ws')).length = rest.length + 1 := by
        simp [recode, htl]
      have hsp2 := (pass_spec lnext top rest (recode (bits top) (t :: tl) (w :: ws')) c ht).1
      have hw2 : words lnext (rest.length + 1) (recode (bits top) (t :: tl) (w :: ws'))
          = recode (bits top) (t :: tl) (w :: ws') := by
        have := words_lnext (recode (bits top) (t :: tl) (w :: ws'))
        rwa [hrl] at this
      rw [hw2, selected_recode top t w tl ws' htb, hv] at hsp2
      have hpass := hsp2 hvl
      refine ⟨by rw [hrl, hwl], ⟨(t :: tl).reverse, skip lnext (rest.length + 1)
        (recode (bits top) (t :: tl) (w :: ws')), ?_, by rw [digitsVal_reverse, hv]⟩, ?_⟩
      · rw [limitedRand, hl, hpass, hrl]
      · rw [retarget, hl, hpass]
        simp only
        rw [recode_recode _ (bits_le top) _ _ _ _ _ _ htb]
        have hsel : t' :: tl' = selected top (w :: ws') := by
          apply msdVal_inj
          · rw [selected_length, htu, hlen, hwl]
          · rw [hu, ← hds, digitsVal_reverse, hd, hwords]
        rw [hsel]
        exact recode_selected top w ws'
    | none =>
      simp only at h ⊢
      obtain ⟨k, hk, hs1⟩ := hadv
      simp only at hk hs1
      rw [skip_lnext] at hs1
      obtain ⟨k', hk', -⟩ := limitedRand_adv _ _ _ _ _ _ _ _ h
      have hkl : k ≤ ws.length := by omega
      have hck : c1 - c = k := by omega
      have hs1l : s1.length = ws.length - k := by rw [hs1]; simp
      obtain ⟨i1, ⟨ds2, s2, i2, i2'⟩, i3⟩ := ih s1 c1 ⟨ds, s', by
        rw [h]; simp only [Option.some.injEq, Prod.mk.injEq, true_and]; omega, hds⟩
      have hloc' := hloc none s1 c1 rfl (by omega) (retarget l (t :: tl) (bits top) fuel s1 c1)
      rw [hck] at hloc' ⊢
      have hlen2 : (ws.take k ++ retarget l (t :: tl) (bits top) fuel s1 c1).length = ws.length := by
        rw [List.length_append, i1, hs1l, List.length_take]; omega
      refine ⟨hlen2, ⟨ds2, s2, ?_, i2'⟩, ?_⟩
      · rw [limitedRand, hl, hloc', hlen2]
        simp only
        rw [i2, i1]
        simp only [Option.some.injEq, Prod.mk.injEq, true_and]
        omega
      · rw [retarget, hl, hloc']
        simp only
        rw [hck, i3, List.take_append_of_le_length (by rw [List.length_take]; omega),
          List.take_take, Nat.min_self, hs1, List.take_append_drop]

theorem ends_bij (l : List W) (top : W) (rest : List W) (hl : l.reverse = top :: rest)
    (ht : top ≠ 0#32) (u v : Nat) (hu : u ≤ digitsVal l) (hv : v ≤ digitsVal l) (fuel N : Nat) :
    ∃ f : List W → List W, Set.BijOn f {ws | ws.length = N ∧ Ends l fuel ws 0 u}
      {ws | ws.length = N ∧ Ends l fuel ws 0 v} := by
  have hlen : l.length = rest.length + 1 := by rw [← List.length_reverse, hl]; rfl
  have hlt : digitsVal l < 4294967296 ^ l.length := by
    have := msdVal_lt l.reverse
    rwa [msdVal_reverse, List.length_reverse] at this
  obtain ⟨tu, h1, h2⟩ := msdVal_surj l.length u (by omega)
  obtain ⟨tv, h3, h4⟩ := msdVal_surj l.length v (by omega)
  have A := retarget_spec l top rest hl ht u v tu tv h1 h3 h2 h4 hv fuel
  have B := retarget_spec l top rest hl ht v u tv tu h3 h1 h4 h2 hu fuel
  refine ⟨fun ws => retarget l tv (bits top) fuel ws 0, ?_, ?_, ?_⟩
  · rintro ws ⟨hN, he⟩
    obtain ⟨a1, a2, -⟩ := A ws 0 he
    exact ⟨a1.trans hN, a2⟩
  · rintro ws ⟨-, he⟩ ws' ⟨-, he'⟩ heq
    have a := (A ws 0 he).2.2
    have a' := (A ws' 0 he').2.2
    simp only at heq
    rw [← a, ← a', heq]
  · rintro ws ⟨hN, he⟩
    obtain ⟨b1, b2, b3⟩ := B ws 0 he
    exact ⟨retarget l tu (bits top) fuel ws 0, ⟨b1.trans hN, b2⟩, b3⟩

/-! ## Counting one pass -/

/-- the words that one pass accepts with value `v` -/
def PassSel (top : W) (rest : List W) (v : Nat) : Set (List W) :=
  {ws | ws.length = rest.length + 1 ∧
    ∃ ds, (pass lnext (top :: rest) 0#32 true ws 0).1 = some ds ∧ msdVal ds = v}

theorem passSel_iff (top : W) (rest : List W) (ht : top ≠ 0#32) (v : Nat)
    (hv : v ≤ msdVal (top :: rest)) (ws : List W) :
    ws ∈ PassSel top rest v ↔ ws.length = rest.length + 1 ∧ msdVal (selected top ws) = v := by
  unfold PassSel
  simp only [Set.mem_setOf_eq]
  constructor
  · rintro ⟨hl, ds, h, hd⟩
    refine ⟨hl, ?_⟩
    obtain ⟨h1, h2⟩ := pass_spec lnext top rest ws 0 ht
    have hw : words lnext (rest.length + 1) ws = ws := by rw [← hl]; exact words_lnext ws
    rw [hw] at h1 h2
    by_cases hle : msdVal (selected top ws) ≤ msdVal (top :: rest)
    · rw [h1 hle] at h
      simp only [Option.some.injEq] at h
      rw [h]; exact hd
    · rw [h2 (by omega)] at h; simp at h
  · rintro ⟨hl, hd⟩
    obtain ⟨h1, -⟩ := pass_spec lnext top rest ws 0 ht
    have hw : words lnext (rest.length + 1) ws = ws := by rw [← hl]; exact words_lnext ws
    rw [hw] at h1
    exact ⟨hl, selected top ws, by rw [h1 (by omega)], hd⟩

theorem passSel_ncard (top : W) (rest : List W) (ht : top ≠ 0#32) (v : Nat)
    (hv : v ≤ msdVal (top :: rest)) : (PassSel top rest v).ncard = 2 ^ (32 - bits top) := by
  have hlt := msdVal_lt (top :: rest)
  obtain ⟨tv, hl, hval⟩ := msdVal_surj (rest.length + 1) v (by simp at hlt ⊢; omega)
  obtain ⟨t, tl, rfl⟩ : ∃ t tl, tv = t :: tl := by
    cases tv with
    | nil => simp at hl
    | cons t tl => exact ⟨t, tl, rfl⟩
  have htl : tl.length = rest.length := by simpa using hl
  have htb := top_lt top t rest tl htl (by rw [hval]; exact hv)
  have hb := bits_le top
  set b := bits top with hbdef
  have hbig : ∀ q, q < 2 ^ (32 - b) → q * 2 ^ b + t.toNat < 2 ^ 32 := by
    intro q hq
    calc q * 2 ^ b + t.toNat < (q + 1) * 2 ^ b := by rw [Nat.add_mul]; omega
      _ ≤ 2 ^ (32 - b) * 2 ^ b := Nat.mul_le_mul_right _ hq
      _ = 2 ^ 32 := by rw [← Nat.pow_add, show 32 - b + b = 32 by omega]
  have himg : PassSel top rest v =
      (fun q => BitVec.ofNat 32 (q * 2 ^ b + t.toNat) :: tl) '' (Finset.range (2 ^ (32 - b)) : Set Nat) := by
    ext ws
    rw [passSel_iff top rest ht v hv ws]
    constructor
    · rintro ⟨h1, h2⟩
      cases ws with
      | nil => simp at h1
      | cons w ws =>
        have hsel : selected top (w :: ws) = t :: tl := by
          apply msdVal_inj
          · rw [selected_length, h1, hl]
          · rw [h2, hval]
        simp only [selected, List.cons.injEq] at hsel
        obtain ⟨h3, rfl⟩ := hsel
        refine ⟨w.toNat / 2 ^ b, ?_, ?_⟩
        · simp only [Finset.coe_range, Set.mem_Iio]
          rw [Nat.div_lt_iff_lt_mul (by positivity), ← Nat.pow_add, show 32 - b + b = 32 by omega]
          exact w.isLt
        · simp only
          congr 1
          rw [← h3, and_makeMask_toNat, ← hbdef, Nat.mul_comm, Nat.div_add_mod]
          simp
    · rintro ⟨q, hq, rfl⟩
      simp only [Finset.coe_range, Set.mem_Iio] at hq
      refine ⟨by simp [htl], ?_⟩
      simp only [selected]
      have : BitVec.ofNat 32 (q * 2 ^ b + t.toNat) &&& makeMask top = t := by
        apply BitVec.eq_of_toNat_eq
        rw [and_makeMask_toNat, ← hbdef, BitVec.toNat_ofNat, Nat.mod_eq_of_lt (hbig q hq), Nat.add_comm,
          Nat.add_mul_mod_self_right, Nat.mod_eq_of_lt htb]
      rw [this, hval]
  rw [himg, Set.InjOn.ncard_image, Set.ncard_coe_finset, Finset.card_range]
  intro q hq q' hq' heq
  simp only [Finset.coe_range, Set.mem_Iio] at hq hq'
  simp only [List.cons.injEq, and_true] at heq
  have h := congrArg BitVec.toNat heq
  rw [BitVec.toNat_ofNat, BitVec.toNat_ofNat, Nat.mod_eq_of_lt (hbig q hq),
    Nat.mod_eq_of_lt (hbig q' hq')] at h
  have hp : 0 < 2 ^ b := by positivity
  exact Nat.eq_of_mul_eq_mul_right hp (by omega)

/-! ## Machine words -/

theorem ulongLimited_eq {S : Type} (next : S → W × S) (fuel : Nat) (m : BitVec 64) (s : S) (c : Nat) :
    ulongLimited next (fuel + 1) m s c =
      (randInt next (fuel + 1) (m.toNat + 1) s c).map (fun r => (BitVec.ofNat 64 r.1, r.2)) := by
  unfold ulongLimited randInt
  rw [Nat.add_sub_cancel]
  by_cases hm : m = 0#64
  · subst hm
    rw [if_pos rfl, show (0#64).toNat = 0 from rfl, leDigits_zero, limitedRand_zero]
    rfl
  · rw [if_neg hm]
    have hlo : m.setWidth 32 = BitVec.ofNat 32 m.toNat := by
      apply BitVec.eq_of_toNat_eq; simp
    have hhi : (m >>> 32).setWidth 32 = BitVec.ofNat 32 (m.toNat / 4294967296) := by
      apply BitVec.eq_of_toNat_eq
      simp [Nat.shiftRight_eq_div_pow]
    have hm64 : m.toNat < 18446744073709551616 := m.isLt
    have hdig : leDigits m.toNat = if (m >>> 32).setWidth 32 = 0#32 then [m.setWidth 32]
        else [m.setWidth 32, (m >>> 32).setWidth 32] := by
      rw [hlo, hhi]
      by_cases hs : m.toNat < 4294967296
      · rw [leDigits, if_pos hs, if_pos]
        rw [Nat.div_eq_of_lt hs]
      · rw [leDigits, if_neg hs, leDigits, if_pos (by omega), if_neg]
        intro h0
        have := congrArg BitVec.toNat h0
        simp at this
        omega
    rw [hdig]
    simp only
    have hne : m.toNat ≠ 0 := by
      intro h0; apply hm; apply BitVec.eq_of_toNat_eq; simpa using h0
    obtain ⟨top, rest, h1, h2⟩ := leDigits_top m.toNat hne
    have hlr := limitedRand_le next (leDigits m.toNat) top rest h1 h2 (fuel + 1) s c
    rw [hdig] at hlr
    generalize hL : (if (m >>> 32).setWidth 32 = 0#32 then [m.setWidth 32]
      else [m.setWidth 32, (m >>> 32).setWidth 32]) = L at hlr hdig
    cases hr : limitedRand next L (fuel + 1) s c with
    | none => rfl
    | some q =>
      obtain ⟨ds, s', c'⟩ := q
      obtain ⟨hlen, -⟩ := hlr ds s' c' hr
      simp only [Option.map_some]
      congr 2
      have hor : ∀ a b : W, a.setWidth 64 ||| (b.setWidth 64 <<< 32)
          = BitVec.ofNat 64 (a.toNat + 4294967296 * b.toNat) := by
        intro a b
        apply BitVec.eq_of_toNat_eq
        have ha : a.toNat < 4294967296 := a.isLt
        have hb : b.toNat < 4294967296 := b.isLt
        simp only [BitVec.toNat_or, BitVec.toNat_setWidth, BitVec.toNat_shiftLeft, BitVec.toNat_ofNat]
        rw [Nat.mod_eq_of_lt (by omega : a.toNat < 2 ^ 64), Nat.mod_eq_of_lt (by omega : b.toNat < 2 ^ 64),
          Nat.shiftLeft_eq, Nat.mod_eq_of_lt (by omega : b.toNat * 2 ^ 32 < 2 ^ 64),
          Nat.mod_eq_of_lt (by omega), Nat.or_comm, Nat.mul_comm b.toNat,
          ← Nat.two_pow_add_eq_or_of_lt (by omega : a.toNat < 2 ^ 32)]
        omega
      rw [hor]
      congr 1
      have hLlen : L.length = 1 ∨ L.length = 2 := by
        rw [← hL]; split <;> simp
      match ds, hlen with
      | [], h => simp at h; omega
      | [a], _ => simp [digitsVal]
      | [a, b], _ => simp [digitsVal]
      | a :: b :: d :: ds, h => simp at h; omega

end Verif.Random
