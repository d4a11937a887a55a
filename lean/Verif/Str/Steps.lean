import Verif.Str.Inv

/-! # The invariants hold along every history -/

namespace Verif.Str

variable {iso : List Nat → Bool}

theorem ascii_take {l : List Nat} (h : Ascii l) (n) : Ascii (l.take n) :=
  h.sub (fun _ hx => List.mem_of_mem_take hx)

theorem ascii_drop {l : List Nat} (h : Ascii l) (n) : Ascii (l.drop n) :=
  h.sub (fun _ hx => List.mem_of_mem_drop hx)

theorem ascii_splice {a r : List Nat} (ha : Ascii a) (hr : Ascii r) (st n) :
    Ascii (a.take st ++ r ++ a.drop n) :=
  Ascii.append.mpr ⟨Ascii.append.mpr ⟨ascii_take ha _, hr⟩, ascii_drop ha _⟩

theorem splice_safe {a r : S} (ha : Safe a) (hr : Safe r) {st len}
    (hl : st + len ≤ a.bytes.length) :
    Safe (splice iso a st len r).2.1 ∧ Safe (splice iso a st len r).2.2 := by
  unfold splice
  rcases hce : compatEnc iso a r with ⟨_ | e, a1, r1⟩
  · obtain ⟨h1, h2⟩ := compat_none hce
    subst h1; subst h2
    exact ⟨ha.query, hr.query⟩
  · obtain ⟨h1, h2, s1, s2⟩ := compat_side hce
    obtain ⟨e1, e2, e3, _⟩ := touched_bytes h1
    obtain ⟨f1, f2, f3, f4⟩ := touched_bytes h2
    have hr1 : Safe r1 := by rcases h2 with h | h <;> subst h; exacts [hr, hr.query]
    have hr2 : (r1.query iso).cr = r.codeRange iso := f4
    simp only [hr2]
    split_ifs with c1 c2 c3 <;> (try rw [e1, e2] at c2) <;> simp only [query_bytes, e1, f1]
    · refine ⟨⟨fun _ => ?_, by simp⟩, hr1.query⟩
      exact ascii_splice (ha.seven ((e3.eq (by rw [c1.1]; simp)).trans c1.1)) (hr.seven c1.2.1) _ _
    · refine ⟨⟨by simp, fun _ he => ?_⟩, hr1.query⟩
      simp only at he
      obtain ⟨⟨hE, hv, b1, b2⟩, hrv⟩ := c2
      have hw : Wf u8w a.bytes := by
        refine ha.side (iso := iso) (Or.inl hE) ?_
        rcases hv with hv | hv
        · exact Or.inr ((e3.eq (by rw [hv]; simp)).trans hv)
        · exact Or.inl ((e3.eq (by rw [hv]; simp)).trans hv)
      have hp := wf_slice hw (Nat.le_add_right st len) hl b1 b2
      exact (hp.1.append (hr.side (he ▸ s2) hrv)).append hp.2.2
    · exact ⟨⟨by simp, by simp⟩, hr1.query⟩
    · exact ⟨safe_classify _ _, hr1.query⟩

theorem classify_fix1 {e : Enc} (he : e ≠ .iso2022Jp) (h : code e = fixw 1) (bs) :
    classify iso e bs ≠ .broken :=
  (classify_broken he).mpr (by rw [h]; exact wf_fix1 bs)

theorem splice_sound {a r : S} (ha : Sound iso a) (hr : Sound iso r) {st len}
    (hl : st + len ≤ a.bytes.length) :
    Sound iso (splice iso a st len r).2.1 ∧ Sound iso (splice iso a st len r).2.2 := by
  unfold splice
  rcases hce : compatEnc iso a r with ⟨_ | e, a1, r1⟩
  · obtain ⟨h1, h2⟩ := compat_none hce
    subst h1; subst h2
    exact ⟨ha.query, hr.query⟩
  · obtain ⟨h1, h2, s1, s2⟩ := compat_side hce
    obtain ⟨e1, e2, e3, _⟩ := touched_bytes h1
    obtain ⟨f1, f2, f3, f4⟩ := touched_bytes h2
    have hr1 : Sound iso r1 := by rcases h2 with h | h <;> subst h; exacts [hr, hr.query]
    have hr2 : (r1.query iso).cr = r.codeRange iso := f4
    simp only [hr2]
    split_ifs with c1 c2 c3 <;> (try rw [e1, e2] at c2) <;> simp only [query_bytes, e1, f1]
    · refine ⟨⟨fun _ => ?_, by simp, by simp⟩, hr1.query⟩
      refine classify_seven.mpr (Or.inr ⟨c1.2.2, ?_⟩)
      exact ascii_splice (seven_ascii (ha.seven ((e3.eq (by rw [c1.1]; simp)).trans c1.1)))
        (seven_ascii (hr.seven c1.2.1)) _ _
    · refine ⟨⟨by simp, fun _ => ?_, by simp⟩, hr1.query⟩
      obtain ⟨⟨hE, hv, b1, b2⟩, hrv⟩ := c2
      simp only
      have hav : a.codeRange iso = .sevenBit ∨ a.codeRange iso = .valid := by
        rcases hv with hv | hv
        · exact Or.inr ((e3.eq (by rw [hv]; simp)).trans hv)
        · exact Or.inl ((e3.eq (by rw [hv]; simp)).trans hv)
      rcases s1 with s | s | s
      · have he : e = .utf8 := s.symm.trans hE
        subst he
        have hw : Wf u8w a.bytes := by
          have := ha.wf (by rw [hE]; simp) hav
          rwa [hE] at this
        have hp := wf_slice hw (Nat.le_add_right st len) hl b1 b2
        exact (classify_broken (by simp)).mpr
          ((hp.1.append (hr.side (by simp) s2 hrv)).append hp.2.2)
      · have hz : a.bytes.take st ++ r.bytes ++ a.bytes.drop (st + len) = r.bytes := by simp [s]
        rw [hz]
        rcases s2 with t | t | t
        · subst t
          rcases hrv with h | h
          · rw [hr.seven h]; simp
          · exact hr.valid h
        · rw [classify_seven.mpr (Or.inl t)]; simp
        · rw [classify_seven.mpr (Or.inr ⟨t.2, seven_ascii (hr.seven t.1)⟩)]; simp
      · have hne : e ≠ .iso2022Jp := by intro h; rw [h] at s; simp [Enc.asciiCompat] at s
        have hA := seven_ascii (ha.seven s.1)
        exact (classify_broken hne).mpr ((((ascii_take hA st).wf s.2).append
          (hr.side hne s2 hrv)).append ((ascii_drop hA _).wf s.2))
    · exact ⟨⟨by simp, fun _ => classify_fix1 (by simp) rfl _, by simp⟩, hr1.query⟩
    · exact ⟨sound_classify _ _, hr1.query⟩

theorem scrub_safe {s : S} (hs : Safe s) (repl) : Safe (scrub iso s repl) := by
  unfold scrub
  by_cases h : s.validEncoding iso = true
  · rw [if_pos h]; exact hs.query
  · rw [if_neg h]; exact safe_classify _ _

theorem scrub_sound {s : S} (hs : Sound iso s) (repl) : Sound iso (scrub iso s repl) := by
  unfold scrub
  by_cases h : s.validEncoding iso = true
  · rw [if_pos h]; exact hs.query
  · rw [if_neg h]; exact sound_classify _ _

theorem mem_padBytes {p : S} {n x} (h : x ∈ padBytes iso p n) : x ∈ p.bytes := by
  have aux : ∀ k (t : List Nat), (∀ y ∈ t, y ∈ p.bytes) →
      x ∈ (List.replicate k p.bytes).flatten ++ t → x ∈ p.bytes := by
    intro k t ht hx
    rcases List.mem_append.mp hx with hx | hx
    · simp only [List.mem_flatten, List.mem_replicate] at hx
      obtain ⟨l, ⟨_, rfl⟩, hx⟩ := hx
      exact hx
    · exact ht x hx
  unfold padBytes at h
  have hbig : x ∈ (let k := (p.charLength iso).getD 0
      if k = p.bytes.length then
        (List.replicate (n / k) p.bytes).flatten ++ p.bytes.take (n % k)
      else
        (List.replicate (n / k) p.bytes).flatten ++ ((chars p.enc p.bytes).take (n % k)).flatten) →
      x ∈ p.bytes := by
    simp only
    split_ifs
    · exact aux _ _ (fun y hy => List.mem_of_mem_take hy)
    · refine aux _ _ (fun y hy => ?_)
      have := iter_flatten p.enc p.bytes.length p.bytes (Nat.le_refl _)
      rw [← this]
      rw [List.mem_flatten] at hy ⊢
      obtain ⟨l, hl, hy⟩ := hy
      exact ⟨l, List.mem_of_mem_take hl, hy⟩
  split at h
  · rename_i b hb
    rw [hb]
    simp only [List.mem_replicate] at h
    simp [h.2]
  · exact hbig h

theorem ascii_pad {s p : S} {m n} (hs : Ascii s.bytes) (hp : Ascii p.bytes) :
    Ascii (padBytes iso p m ++ s.bytes ++ padBytes iso p n) :=
  Ascii.append.mpr ⟨Ascii.append.mpr ⟨hp.sub (fun _ => mem_padBytes), hs⟩,
    hp.sub (fun _ => mem_padBytes)⟩

theorem pad_safe {s p : S} (hs : Safe s) (hp : Safe p) (width side) :
    Safe (pad iso s width p side) := by
  unfold pad
  simp only
  split_ifs with h1 h2
  · exact hs
  · refine ⟨fun _ => ascii_pad (hs.seven (iso := iso) ?_) (hp.seven (iso := iso) ?_), by simp⟩
    · simpa [S.asciiOnly] using h2.1
    · simpa [S.asciiOnly] using h2.2
  · exact ⟨by simp, by simp⟩

theorem pad_sound {s p : S} (hs : Sound iso s) (hp : Sound iso p) (width side)
    (he : s.enc.asciiCompat = true) : Sound iso (pad iso s width p side) := by
  unfold pad
  simp only
  split_ifs with h1 h2
  · exact hs
  · refine ⟨fun _ => classify_seven.mpr (Or.inr ⟨he, ascii_pad (seven_ascii (hs.seven ?_))
      (seven_ascii (hp.seven ?_))⟩), by simp, by simp⟩
    · simpa [S.asciiOnly] using h2.1
    · simpa [S.asciiOnly] using h2.2
  · exact ⟨by simp, by simp, by simp⟩

/-! ## Interpolation -/

/-- the strings among the pieces -/
def Piece.all (P : S → Prop) : Piece → Prop
  | .str s => P s
  | .raw bs => Ascii bs

/-- the state of the loop, as a string -/
def accS (acc : List Nat × Option Enc × CR) : S := ⟨acc.1, acc.2.1.getD .utf8, acc.2.2⟩

theorem fold_seven_left (c : CR) : fold .sevenBit c = c ∨ (c = .broken ∧ fold .sevenBit c = .unknown) := by
  cases c <;> simp [fold]

theorem fits_enc (s : S) : Fits iso s s.enc := Or.inl rfl

theorem interpStep_safe {acc acc' : List Nat × Option Enc × CR} {p : Piece}
    (h0 : acc.2.1 = none → acc.1 = []) (ha : Safe (accS acc)) (hp : p.all Safe)
    (h : interpStep iso acc p = some acc') : Safe (accS acc') ∧ acc'.2.1 ≠ none := by
  obtain ⟨bs, oe, c⟩ := acc
  cases p with
  | raw rs =>
    simp only [interpStep, Option.some.injEq] at h
    subst h
    refine ⟨⟨fun hc => Ascii.append.mpr ⟨ha.1 hc, hp⟩, fun hc he => ?_⟩, by simp⟩
    simp only [accS, Option.getD_some] at he
    exact (ha.2 hc (by simpa [accS] using he)).append (Ascii.wf (e := .utf8) rfl hp)
  | str s =>
    simp only [Piece.all] at hp
    simp only [interpStep] at h
    cases oe with
    | none =>
      have hb : bs = [] := h0 rfl
      subst hb
      simp only [Option.some.injEq] at h
      subst h
      exact ⟨fold_safe (iso := iso) (a := accS ([], none, c)) ha hp (Or.inl rfl) (Or.inr rfl)
        (Or.inr (Or.inl rfl)) (fits_enc s), by simp⟩
    | some prev =>
      simp only at h
      have key : ∀ e c', Known iso (accS (bs, some prev, c)) c' → Fits iso (accS (bs, some prev, c)) e →
          Fits iso s e → Safe (accS (bs ++ s.bytes, some e, fold c' (s.codeRange iso))) :=
        fun e c' k1 f1 f2 => fold_safe (a := accS (bs, some prev, c)) ha hp k1 (Or.inr rfl) f1 f2
      have hk : (if c = .unknown then classify iso prev bs else c) =
          (accS (bs, some prev, c)).codeRange iso := by
        simp only [accS, S.codeRange, Option.getD_some]
        cases c <;> simp
      rw [hk] at h
      split_ifs at h with h1 h2 h3 h4 h5
      · simp only [Option.some.injEq] at h; subst h
        exact ⟨key _ _ (Or.inl rfl) (Or.inl rfl) (Or.inl h1.symm), by simp⟩
      · simp only [Option.some.injEq] at h; subst h
        exact ⟨key _ _ (Or.inl rfl) (Or.inl rfl) (Or.inr (Or.inl h2.2)), by simp⟩
      · simp only [Option.some.injEq] at h; subst h
        exact ⟨key _ _ (Or.inl rfl) (Or.inl rfl) (Or.inr (Or.inr ⟨h4.2, h4.1⟩)), by simp⟩
      · simp only [Option.some.injEq] at h; subst h
        exact ⟨key _ _ (Or.inl rfl) (Or.inr (Or.inl h3)) (Or.inl rfl), by simp⟩
      · simp only [Option.some.injEq] at h; subst h
        exact ⟨key _ _ (Or.inl rfl) (Or.inl rfl) (Or.inr (Or.inl h5)), by simp⟩
      · split at h
        · simp at h
        · rename_i e hce
          simp only [Option.some.injEq] at h
          subst h
          obtain ⟨s1, s2⟩ := compatible_side hce
          refine ⟨key _ _ (Or.inr rfl) ?_ ?_, by simp⟩
          · rcases s1 with s | s
            · exact Or.inl s
            · exact Or.inr (Or.inr s)
          · rcases s2 with s | s
            · exact Or.inl s
            · exact Or.inr (Or.inr s)

theorem interpLoop_safe {ps : List Piece} : ∀ {acc acc' : List Nat × Option Enc × CR},
    (acc.2.1 = none → acc.1 = []) → Safe (accS acc) → (∀ p ∈ ps, p.all Safe) →
    interpLoop iso acc ps = some acc' → Safe (accS acc') := by
  induction ps with
  | nil =>
    intro acc acc' _ h2 _ h
    simp only [interpLoop, Option.some.injEq] at h
    subst h; exact h2
  | cons p ps ih =>
    intro acc acc' h1 h2 h3 h
    simp only [interpLoop] at h
    cases hst : interpStep iso acc p with
    | none => rw [hst] at h; simp at h
    | some acc1 =>
      rw [hst] at h
      obtain ⟨g1, g2⟩ := interpStep_safe h1 h2 (h3 p (by simp)) hst
      exact ih (fun hn => absurd hn g2) g1 (fun q hq => h3 q (by simp [hq])) h

theorem interp_safe {ps : List Piece} {s} (hp : ∀ p ∈ ps, p.all Safe) (h : interp iso ps = some s) :
    Safe s := by
  unfold interp at h
  cases hl : interpLoop iso ([], none, .sevenBit) ps with
  | none => rw [hl] at h; simp at h
  | some acc =>
    rw [hl] at h
    simp only [Option.map_some, Option.some.injEq] at h
    subst h
    exact interpLoop_safe (fun _ => rfl) ⟨fun _ x hx => by simp [accS] at hx, by simp [accS]⟩ hp hl

/-- pieces that the loop keeps track of exactly -/
def Piece.fine (raw : Bool) : Piece → Prop
  | .str s => if raw then s.enc.asciiCompat = true else s.enc ≠ .iso2022Jp
  | .raw _ => raw = true

/-- the encoding so far -/
def encFine (raw : Bool) (e : Enc) : Prop :=
  if raw then e.asciiCompat = true else e ≠ .iso2022Jp

theorem encFine.ne {raw e} (h : encFine raw e) : e ≠ .iso2022Jp := by
  unfold encFine at h
  intro hh
  subst hh
  cases raw <;> simp [Enc.asciiCompat] at h

theorem encFine.compat {raw e} (h : e.asciiCompat = true) : encFine raw e := by
  unfold encFine
  cases raw
  · simp only [Bool.false_eq_true, if_false]; intro hh; subst hh; simp [Enc.asciiCompat] at h
  · simpa using h

theorem interpStep_sound {raw : Bool} {acc acc' : List Nat × Option Enc × CR} {p : Piece}
    (h0 : acc.2.1 = none → acc.1 = []) (ha : Sound iso (accS acc)) (hE : encFine raw (accS acc).enc)
    (hB : acc.2.2 ≠ .broken) (hp : p.all (Sound iso)) (hf : p.fine raw) (h : interpStep iso acc p = some acc') :
    Sound iso (accS acc') ∧ acc'.2.1 ≠ none ∧ encFine raw (accS acc').enc ∧
      acc'.2.2 ≠ .broken := by
  obtain ⟨bs, oe, c⟩ := acc
  cases p with
  | raw rs =>
    simp only [Piece.fine] at hf
    subst hf
    simp only [interpStep, Option.some.injEq] at h
    subst h
    simp only [encFine, if_true] at hE
    have hw : ∀ e : Enc, e.asciiCompat = true → Wf (code e) rs := fun e he => hp.wf he
    refine ⟨⟨fun hc => ?_, fun hc => ?_, fun hc => ?_⟩, by simp, ?_, hB⟩
    · refine classify_seven.mpr (Or.inr ⟨by simpa [accS] using hE, ?_⟩)
      exact Ascii.append.mpr ⟨seven_ascii (ha.1 hc), hp⟩
    · have hne : (accS (bs, oe, c)).enc ≠ .iso2022Jp := by
        intro hh; rw [hh] at hE; simp [Enc.asciiCompat] at hE
      have := (classify_broken (iso := iso) hne).mp (ha.2.1 hc)
      exact (classify_broken (by simpa [accS] using hne)).mpr (by
        simpa [accS] using this.append (hw _ hE))
    · exact absurd hc hB
    · simpa [encFine, accS] using hE
  | str s =>
    simp only [Piece.all] at hp
    simp only [Piece.fine] at hf
    have hs : encFine raw s.enc := hf
    simp only [interpStep] at h
    cases oe with
    | none =>
      have hb : bs = [] := h0 rfl
      subst hb
      simp only [Option.some.injEq] at h
      subst h
      exact ⟨fold_sound (a := accS ([], none, c)) ha hp hs.ne (Or.inl rfl) (Or.inr rfl)
        (Or.inr (Or.inl rfl)) (fits_enc s), by simp, hs, fold_broken⟩
    | some prev =>
      simp only at h
      have hpv : encFine raw prev := hE
      have key : ∀ e c', encFine raw e → Known iso (accS (bs, some prev, c)) c' →
          Fits iso (accS (bs, some prev, c)) e →
          Fits iso s e → Sound iso (accS (bs ++ s.bytes, some e, fold c' (s.codeRange iso))) :=
        fun e c' he k1 f1 f2 => fold_sound (a := accS (bs, some prev, c)) ha hp he.ne k1 (Or.inr rfl) f1 f2
      have hk : (if c = .unknown then classify iso prev bs else c) =
          (accS (bs, some prev, c)).codeRange iso := by
        simp only [accS, S.codeRange, Option.getD_some]
        cases c <;> simp
      rw [hk] at h
      split_ifs at h with h1 h2 h3 h4 h5
      · simp only [Option.some.injEq] at h; subst h
        exact ⟨key _ _ hpv (Or.inl rfl) (Or.inl rfl) (Or.inl h1.symm), by simp, hpv, fold_broken⟩
      · simp only [Option.some.injEq] at h; subst h
        exact ⟨key _ _ hpv (Or.inl rfl) (Or.inl rfl) (Or.inr (Or.inl h2.2)), by simp, hpv, fold_broken⟩
      · simp only [Option.some.injEq] at h; subst h
        exact ⟨key _ _ hpv (Or.inl rfl) (Or.inl rfl) (Or.inr (Or.inr ⟨h4.2, h4.1⟩)), by simp, hpv, fold_broken⟩
      · simp only [Option.some.injEq] at h; subst h
        exact ⟨key _ _ hs (Or.inl rfl) (Or.inr (Or.inl h3)) (Or.inl rfl), by simp, hs, fold_broken⟩
      · simp only [Option.some.injEq] at h; subst h
        exact ⟨key _ _ hpv (Or.inl rfl) (Or.inl rfl) (Or.inr (Or.inl h5)), by simp, hpv, fold_broken⟩
      · split at h
        · simp at h
        · rename_i e hce
          simp only [Option.some.injEq] at h
          subst h
          obtain ⟨s1, s2⟩ := compatible_side hce
          have he : encFine raw e := by
            rcases s1 with s | s
            · subst s; exact hpv
            · exact encFine.compat s.2
          refine ⟨key _ _ he (Or.inr rfl) ?_ ?_, by simp, he, fold_broken⟩
          · rcases s1 with s | s
            · exact Or.inl s
            · exact Or.inr (Or.inr s)
          · rcases s2 with s | s
            · exact Or.inl s
            · exact Or.inr (Or.inr s)

theorem interpLoop_sound {raw : Bool} {ps : List Piece} : ∀ {acc acc' : List Nat × Option Enc × CR},
    (acc.2.1 = none → acc.1 = []) → Sound iso (accS acc) → encFine raw (accS acc).enc →
    acc.2.2 ≠ .broken → (∀ p ∈ ps, p.all (Sound iso) ∧ p.fine raw) →
    interpLoop iso acc ps = some acc' → Sound iso (accS acc') := by
  induction ps with
  | nil =>
    intro acc acc' _ h2 _ _ _ h
    simp only [interpLoop, Option.some.injEq] at h
    subst h; exact h2
  | cons p ps ih =>
    intro acc acc' h1 h2 hE hB h3 h
    simp only [interpLoop] at h
    cases hst : interpStep iso acc p with
    | none => rw [hst] at h; simp at h
    | some acc1 =>
      rw [hst] at h
      obtain ⟨g1, g2, g3, g4⟩ := interpStep_sound h1 h2 hE hB (h3 p (by simp)).1 (h3 p (by simp)).2 hst
      exact ih (fun hn => absurd hn g2) g1 g3 g4 (fun q hq => h3 q (by simp [hq])) h

theorem interp_sound {raw : Bool} {ps : List Piece} {s}
    (hp : ∀ p ∈ ps, p.all (Sound iso) ∧ p.fine raw) (h : interp iso ps = some s) :
    Sound iso s := by
  unfold interp at h
  cases hl : interpLoop iso ([], none, .sevenBit) ps with
  | none => rw [hl] at h; simp at h
  | some acc =>
    rw [hl] at h
    simp only [Option.map_some, Option.some.injEq] at h
    subst h
    exact interpLoop_sound (fun _ => rfl) ⟨fun _ => by simp [accS, classify], by simp [accS], by simp [accS]⟩
      (encFine.compat rfl) (by simp) hp hl

/-! ## Machine code -/

theorem jitByte_safe {s t : S} {b} (hs : Safe s) (h : jitAppendByte s b = some t) : Safe t := by
  unfold jitAppendByte at h
  by_cases h1 : b > 0xff
  · rw [if_pos h1] at h; simp at h
  rw [if_neg h1] at h
  by_cases h2 : b > 0x7f ∧ s.enc.tag ≠ 0
  · rw [if_pos h2] at h; simp at h
  rw [if_neg h2] at h
  simp only [Option.some.injEq] at h
  subst h
  by_cases h3 : b ≤ 0x7f
  · have hA : Ascii [b] := by intro x hx; simp at hx; omega
    refine ⟨fun hc => ?_, fun hc he => ?_⟩
    · simp only [h3, if_true] at hc
      exact Ascii.append.mpr ⟨hs.1 hc, hA⟩
    · simp only [h3, if_true] at hc
      exact (hs.2 hc he).append (hA.wf (e := .utf8) rfl)
  · exact ⟨by simp [h3], by simp [h3]⟩

/-- in UTF-8 and EUC-JP an ASCII byte is a character of its own -/
theorem eucw_last {a : List Nat} {b k : Nat} (hb : b < 0x80) (h : eucw (a ++ [b]) = some k) :
    k ≤ a.length ∨ a = [] := by
  rcases a with _ | ⟨a0, _ | ⟨a1, _ | ⟨a2, a⟩⟩⟩
  · exact Or.inr rfl
  all_goals
    left
    simp only [List.cons_append, List.nil_append, eucw] at h
    simp only [List.length_cons, List.length_nil]
    split_ifs at h <;> simp_all <;> omega

theorem wf_last {w : List Nat → Option Nat} (hw : Code w) {b : Nat}
    (hl : ∀ a k, w (a ++ [b]) = some k → k ≤ a.length ∨ a = []) :
    ∀ n a, a.length ≤ n → Wf w (a ++ [b]) → Wf w a := by
  intro n
  induction n with
  | zero =>
    intro a ha _
    have : a = [] := List.length_eq_zero_iff.mp (by omega)
    subst this; exact Wf.nil
  | succ n ih =>
    intro a ha h
    obtain ⟨k, hk, h2⟩ := h.inv hw (by simp)
    rcases hl a k hk with h3 | h3
    · have hp := hw.pos _ _ hk
      rw [List.drop_append_of_le_length h3] at h2
      have h4 := ih (a.drop k) (by rw [List.length_drop]; omega) h2
      have ht := hw.take hk
      rw [List.take_append_of_le_length h3] at ht
      have hl' : (a.take k).length = k := by rw [List.length_take]; omega
      have h5 : Wf w (a.take k) :=
        Wf.one (by intro h; rw [h] at hl'; simp at hl'; omega) (by rw [ht, hl'])
      have := h5.append h4
      rwa [List.take_append_drop] at this
    · subst h3; exact Wf.nil

theorem jitByte_sound {s t : S} {b} (hs : Sound iso s) (hc : s.enc.asciiCompat = true)
    (hb : s.cr = .broken → ∀ n, s.enc ≠ .sjis n) (h : jitAppendByte s b = some t) : Sound iso t := by
  have hne : s.enc ≠ .iso2022Jp := by intro hh; rw [hh] at hc; simp [Enc.asciiCompat] at hc
  unfold jitAppendByte at h
  by_cases h1 : b > 0xff
  · rw [if_pos h1] at h; simp at h
  rw [if_neg h1] at h
  by_cases h2 : b > 0x7f ∧ s.enc.tag ≠ 0
  · rw [if_pos h2] at h; simp at h
  rw [if_neg h2] at h
  simp only [Option.some.injEq] at h
  subst h
  by_cases h3 : b ≤ 0x7f
  · have hA : Ascii [b] := by intro x hx; simp at hx; omega
    have hb8 : b < 0x80 := by omega
    refine ⟨fun hcr => ?_, fun hcr => ?_, fun hcr => ?_⟩ <;> simp only [h3, if_true] at hcr ⊢
    · exact classify_seven.mpr (Or.inr ⟨hc, Ascii.append.mpr ⟨seven_ascii (hs.1 hcr), hA⟩⟩)
    · exact (classify_broken hne).mpr (((classify_broken hne).mp (hs.2.1 hcr)).append (hA.wf hc))
    · by_contra hx
      have hw := (classify_broken hne).mp hx
      have hbr := hs.2.2 hcr
      refine (classify_broken (iso := iso) hne).mpr ?_ hbr
      have hns := hb hcr
      cases hE : s.enc <;> rw [hE] at hw hc hns <;> simp only [code] at hw ⊢ <;>
        first
        | exact wf_fix1 _
        | exact absurd rfl (hns _)
        | (simp [Enc.asciiCompat] at hc; done)
        | skip
      · refine (u8_cut hw ?_).1
        intro x t hx
        simp only [List.cons.injEq] at hx
        rw [← hx.1]
        simp [cont]; omega
      · exact Ascii.wf (e := .usAscii) rfl (fun x hx => wf_ascii hw x (by simp [hx]))
      · exact wf_last (code_code .eucJp) (fun a k => eucw_last hb8) _ _ (Nat.le_refl _) hw
  · exact ⟨by simp [h3], by simp [h3], by simp [h3]⟩

theorem tag_eq {a b : Enc} (h : a.tag = b.tag) (h6 : ¬ a.tag > 6) : a = b := by
  cases a <;> cases b <;> simp_all [Enc.tag]

theorem tag_compat {a : Enc} (h : ¬ a.tag > 2) : a.asciiCompat = true := by
  cases a <;> simp_all [Enc.tag, Enc.asciiCompat]

theorem jitAppend_fits {a b t : S} (h : jitAppend a b = some t) :
    t = ⟨a.bytes ++ b.bytes, a.enc, fold a.cr b.cr⟩ ∧ Fits iso b a.enc ∧ a.enc ≠ .iso2022Jp := by
  unfold jitAppend at h
  split_ifs at h with h1 h2 h3 h4 h5 h6 <;> simp only [Option.some.injEq] at h
  · refine ⟨h.symm, Or.inl (tag_eq h1 h2).symm, ?_⟩
    intro hh; rw [hh] at h2; simp [Enc.tag] at h2
  · have hb : b.cr = .sevenBit := by simpa using h5
    have hc := tag_compat h3
    refine ⟨h.symm, Or.inr (Or.inr ⟨?_, hc⟩), by intro hh; rw [hh] at hc; simp [Enc.asciiCompat] at hc⟩
    simp [S.codeRange, hb]

/-! ## Histories -/

theorem upd {P : S → Prop} {w : World} {i : Nat} {s : S} (hw : ∀ k, P (w k)) (hs : P s) :
    ∀ k, P (Function.update w i s k) := by
  intro k
  by_cases h : k = i
  · subst h; simpa using hs
  · rw [Function.update_of_ne h]; exact hw k

theorem updOpt {P : S → Prop} {w : World} {i : Nat} {o : Option S} (hw : ∀ k, P (w k))
    (hs : ∀ s, o = some s → P s) :
    ∀ k, P ((match o with | some s => Function.update w i s | none => w) k) := by
  cases o with
  | none => exact hw
  | some s => exact upd hw (hs s rfl)

theorem fromVec_safe (bs) : Safe (fromVecScanned bs) := by
  unfold fromVecScanned
  split_ifs with h1 h2
  · exact ⟨fun _ => all_ascii.mp h1, by simp⟩
  · exact ⟨by simp, fun _ _ => (wellFormed_iff u8w_code _).mp h2⟩
  · exact ⟨by simp, by simp⟩

theorem fromVec_sound (bs) : Sound iso (fromVecScanned bs) := by
  unfold fromVecScanned
  split_ifs with h1 h2
  · exact ⟨fun _ => classify_seven.mpr (Or.inr ⟨rfl, all_ascii.mp h1⟩), by simp, by simp⟩
  · exact ⟨by simp, fun _ => (classify_broken (by simp)).mpr ((wellFormed_iff u8w_code _).mp h2), by simp⟩
  · exact ⟨by simp, fun _ => classify_fix1 (by simp) rfl _, by simp⟩

theorem appendInt_safe {s t : S} {c} (hs : Safe s) (h : appendInt s c = some t) : Safe t := by
  unfold appendInt at h
  split_ifs at h
  · exact checked_safe hs h
  · exact checked_safe hs h

theorem appendInt_sound {s t : S} {c} (hs : Sound iso s) (hc : s.enc.asciiCompat = true)
    (hu : s.enc = .usAscii → c < 0x80) (h : appendInt s c = some t) : Sound iso t := by
  have hu' : s.enc = .usAscii → Ascii (encode c) := by
    intro he x hx
    have := hu he
    simp [encode, this] at hx
    omega
  unfold appendInt at h
  split_ifs at h with h1 h2 h3
  · exact checked_sound hs hc hu' h
  · exact checked_sound hs hc (fun he => by rw [he] at h1; simp [Enc.utf8Compat] at h1) h

theorem piece_safe {w : World} (hw : ∀ k, Safe (w k)) (ps : List (Nat ⊕ List Nat)) :
    ∀ p ∈ ps.map (toPiece w), p.all Safe := by
  intro p hp
  obtain ⟨q, _, rfl⟩ := List.mem_map.mp hp
  cases q with
  | inl j => exact hw j
  | inr bs =>
    intro x hx
    simp only [List.mem_filter, decide_eq_true_eq] at hx
    exact hx.2

theorem step_safe {w : World} (hw : ∀ k, Safe (w k)) (op : Op) : ∀ k, Safe (step iso w op k) := by
  cases op with
  | new k bs e => exact upd hw (safe_unknown _ _)
  | newScanned k bs e => exact upd hw (safe_classify _ _)
  | newAuto k bs => exact upd hw (fromVec_safe bs)
  | query i => exact upd hw (hw i).query
  | copy k i => exact upd hw (hw i)
  | force i e => exact upd hw (safe_unknown _ _)
  | setByte i n b =>
    simp only [step]; split_ifs
    · exact upd hw (setByte_safe (hw i) _ _)
    · exact hw
  | append i j =>
    simp only [step]; split_ifs
    · exact upd hw (extend_safe (hw i) (hw i)).1
    · exact upd (upd hw (extend_safe (hw i) (hw j)).2) (extend_safe (hw i) (hw j)).1
  | add k i j =>
    simp only [step]; split_ifs
    · exact upd hw (extend_safe (hw i) (hw j)).1
    · exact hw
  | appendInt i c =>
    exact updOpt hw (fun s h => (appendInt_safe (hw i) h))
  | appendBytes i bs => exact upd hw (safe_unknown _ _)
  | packInto i bs => exact upd hw (merge_safe (hw i))
  | substr k i st en =>
    simp only [step]; split_ifs with h
    · exact upd (upd hw (hw i).query) (substring_safe (hw i) h.1 h.2)
    · exact hw
  | mul k i n => exact upd hw (mul_safe (hw i) n)
  | reverse k i => exact upd (upd hw (hw i).query) (reverse_safe (hw i))
  | splice i st len j =>
    simp only [step]; split_ifs with h1 h2
    · exact upd hw (splice_safe (hw i) (hw i) h1).1
    · exact upd (upd hw (splice_safe (hw i) (hw j) h1).2) (splice_safe (hw i) (hw j) h1).1
    · exact hw
  | scrub k i repl => exact upd hw (scrub_safe (hw i) repl)
  | pad k i width j side =>
    simp only [step]; split_ifs
    · exact hw
    · exact upd hw (pad_safe (hw i) (hw j) width side)
  | asciiOut k i bs =>
    simp only [step]; split_ifs with h
    · exact upd hw ⟨fun _ => all_ascii.mp h.2.1, by simp⟩
    · exact hw
  | interp k ps =>
    exact updOpt hw (fun s h => (interp_safe (piece_safe hw ps) h))
  | jitAppendByte i b =>
    exact updOpt hw (fun s h => (jitByte_safe (hw i) h))
  | jitAppend i j =>
    refine updOpt hw (fun s h => ?_)
    obtain ⟨h1, h2, _⟩ := jitAppend_fits (iso := iso) h
    subst h1
    exact (fold_safe (hw i) (hw j) (Or.inl rfl) (Or.inl rfl) (fits_enc _) h2)

theorem run_safe (ops : List Op) : ∀ k, Safe (run iso ops k) := by
  unfold run
  suffices h : ∀ w : World, (∀ k, Safe (w k)) → ∀ k, Safe (ops.foldl (step iso) w k) by
    exact h _ (fun _ => ⟨fun _ x hx => by simp at hx, by simp⟩)
  induction ops with
  | nil => intro w hw; exact hw
  | cons op ops ih => intro w hw; exact ih _ (step_safe hw op)

/-- The operations after which the cached code range is known to agree with a scan. -/
def fine (iso : List Nat → Bool) (w : World) : Op → Prop
  | .append i j | .add _ i j => (w i).enc ≠ .iso2022Jp ∧ (w j).enc ≠ .iso2022Jp
  | .appendInt i c => (w i).enc.asciiCompat = true ∧ ((w i).enc = .usAscii → c < 0x80)
  | .packInto i _ => (w i).enc ≠ .iso2022Jp
  | .mul _ i n => (w i).enc ≠ .iso2022Jp ∧ ((w i).cr = .broken → n ≤ 1 ∨ (w i).enc.utf8Compat = true)
  | .reverse _ i => (w i).enc ≠ .iso2022Jp ∧ classify iso (w i).enc (w i).bytes ≠ .broken
  | .pad _ i _ _ _ => (w i).enc.asciiCompat = true
  | .interp _ ps => ∃ raw, ∀ p ∈ ps.map (toPiece w), p.fine raw
  | .jitAppendByte i _ => (w i).enc.asciiCompat = true ∧ ((w i).cr = .broken → ∀ n, (w i).enc ≠ .sjis n)
  | _ => True

theorem piece_sound {w : World} (hw : ∀ k, Sound iso (w k)) (ps : List (Nat ⊕ List Nat)) :
    ∀ p ∈ ps.map (toPiece w), p.all (Sound iso) := by
  intro p hp
  obtain ⟨q, _, rfl⟩ := List.mem_map.mp hp
  cases q with
  | inl j => exact hw j
  | inr bs =>
    intro x hx
    simp only [List.mem_filter, decide_eq_true_eq] at hx
    exact hx.2

theorem step_sound {w : World} (hw : ∀ k, Sound iso (w k)) (op : Op) (hf : fine iso w op) :
    ∀ k, Sound iso (step iso w op k) := by
  cases op with
  | new k bs e => exact upd hw (sound_unknown _ _)
  | newScanned k bs e => exact upd hw (sound_classify _ _)
  | newAuto k bs => exact upd hw (fromVec_sound bs)
  | query i => exact upd hw (hw i).query
  | copy k i => exact upd hw (hw i)
  | force i e => exact upd hw (sound_unknown _ _)
  | setByte i n b =>
    simp only [step]; split_ifs
    · exact upd hw (setByte_sound (hw i) _ _)
    · exact hw
  | append i j =>
    simp only [step]; split_ifs
    · exact upd hw (extend_sound (hw i) (hw i) hf.1 hf.1).1
    · exact upd (upd hw (extend_sound (hw i) (hw j) hf.1 hf.2).2) (extend_sound (hw i) (hw j) hf.1 hf.2).1
  | add k i j =>
    simp only [step]; split_ifs
    · exact upd hw (extend_sound (hw i) (hw j) hf.1 hf.2).1
    · exact hw
  | appendInt i c =>
    exact updOpt hw (fun s h => (appendInt_sound (hw i) hf.1 hf.2 h))
  | appendBytes i bs => exact upd hw (sound_unknown _ _)
  | packInto i bs => exact upd hw (merge_sound (hw i) hf)
  | substr k i st en =>
    simp only [step]; split_ifs with h
    · exact upd (upd hw (hw i).query) (substring_sound (hw i) h.1 h.2)
    · exact hw
  | mul k i n => exact upd hw (mul_sound (hw i) n hf.1 hf.2)
  | reverse k i =>
    refine upd (upd hw (hw i).query) (reverse_sound (hw i) hf.1 ?_)
    exact fun h => hf.2 ((hw i).broken h)
  | splice i st len j =>
    simp only [step]; split_ifs with h1 h2
    · exact upd hw (splice_sound (hw i) (hw i) h1).1
    · exact upd (upd hw (splice_sound (hw i) (hw j) h1).2) (splice_sound (hw i) (hw j) h1).1
    · exact hw
  | scrub k i repl => exact upd hw (scrub_sound (hw i) repl)
  | pad k i width j side =>
    simp only [step]; split_ifs
    · exact hw
    · exact upd hw (pad_sound (hw i) (hw j) width side hf)
  | asciiOut k i bs =>
    simp only [step]; split_ifs with h
    · refine upd hw ⟨fun _ => ?_, by simp, by simp⟩
      have h1 : (w i).codeRange iso = .sevenBit := by simpa [S.asciiOnly] using h.1
      rcases classify_seven.mp ((hw i).seven h1) with h2 | h2
      · exact classify_seven.mpr (Or.inl (h.2.2 h2))
      · exact classify_seven.mpr (Or.inr ⟨h2.1, all_ascii.mp h.2.1⟩)
    · exact hw
  | interp k ps =>
    obtain ⟨raw, hf⟩ := hf
    exact updOpt hw (fun s h => interp_sound (fun p hp => ⟨piece_sound hw ps p hp, hf p hp⟩) h)
  | jitAppendByte i b =>
    exact updOpt hw (fun s h => (jitByte_sound (hw i) hf.1 hf.2 h))
  | jitAppend i j =>
    refine updOpt hw (fun s h => ?_)
    obtain ⟨h1, h2, h3⟩ := jitAppend_fits (iso := iso) h
    subst h1
    exact (fold_sound (hw i) (hw j) h3 (Or.inl rfl) (Or.inl rfl) (fits_enc _) h2)

/-- every operation of the program is fine when it is reached -/
def fineFrom (iso : List Nat → Bool) : World → List Op → Prop
  | _, [] => True
  | w, op :: ops => fine iso w op ∧ fineFrom iso (step iso w op) ops

theorem run_sound {ops : List Op} (hf : fineFrom iso (fun _ => ⟨[], .utf8, .sevenBit⟩) ops) :
    ∀ k, Sound iso (run iso ops k) := by
  unfold run
  suffices h : ∀ w : World, (∀ k, Sound iso (w k)) → fineFrom iso w ops →
      ∀ k, Sound iso (ops.foldl (step iso) w k) by
    exact h _ (fun _ => ⟨fun _ => by simp [classify], by simp, by simp⟩) hf
  clear hf
  induction ops with
  | nil => intro w hw _; exact hw
  | cons op ops ih => intro w hw hf; exact ih _ (step_sound hw op hf.1) hf.2

end Verif.Str
