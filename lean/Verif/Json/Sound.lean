import Verif.Json.Gen

/-
  What the parser accepts, for texts without backslashes, starts with a JSON value.
-/
namespace Verif.Json

/-- no backslash, and only characters allowed by `Q` -/
def Clean (Q : Char → Prop) (t : List Char) : Prop := ∀ c ∈ t, c ≠ '\\' ∧ Q c

theorem clean_append {Q : Char → Prop} {a b : List Char} (h : Clean Q (a ++ b)) : Clean Q a ∧ Clean Q b :=
  ⟨fun c hc => h c (by simp [hc]), fun c hc => h c (by simp [hc])⟩

theorem clean_cons {Q : Char → Prop} {c : Char} {b : List Char} (h : Clean Q (c :: b)) : Clean Q b :=
  fun d hd => h d (by simp [hd])

theorem isWs_low {b : Byte} (h : isWs b = true) : b < 0x80 := by
  unfold isWs at h
  simp only [Bool.or_eq_true, beq_iff_eq] at h
  rcases h with ((h | h) | h) | h <;> subst h <;> decide

theorem isDigit_low {b : Byte} (h : isDigit b = true) : b < 0x80 := by
  unfold isDigit at h
  simp only [Bool.and_eq_true, decide_eq_true_eq, UInt8.le_iff_toNat_le] at h
  rw [UInt8.lt_iff_toNat_lt]
  have h1 : (B '9').toNat = 57 := rfl
  have h2 : (0x80 : UInt8).toNat = 128 := rfl
  omega

theorem skipWs_inv (t : List Char) : ∃ w t', t = w ++ t' ∧ Ws w ∧ skipWs (utf8 t) = utf8 t' := by
  induction t with
  | nil => exact ⟨[], [], rfl, ws_nil, rfl⟩
  | cons c cs ih =>
    by_cases hc : Ascii c
    · by_cases hw : isWs (B c) = true
      · obtain ⟨w, t', h1, h2, h3⟩ := ih
        refine ⟨c :: w, t', by rw [h1]; rfl, ?_, ?_⟩
        · intro d hd
          rcases List.mem_cons.mp hd with rfl | hd
          · exact (isWs_B hc).mp hw
          · exact h2 d hd
        · rw [utf8_cons_ascii hc]
          unfold skipWs at h3 ⊢
          rw [List.dropWhile_cons_of_pos hw, h3]
      · refine ⟨[], c :: cs, rfl, ws_nil, ?_⟩
        rw [utf8_cons_ascii hc, skipWs_stop (by simpa using hw)]
    · obtain ⟨b, r, he, hb⟩ := encode_high hc
      refine ⟨[], c :: cs, rfl, ws_nil, ?_⟩
      rw [utf8_cons, he, List.cons_append, skipWs_stop]
      cases h : isWs b with
      | false => rfl
      | true =>
        have := isWs_low h
        rw [UInt8.lt_iff_toNat_lt] at this
        rw [UInt8.le_iff_toNat_le] at hb
        omega

/-- a text whose bytes begin with those of an ASCII character -/
theorem head_inv {t : List Char} {d : Char} {r : List Byte} (hd : Ascii d) (h : utf8 t = B d :: r) :
    ∃ cs, t = d :: cs ∧ r = utf8 cs := by
  have hl : B d < 0x80 := by
    rw [UInt8.lt_iff_toNat_lt, B_toNat hd]; exact hd
  obtain ⟨c, cs, rfl, hc, h1, h2⟩ := utf8_head_low h hl
  rw [B_inj hd hc] at h1
  exact ⟨cs, by rw [h1], h2⟩

theorem pStr_inv {Q : Char → Prop} : ∀ (n : Nat) {t s : List Char} {r : List Byte}, Clean Q t →
    pStr n (utf8 t) = some (s, r) → ∃ rest, t = s ++ '"' :: rest ∧ r = utf8 rest ∧ RawStr Q s s
  | 0, _, _, _, _, h => by cases h
  | n + 1, [], s, r, _, h => by
    simp only [pStr, utf8_nil, strStep] at h; cases h
  | n + 1, c :: cs, s, r, hq, h => by
    by_cases h1 : c = '"'
    · subst h1
      rw [utf8_cons_ascii ascii_lit] at h
      simp only [pStr, strStep, if_true, Option.some.injEq, Prod.mk.injEq] at h
      obtain ⟨rfl, rfl⟩ := h
      exact ⟨cs, rfl, rfl, rfl, fun c hc => by cases hc⟩
    · have h2 := hq c (by simp)
      rw [utf8_cons, pStr, strStep_plain h1 h2.1] at h
      simp only at h
      cases hp : pStr n (utf8 cs) with
      | none => rw [hp] at h; cases h
      | some q =>
        rw [hp] at h
        simp only [Option.map_some, List.cons_append, List.nil_append, Option.some.injEq, Prod.mk.injEq] at h
        obtain ⟨rest, e1, e2, -, e3⟩ := pStr_inv n (clean_cons hq) (s := q.1) (r := q.2) hp
        obtain ⟨rfl, rfl⟩ := h
        refine ⟨rest, by rw [e1]; rfl, e2, rfl, ?_⟩
        intro d hd
        rcases List.mem_cons.mp hd with rfl | hd
        · exact ⟨h1, h2.1, h2.2⟩
        · exact e3 d hd

theorem digits_inv (t : List Char) : ∃ ds rest, t = ds ++ rest ∧ (∀ c ∈ ds, Dig c) ∧
    digits (utf8 t) = (ds.map B, utf8 rest) := by
  unfold digits
  induction t with
  | nil => exact ⟨[], [], rfl, fun c hc => by (cases hc), rfl⟩
  | cons c cs ih =>
    by_cases hc : Ascii c
    · by_cases hd : isDigit (B c) = true
      · obtain ⟨ds, rest, h1, h2, h3⟩ := ih
        simp only [Prod.mk.injEq] at h3
        refine ⟨c :: ds, rest, by rw [h1]; rfl, ?_, ?_⟩
        · intro d hd'
          rcases List.mem_cons.mp hd' with rfl | hd'
          · exact (isDigit_B hc).mp hd
          · exact h2 d hd'
        · rw [utf8_cons_ascii hc, List.takeWhile_cons_of_pos hd, List.dropWhile_cons_of_pos hd, h3.1, h3.2]
          rfl
      · refine ⟨[], c :: cs, rfl, fun c hc => by (cases hc), ?_⟩
        rw [utf8_cons_ascii hc, List.takeWhile_cons_of_neg hd, List.dropWhile_cons_of_neg hd]
        rfl
    · obtain ⟨b, r, he, hb⟩ := encode_high hc
      have hd : ¬ isDigit b = true := by
        intro h
        have := isDigit_low h
        rw [UInt8.lt_iff_toNat_lt] at this
        rw [UInt8.le_iff_toNat_le] at hb
        omega
      refine ⟨[], c :: cs, rfl, fun c hc => by (cases hc), ?_⟩
      rw [utf8_cons, he, List.cons_append, List.takeWhile_cons_of_neg hd, List.dropWhile_cons_of_neg hd]
      rfl

theorem pNat_inv {sign t : List Char} {t1 s1 : List Byte} (h : pNat (sign.map B) (utf8 t) = some (t1, s1)) :
    ∃ a rest, t = a ++ rest ∧ t1 = (sign ++ a).map B ∧ s1 = utf8 rest ∧ NatTok a := by
  cases hu : utf8 t with
  | nil => rw [hu] at h; cases h
  | cons b r =>
    rw [hu] at h
    simp only [pNat] at h
    by_cases h0 : b = B '0'
    · rw [if_pos h0] at h
      simp only [Option.some.injEq, Prod.mk.injEq] at h
      subst h0
      obtain ⟨cs, rfl, e⟩ := head_inv ascii_lit hu
      refine ⟨['0'], cs, rfl, by rw [← h.1, List.map_append]; rfl, by rw [← h.2, e], ⟨by simp, ?_⟩, fun _ => rfl⟩
      intro c hc
      rw [List.mem_singleton.mp hc]
      unfold Dig; decide
    · rw [if_neg h0] at h
      by_cases hd : isDigit b = true
      · rw [if_pos hd] at h
        simp only [Option.some.injEq, Prod.mk.injEq] at h
        obtain ⟨c, cs, rfl, hc, rfl, rfl⟩ := utf8_head_low hu (isDigit_low hd)
        obtain ⟨ds, rest, e1, e2, e3⟩ := digits_inv cs
        rw [e3] at h
        refine ⟨c :: ds, rest, by rw [e1]; rfl, ?_, h.2.symm, ⟨by simp, ?_⟩, ?_⟩
        · rw [← h.1, List.map_append]; rfl
        · intro d hd'
          rcases List.mem_cons.mp hd' with rfl | hd'
          · exact (isDigit_B hc).mp hd
          · exact e2 d hd'
        · intro he
          simp only [List.head?_cons, Option.some.injEq] at he
          subst he
          exact absurd rfl h0
      · rw [if_neg hd] at h; cases h

theorem pIntPart_inv {t : List Char} {t1 s1 : List Byte} (h : pIntPart (utf8 t) = some (t1, s1)) :
    ∃ a i rest, t = a ++ rest ∧ t1 = a.map B ∧ s1 = utf8 rest ∧ IntTok a i := by
  cases hu : utf8 t with
  | nil => rw [hu] at h; cases h
  | cons b r =>
    rw [hu] at h
    simp only [pIntPart] at h
    by_cases hm : b = B '-'
    · rw [if_pos hm] at h
      subst hm
      obtain ⟨cs, rfl, rfl⟩ := head_inv ascii_lit hu
      obtain ⟨a, rest, e1, e2, e3, e4⟩ := pNat_inv (sign := ['-']) h
      exact ⟨'-' :: a, _, rest, by rw [e1]; rfl, e2, e3, .neg e4⟩
    · rw [if_neg hm, ← hu] at h
      obtain ⟨a, rest, e1, e2, e3, e4⟩ := pNat_inv (sign := []) h
      exact ⟨a, _, rest, e1, e2, e3, .pos e4⟩

theorem startsDigit_inv {t : List Char} (h : startsDigit (utf8 t) = true) :
    ∃ ds rest, t = ds ++ rest ∧ Digs ds ∧ digits (utf8 t) = (ds.map B, utf8 rest) := by
  obtain ⟨ds, rest, e1, e2, e3⟩ := digits_inv t
  refine ⟨ds, rest, e1, ⟨?_, e2⟩, e3⟩
  rintro rfl
  cases hu : utf8 t with
  | nil => rw [hu] at h; cases h
  | cons b r =>
    rw [hu] at h e3
    have : isDigit b = true := h
    unfold digits at e3
    rw [List.takeWhile_cons_of_pos this] at e3
    simp at e3

theorem pFrac_inv {t : List Char} {t2 s2 : List Byte} (h : pFrac (utf8 t) = some (t2, s2)) :
    ∃ f rest, t = f ++ rest ∧ t2 = f.map B ∧ s2 = utf8 rest ∧ (f = [] ∨ FracTok f) := by
  cases hu : utf8 t with
  | nil =>
    rw [hu] at h
    simp only [pFrac, Option.some.injEq, Prod.mk.injEq] at h
    exact ⟨[], t, rfl, h.1.symm, by rw [hu]; exact h.2.symm, Or.inl rfl⟩
  | cons b r =>
    rw [hu] at h
    simp only [pFrac] at h
    by_cases hb : b = B '.'
    · subst hb
      obtain ⟨cs, rfl, rfl⟩ := head_inv ascii_lit hu
      rw [if_pos rfl] at h
      by_cases hd : startsDigit (utf8 cs) = true
      · rw [if_pos hd] at h
        obtain ⟨ds, rest, e1, e2, e3⟩ := startsDigit_inv hd
        rw [e3] at h
        simp only [Option.some.injEq, Prod.mk.injEq] at h
        exact ⟨'.' :: ds, rest, by rw [e1]; rfl, h.1.symm, h.2.symm, Or.inr ⟨ds, e2, rfl⟩⟩
      · rw [if_neg hd] at h; cases h
    · rw [if_neg hb] at h
      simp only [Option.some.injEq, Prod.mk.injEq] at h
      exact ⟨[], t, rfl, h.1.symm, by rw [hu]; exact h.2.symm, Or.inl rfl⟩

theorem pSign_inv (t : List Char) : ∃ sign rest, t = sign ++ rest ∧ (sign = [] ∨ sign = ['+'] ∨ sign = ['-']) ∧
    pSign (utf8 t) = (sign.map B, utf8 rest) := by
  cases hu : utf8 t with
  | nil => exact ⟨[], t, rfl, Or.inl rfl, by rw [hu]; rfl⟩
  | cons b r =>
    simp only [pSign]
    by_cases h1 : b = B '+'
    · subst h1
      obtain ⟨cs, rfl, rfl⟩ := head_inv ascii_lit hu
      exact ⟨['+'], cs, rfl, Or.inr (Or.inl rfl), by simp⟩
    · by_cases h2 : b = B '-'
      · subst h2
        obtain ⟨cs, rfl, rfl⟩ := head_inv ascii_lit hu
        exact ⟨['-'], cs, rfl, Or.inr (Or.inr rfl), by simp⟩
      · exact ⟨[], t, rfl, Or.inl rfl, by rw [if_neg (by simp [h1, h2]), hu]; rfl⟩

theorem pExp_inv {t : List Char} {t3 s3 : List Byte} (h : pExp (utf8 t) = some (t3, s3)) :
    ∃ e rest, t = e ++ rest ∧ t3 = e.map B ∧ s3 = utf8 rest ∧ (e = [] ∨ ExpTok e) := by
  cases hu : utf8 t with
  | nil =>
    rw [hu] at h
    simp only [pExp, Option.some.injEq, Prod.mk.injEq] at h
    exact ⟨[], t, rfl, h.1.symm, by rw [hu]; exact h.2.symm, Or.inl rfl⟩
  | cons b r =>
    rw [hu] at h
    simp only [pExp] at h
    by_cases hb : b = B 'e' ∨ b = B 'E'
    · rw [if_pos hb] at h
      have : ∃ x cs, (x = 'e' ∨ x = 'E') ∧ b = B x ∧ t = x :: cs ∧ r = utf8 cs := by
        rcases hb with rfl | rfl
        · obtain ⟨cs, e1, e2⟩ := head_inv ascii_lit hu
          exact ⟨'e', cs, Or.inl rfl, rfl, e1, e2⟩
        · obtain ⟨cs, e1, e2⟩ := head_inv ascii_lit hu
          exact ⟨'E', cs, Or.inr rfl, rfl, e1, e2⟩
      obtain ⟨x, cs, hx, rfl, rfl, rfl⟩ := this
      obtain ⟨sign, r1, e1, e2, e3⟩ := pSign_inv cs
      rw [e3] at h
      simp only at h
      by_cases hd : startsDigit (utf8 r1) = true
      · rw [if_pos hd] at h
        obtain ⟨ds, rest, f1, f2, f3⟩ := startsDigit_inv hd
        rw [f3] at h
        simp only [Option.some.injEq, Prod.mk.injEq] at h
        refine ⟨x :: (sign ++ ds), rest, ?_, ?_, h.2.symm, Or.inr ⟨x, sign, ds, hx, e2, f2, rfl⟩⟩
        · rw [e1, f1]; simp
        · rw [← h.1]; simp
      · rw [if_neg hd] at h; cases h
    · rw [if_neg hb] at h
      simp only [Option.some.injEq, Prod.mk.injEq] at h
      exact ⟨[], t, rfl, h.1.symm, by rw [hu]; exact h.2.symm, Or.inl rfl⟩

theorem pNumber_inv {P : FloatIO} {t : List Char} {v : JV P.F} {r : List Byte} (h : pNumber P (utf8 t) = some (v, r)) :
    ∃ a rest, t = a ++ rest ∧ r = utf8 rest ∧ NumF P a v := by
  unfold pNumber at h
  cases h1 : pIntPart (utf8 t) with
  | none => rw [h1] at h; cases h
  | some q1 =>
    obtain ⟨a, i, r1, e1, e2, e3, e4⟩ := pIntPart_inv (t1 := q1.1) (s1 := q1.2) h1
    rw [h1] at h
    simp only [e3] at h
    cases h2 : pFrac (utf8 r1) with
    | none => rw [h2] at h; cases h
    | some q2 =>
      obtain ⟨f, r2, f1, f2, f3, f4⟩ := pFrac_inv (t2 := q2.1) (s2 := q2.2) h2
      rw [h2] at h
      simp only [f3] at h
      cases h3 : pExp (utf8 r2) with
      | none => rw [h3] at h; cases h
      | some q3 =>
        obtain ⟨e, r3, g1, g2, g3, g4⟩ := pExp_inv (t3 := q3.1) (s3 := q3.2) h3
        rw [h3] at h
        simp only [Option.some.injEq, Prod.mk.injEq] at h
        obtain ⟨hv, hr⟩ := h
        rw [e2, f2, g2, ← List.map_append, ← List.map_append] at hv
        refine ⟨a ++ f ++ e, r3, by rw [e1, f1, g1]; simp, by rw [← hr, g3], ?_⟩
        have hasc : ∀ c ∈ a ++ f ++ e, Ascii c := by
          intro c hc
          simp only [List.mem_append] at hc
          rcases hc with (hc | hc) | hc
          · exact int_ascii e4 c hc
          · exact frac_ascii f4 c hc
          · exact exp_ascii g4 c hc
        rw [numValue, asChars_ok hasc] at hv
        by_cases hfe : f = [] ∧ e = []
        · obtain ⟨rfl, rfl⟩ := hfe
          simp only [List.append_nil, List.map_nil, List.isEmpty_nil, Bool.not_true, Bool.or_self, Bool.false_eq_true,
            if_false, parseI64_ok e4] at hv ⊢
          by_cases hi : -(2 ^ 63) ≤ i ∧ i < 2 ^ 63
          · rw [if_pos hi] at hv
            rw [← hv]
            exact .int e4 hi.1 hi.2
          · rw [if_neg hi] at hv
            rw [← hv]
            exact .big e4 hi
        · have : (!(f.map B).isEmpty || !(e.map B).isEmpty) = true := by
            cases f with
            | cons => rfl
            | nil => cases e with
              | cons => simp
              | nil => exact absurd ⟨rfl, rfl⟩ hfe
          rw [if_pos this] at hv
          rw [← hv]
          refine .flo ⟨a, i, f, e, e4, f4, g4, ?_, rfl⟩
          by_cases hf : f = []
          · exact Or.inr fun he => hfe ⟨hf, he⟩
          · exact Or.inl hf

theorem pLit_inv {F : Type} {word t : List Char} {v v' : JV F} {r : List Byte} (hw : ∀ c ∈ word, Ascii c)
    (h : pLit word v (utf8 t) = some (v', r)) : ∃ rest, t = word ++ rest ∧ r = utf8 rest ∧ v' = v := by
  unfold pLit at h
  by_cases hp : (word.map B).isPrefixOf (utf8 t) = true
  · rw [if_pos hp] at h
    simp only [Option.some.injEq, Prod.mk.injEq] at h
    have : ∀ (word t : List Char), (∀ c ∈ word, Ascii c) → (word.map B).isPrefixOf (utf8 t) = true →
        ∃ rest, t = word ++ rest ∧ (utf8 t).drop word.length = utf8 rest := by
      intro word
      induction word with
      | nil => intro t _ _; exact ⟨t, rfl, rfl⟩
      | cons c w ih =>
        intro t hw hp
        cases hu : utf8 t with
        | nil => rw [hu] at hp; cases hp
        | cons b u =>
          rw [hu] at hp
          simp only [List.map_cons, List.isPrefixOf, Bool.and_eq_true, beq_iff_eq] at hp
          obtain ⟨rfl, hp⟩ := hp
          obtain ⟨cs, rfl, rfl⟩ := head_inv (hw c (by simp)) hu
          obtain ⟨rest, e1, e2⟩ := ih cs (fun d hd => hw d (by simp [hd])) hp
          exact ⟨rest, by rw [e1]; rfl, by rw [← e2]; rfl⟩
    obtain ⟨rest, e1, e2⟩ := this word t hw hp
    exact ⟨rest, e1, by rw [← h.2, e2], h.1.symm⟩
  · rw [if_neg hp] at h; cases h

/-- what a parser for values is to do -/
def PVSound (P : FloatIO) (Q : Char → Prop) (pv : PV P.F) : Prop :=
  ∀ {t : List Char} {v : JV P.F} {r : List Byte}, Clean Q t → pv (utf8 t) = some (v, r) →
    ∃ w t' rest, t = w ++ (t' ++ rest) ∧ r = utf8 rest ∧ Ws w ∧ JText (NumF P) (RawStr Q) t' v

theorem pItems_inv {P : FloatIO} {Q : Char → Prop} {pv : PV P.F} (hpv : PVSound P Q pv) :
    ∀ (k : Nat) {acc : List (JV P.F)} {t : List Char} {v : JV P.F} {r : List Byte}, Clean Q t →
      pItems pv k acc (utf8 t) = some (v, r) →
      ∃ t' vs rest, t = t' ++ ']' :: rest ∧ r = utf8 rest ∧ v = .arr (acc ++ vs) ∧ JItems (NumF P) (RawStr Q) t' vs
  | 0, _, _, _, _, _, h => by cases h
  | k + 1, acc, t, v, r, hq, h => by
    simp only [pItems] at h
    cases h1 : pv (utf8 t) with
    | none => rw [h1] at h; cases h
    | some q =>
      obtain ⟨w, t1, r1, e1, e2, e3, e4⟩ := hpv (v := q.1) (r := q.2) hq h1
      rw [h1] at h
      simp only [e2] at h
      obtain ⟨w', r2, f1, f2, f3⟩ := skipWs_inv r1
      rw [f3] at h
      have hq2 : Clean Q r2 := by
        rw [e1, f1] at hq
        exact (clean_append (clean_append (clean_append hq).2).2).2
      cases hu : utf8 r2 with
      | nil => rw [hu] at h; cases h
      | cons b u =>
        rw [hu] at h
        simp only at h
        by_cases hb : b = B ','
        · rw [if_pos hb] at h
          subst hb
          obtain ⟨r3, rfl, rfl⟩ := head_inv ascii_lit hu
          obtain ⟨t', vs, rest, g1, g2, g3, g4⟩ := pItems_inv hpv k (clean_cons hq2) h
          refine ⟨w ++ (t1 ++ (w' ++ ',' :: t')), q.1 :: vs, rest, ?_, g2, ?_, .cons e3 f2 e4 g4⟩
          · rw [e1, f1, g1]; simp
          · rw [g3]; simp
        · rw [if_neg hb] at h
          by_cases hb' : b = B ']'
          · rw [if_pos hb'] at h
            subst hb'
            simp only [Option.some.injEq, Prod.mk.injEq] at h
            obtain ⟨r3, rfl, rfl⟩ := head_inv ascii_lit hu
            exact ⟨w ++ (t1 ++ w'), [q.1], r3, by rw [e1, f1]; simp, h.2.symm, h.1.symm, .one e3 f2 e4⟩
          · rw [if_neg hb'] at h; cases h

theorem pKey_inv {Q : Char → Prop} {t s : List Char} {r : List Byte} (hq : Clean Q t) (h : pKey (utf8 t) = some (s, r)) :
    ∃ w w' rest, t = w ++ '"' :: (s ++ '"' :: (w' ++ ':' :: rest)) ∧ r = utf8 rest ∧ Ws w ∧ Ws w' ∧ RawStr Q s s := by
  unfold pKey at h
  obtain ⟨w, t1, f1, f2, f3⟩ := skipWs_inv t
  rw [f3] at h
  cases hu : utf8 t1 with
  | nil => rw [hu] at h; cases h
  | cons b u =>
    rw [hu] at h
    simp only at h
    by_cases hb : b = B '"'
    · rw [if_pos hb] at h
      subst hb
      obtain ⟨t2, rfl, rfl⟩ := head_inv ascii_lit hu
      rw [f1] at hq
      have hq2 := clean_cons (clean_append hq).2
      cases hp : pString (utf8 t2) with
      | none => rw [hp] at h; cases h
      | some q =>
        obtain ⟨t3, g1, g2, g3⟩ := pStr_inv _ hq2 (s := q.1) (r := q.2) hp
        rw [hp] at h
        simp only [g2] at h
        obtain ⟨w', t4, i1, i2, i3⟩ := skipWs_inv t3
        rw [i3] at h
        cases hu' : utf8 t4 with
        | nil => rw [hu'] at h; cases h
        | cons b u =>
          rw [hu'] at h
          simp only at h
          by_cases hb : b = B ':'
          · rw [if_pos hb] at h
            subst hb
            obtain ⟨t5, rfl, rfl⟩ := head_inv ascii_lit hu'
            simp only [Option.some.injEq, Prod.mk.injEq] at h
            obtain ⟨rfl, rfl⟩ := h
            exact ⟨w, w', t5, by rw [f1, g1, i1], rfl, f2, i2, g3⟩
          · rw [if_neg hb] at h; cases h
    · rw [if_neg hb] at h; cases h

theorem rawStr_clean {Q : Char → Prop} {s : List Char} (h : RawStr Q s s) : Clean Q s :=
  fun c hc => ⟨(h.2 c hc).2.1, (h.2 c hc).2.2⟩

theorem pPairs_inv {P : FloatIO} {Q : Char → Prop} {pv : PV P.F} (hpv : PVSound P Q pv) :
    ∀ (k : Nat) {pre : List (List Char × JV P.F)} {t : List Char} {v : JV P.F} {r : List Byte}, Clean Q t →
      pPairs pv k (build pre) (utf8 t) = some (v, r) →
      ∃ t' kvs rest, t = t' ++ '}' :: rest ∧ r = utf8 rest ∧ v = .obj (build (pre ++ kvs)) ∧
        JPairs (NumF P) (RawStr Q) t' kvs
  | 0, _, _, _, _, _, h => by cases h
  | k + 1, pre, t, v, r, hq, h => by
    simp only [pPairs] at h
    cases h0 : pKey (utf8 t) with
    | none => rw [h0] at h; cases h
    | some q0 =>
      obtain ⟨w0, w1, t0, a1, a2, a3, a4, a5⟩ := pKey_inv hq (s := q0.1) (r := q0.2) h0
      rw [h0] at h
      simp only [a2] at h
      have hq0 : Clean Q t0 := by
        rw [a1] at hq
        exact clean_cons (clean_append (clean_cons (clean_append (clean_cons (clean_append hq).2)).2)).2
      cases h1 : pv (utf8 t0) with
      | none => rw [h1] at h; cases h
      | some q =>
        obtain ⟨w, t1, r1, e1, e2, e3, e4⟩ := hpv (v := q.1) (r := q.2) hq0 h1
        rw [h1] at h
        simp only [e2] at h
        obtain ⟨w', r2, f1, f2, f3⟩ := skipWs_inv r1
        rw [f3] at h
        have hq2 : Clean Q r2 := by
          rw [e1, f1] at hq0
          exact (clean_append (clean_append (clean_append hq0).2).2).2
        cases hu : utf8 r2 with
        | nil => rw [hu] at h; cases h
        | cons b u =>
          rw [hu] at h
          simp only at h
          by_cases hb : b = B ','
          · rw [if_pos hb] at h
            subst hb
            obtain ⟨r3, rfl, rfl⟩ := head_inv ascii_lit hu
            rw [← build_snoc pre (q0.1, q.1)] at h
            obtain ⟨t', kvs, rest, g1, g2, g3, g4⟩ := pPairs_inv hpv k (clean_cons hq2) h
            refine ⟨w0 ++ '"' :: (q0.1 ++ '"' :: (w1 ++ ':' :: (w ++ (t1 ++ (w' ++ ',' :: t'))))),
              (q0.1, q.1) :: kvs, rest, ?_, g2, ?_, .cons a3 a4 e3 f2 a5 e4 g4⟩
            · rw [a1, e1, f1, g1]; simp
            · rw [g3]; simp
          · rw [if_neg hb] at h
            by_cases hb' : b = B '}'
            · rw [if_pos hb'] at h
              subst hb'
              rw [← build_snoc pre (q0.1, q.1)] at h
              simp only [Option.some.injEq, Prod.mk.injEq] at h
              obtain ⟨r3, rfl, rfl⟩ := head_inv ascii_lit hu
              exact ⟨w0 ++ '"' :: (q0.1 ++ '"' :: (w1 ++ ':' :: (w ++ (t1 ++ w')))), [(q0.1, q.1)], r3,
                by rw [a1, e1, f1]; simp, h.2.symm, h.1.symm, .one a3 a4 e3 f2 a5 e4⟩
            · rw [if_neg hb'] at h; cases h

theorem pArray_inv {P : FloatIO} {Q : Char → Prop} {pv : PV P.F} (hpv : PVSound P Q pv) {t : List Char} {v : JV P.F}
    {r : List Byte} (hq : Clean Q t) (h : pArray pv (utf8 t) = some (v, r)) :
    ∃ t' rest, t = t' ++ rest ∧ r = utf8 rest ∧ JText (NumF P) (RawStr Q) ('[' :: t') v := by
  unfold pArray at h
  obtain ⟨w, t1, f1, f2, f3⟩ := skipWs_inv t
  rw [f3] at h
  have hq1 : Clean Q t1 := by rw [f1] at hq; exact (clean_append hq).2
  cases hu : utf8 t1 with
  | nil => rw [hu] at h; cases h
  | cons b u =>
    rw [hu] at h
    simp only at h
    by_cases hb : b = B ']'
    · rw [if_pos hb] at h
      subst hb
      obtain ⟨t2, rfl, rfl⟩ := head_inv ascii_lit hu
      simp only [Option.some.injEq, Prod.mk.injEq] at h
      obtain ⟨rfl, rfl⟩ := h
      exact ⟨w ++ [']'], t2, by rw [f1]; simp, rfl, .arr0 f2⟩
    · rw [if_neg hb, ← hu] at h
      obtain ⟨t', vs, rest, g1, g2, g3, g4⟩ := pItems_inv hpv _ hq1 h
      have h4 : JItems (NumF P) (RawStr Q) (w ++ t') vs := by
        have hww : ∀ {w0 : List Char}, Ws w0 → Ws (w ++ w0) := by
          intro w0 h0 c hc
          rcases List.mem_append.mp hc with hc | hc
          · exact f2 c hc
          · exact h0 c hc
        cases g4 with
        | one h1 h2 h3 => rw [← List.append_assoc]; exact .one (hww h1) h2 h3
        | cons h1 h2 h3 h5 => rw [← List.append_assoc]; exact .cons (hww h1) h2 h3 h5
      refine ⟨w ++ (t' ++ [']']), rest, by rw [f1, g1]; simp, g2, ?_⟩
      rw [g3, List.nil_append, ← List.append_assoc]
      exact .arr h4

theorem pObject_inv {P : FloatIO} {Q : Char → Prop} {pv : PV P.F} (hpv : PVSound P Q pv) {t : List Char} {v : JV P.F}
    {r : List Byte} (hq : Clean Q t) (h : pObject pv (utf8 t) = some (v, r)) :
    ∃ t' rest, t = t' ++ rest ∧ r = utf8 rest ∧ JText (NumF P) (RawStr Q) ('{' :: t') v := by
  unfold pObject at h
  obtain ⟨w, t1, f1, f2, f3⟩ := skipWs_inv t
  rw [f3] at h
  have hq1 : Clean Q t1 := by rw [f1] at hq; exact (clean_append hq).2
  cases hu : utf8 t1 with
  | nil => rw [hu] at h; cases h
  | cons b u =>
    rw [hu] at h
    simp only at h
    by_cases hb : b = B '}'
    · rw [if_pos hb] at h
      subst hb
      obtain ⟨t2, rfl, rfl⟩ := head_inv ascii_lit hu
      simp only [Option.some.injEq, Prod.mk.injEq] at h
      obtain ⟨rfl, rfl⟩ := h
      exact ⟨w ++ ['}'], t2, by rw [f1]; simp, rfl, .obj0 f2⟩
    · rw [if_neg hb, ← hu] at h
      obtain ⟨t', kvs, rest, g1, g2, g3, g4⟩ := pPairs_inv hpv _ (pre := []) hq1 h
      have h4 : JPairs (NumF P) (RawStr Q) (w ++ t') kvs := by
        have hww : ∀ {w0 : List Char}, Ws w0 → Ws (w ++ w0) := by
          intro w0 h0 c hc
          rcases List.mem_append.mp hc with hc | hc
          · exact f2 c hc
          · exact h0 c hc
        cases g4 with
        | one h1 h2 h3 h5 h6 h7 => rw [← List.append_assoc]; exact .one (hww h1) h2 h3 h5 h6 h7
        | cons h1 h2 h3 h5 h6 h7 h8 => rw [← List.append_assoc]; exact .cons (hww h1) h2 h3 h5 h6 h7 h8
      refine ⟨w ++ (t' ++ ['}']), rest, by rw [f1, g1]; simp, g2, ?_⟩
      rw [g3, List.nil_append, ← List.append_assoc]
      exact .obj h4 (build_collapsed kvs)

theorem pValue_inv (P : FloatIO) (Q : Char → Prop) : ∀ n, PVSound P Q (pValue P n)
  | 0 => by intro _ h; cases h
  | n + 1 => by
    intro hq h
    rename_i t v r
    simp only [pValue] at h
    obtain ⟨w, t1, f1, f2, f3⟩ := skipWs_inv t
    rw [f3] at h
    have hq1 : Clean Q t1 := by rw [f1] at hq; exact (clean_append hq).2
    cases hu : utf8 t1 with
    | nil => rw [hu] at h; cases h
    | cons b u =>
      rw [hu] at h
      simp only at h
      split_ifs at h with c1 c2 c3 c4 c5 c6 c7
      · subst c1
        obtain ⟨t2, rfl, rfl⟩ := head_inv ascii_lit hu
        cases hp : pString (utf8 t2) with
        | none => rw [hp] at h; cases h
        | some q =>
          obtain ⟨t3, g1, g2, g3⟩ := pStr_inv _ (clean_cons hq1) (s := q.1) (r := q.2) hp
          rw [hp] at h
          simp only [Option.map_some, Option.some.injEq, Prod.mk.injEq] at h
          obtain ⟨rfl, rfl⟩ := h
          exact ⟨w, '"' :: (q.1 ++ ['"']), t3, by rw [f1, g1]; simp, g2, f2, .str g3⟩
      · subst c2
        obtain ⟨t2, rfl, rfl⟩ := head_inv ascii_lit hu
        obtain ⟨t', rest, g1, g2, g3⟩ := pObject_inv (pValue_inv P Q n) (clean_cons hq1) h
        exact ⟨w, '{' :: t', rest, by rw [f1, g1]; simp, g2, f2, g3⟩
      · subst c3
        obtain ⟨t2, rfl, rfl⟩ := head_inv ascii_lit hu
        obtain ⟨t', rest, g1, g2, g3⟩ := pArray_inv (pValue_inv P Q n) (clean_cons hq1) h
        exact ⟨w, '[' :: t', rest, by rw [f1, g1]; simp, g2, f2, g3⟩
      · rw [← hu] at h
        obtain ⟨rest, g1, g2, g3⟩ := pLit_inv (by unfold Ascii; decide) h
        exact ⟨w, _, rest, by rw [f1, g1], g2, f2, by rw [g3]; exact .tru⟩
      · rw [← hu] at h
        obtain ⟨rest, g1, g2, g3⟩ := pLit_inv (by unfold Ascii; decide) h
        exact ⟨w, _, rest, by rw [f1, g1], g2, f2, by rw [g3]; exact .fals⟩
      · rw [← hu] at h
        obtain ⟨rest, g1, g2, g3⟩ := pLit_inv (by unfold Ascii; decide) h
        exact ⟨w, _, rest, by rw [f1, g1], g2, f2, by rw [g3]; exact .null⟩
      · rw [← hu] at h
        obtain ⟨a, rest, g1, g2, g3⟩ := pNumber_inv h
        exact ⟨w, a, rest, by rw [f1, g1], g2, f2, .num g3⟩

/-! ### Stricter grammars -/

section
variable {F : Type} {N N' : List Char → JV F → Prop} {S S' : List Char → List Char → Prop}

mutual
theorem text_mono (hN : ∀ t v, N t v → N' t v) (hS : ∀ b s, S b s → S' b s) {t : List Char} {v : JV F} :
    JText N S t v → JText N' S' t v
  | .null => .null
  | .tru => .tru
  | .fals => .fals
  | .num h => .num (hN _ _ h)
  | .str h => .str (hS _ _ h)
  | .arr0 h => .arr0 h
  | .arr h => .arr (items_mono hN hS h)
  | .obj0 h => .obj0 h
  | .obj h hc => .obj (pairs_mono hN hS h) hc

theorem items_mono (hN : ∀ t v, N t v → N' t v) (hS : ∀ b s, S b s → S' b s) {t : List Char} {vs : List (JV F)} :
    JItems N S t vs → JItems N' S' t vs
  | .one h1 h2 h => .one h1 h2 (text_mono hN hS h)
  | .cons h1 h2 h hr => .cons h1 h2 (text_mono hN hS h) (items_mono hN hS hr)

theorem pairs_mono (hN : ∀ t v, N t v → N' t v) (hS : ∀ b s, S b s → S' b s) {t : List Char}
    {kvs : List (List Char × JV F)} : JPairs N S t kvs → JPairs N' S' t kvs
  | .one h1 h2 h3 h4 hs h => .one h1 h2 h3 h4 (hS _ _ hs) (text_mono hN hS h)
  | .cons h1 h2 h3 h4 hs h hr => .cons h1 h2 h3 h4 (hS _ _ hs) (text_mono hN hS h) (pairs_mono hN hS hr)
end
end

theorem raw_str {b s : List Char} (h : RawStr (fun c => 0x20 ≤ c.toNat) b s) : JStr b s := by
  obtain ⟨rfl, h⟩ := h
  induction b with
  | nil => exact .nil
  | cons c cs ih =>
    have := h c (by simp)
    exact .plain this.1 this.2.1 this.2.2 (ih fun d hd => h d (by simp [hd]))

end Verif.Json
