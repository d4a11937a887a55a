import Verif.Json.Bytes
import Mathlib.Tactic.SplitIfs

/-
  Every JSON text is accepted by the parser, with the value it stands for.
-/
namespace Verif.Json

/-! ### White space -/

theorem ascii_lit {c : Char} (h : c.toNat < 128 := by decide) : Ascii c := h

theorem ws_ascii {w : List Char} (h : Ws w) : ∀ c ∈ w, Ascii c := by
  intro c hc
  rcases h c hc with h | h | h | h <;> subst h <;> exact ascii_lit

theorem isWs_B {c : Char} (h : Ascii c) : isWs (B c) = true ↔ (c = ' ' ∨ c = '\t' ∨ c = '\n' ∨ c = '\r') := by
  unfold isWs
  simp only [Bool.or_eq_true, beq_iff_eq, or_assoc]
  rw [B_inj h ascii_lit, B_inj h ascii_lit, B_inj h ascii_lit, B_inj h ascii_lit]

theorem skipWs_ws {w : List Char} (h : Ws w) (s : List Byte) : skipWs (utf8 w ++ s) = skipWs s := by
  unfold skipWs
  rw [utf8_ascii (ws_ascii h)]
  induction w with
  | nil => rfl
  | cons c cs ih =>
    have hc : isWs (B c) = true := (isWs_B (ws_ascii h c (by simp))).mpr (h c (by simp))
    rw [List.map_cons, List.cons_append, List.dropWhile_cons_of_pos hc]
    exact ih fun d hd => h d (by simp [hd])

theorem skipWs_stop {b : Byte} {r : List Byte} (h : isWs b = false) : skipWs (b :: r) = b :: r := by
  unfold skipWs
  rw [List.dropWhile_cons_of_neg (by simp [h])]

/-! ### Strings -/

theorem hexDigit_B {c : Char} {n : Nat} (h : Hex c n) : Ascii c ∧ hexDigit (B c) = some n := by
  have hc : Ascii c := by unfold Ascii; cases h <;> omega
  refine ⟨hc, ?_⟩
  unfold hexDigit
  simp only [UInt8.le_iff_toNat_le, B_toNat hc, B_toNat (c := '0') ascii_lit, B_toNat (c := '9') ascii_lit,
    B_toNat (c := 'a') ascii_lit, B_toNat (c := 'f') ascii_lit, B_toNat (c := 'A') ascii_lit,
    B_toNat (c := 'F') ascii_lit]
  simp only [show ('0' : Char).toNat = 48 from rfl, show ('9' : Char).toNat = 57 from rfl,
    show ('a' : Char).toNat = 97 from rfl, show ('f' : Char).toNat = 102 from rfl,
    show ('A' : Char).toNat = 65 from rfl, show ('F' : Char).toNat = 70 from rfl]
  cases h with
  | num h1 h2 => rw [if_pos ⟨h1, h2⟩]
  | low h1 h2 =>
    rw [if_neg (by omega), if_pos ⟨h1, h2⟩]
    congr 1; omega
  | up h1 h2 =>
    rw [if_neg (by omega), if_neg (by omega), if_pos ⟨h1, h2⟩]
    congr 1; omega

theorem hex_not_plus {c : Char} {n : Nat} (h : Hex c n) : c ≠ '+' := by
  intro he; subst he
  have h43 : ('+' : Char).toNat = 43 := rfl
  cases h <;> omega

theorem hex4_ok {h : List Char} {n : Nat} (hh : Hex4 h n) (r : List Byte) :
    hex4 (utf8 h ++ r) = some (n, r) := by
  cases hh with
  | mk ha hb hc hd =>
    rename_i a b c d i j k l
    obtain ⟨aa, ha'⟩ := hexDigit_B ha
    obtain ⟨ab, hb'⟩ := hexDigit_B hb
    obtain ⟨ac, hc'⟩ := hexDigit_B hc
    obtain ⟨ad, hd'⟩ := hexDigit_B hd
    rw [utf8_cons_ascii aa, utf8_cons_ascii ab, utf8_cons_ascii ac, utf8_cons_ascii ad, utf8_nil]
    simp only [List.cons_append, List.nil_append, hex4]
    rw [if_neg (by rw [B_inj aa ascii_lit]; exact hex_not_plus ha)]
    simp only [hexVal, ha', hb', hc', hd', Option.map_some]
    congr 2; omega

theorem hex4_length {h : List Char} {n : Nat} (hh : Hex4 h n) : h.length = 4 := by
  cases hh; rfl

theorem strStep_plain {c : Char} (h1 : c ≠ '"') (h2 : c ≠ '\\') (s : List Byte) :
    strStep (String.utf8EncodeChar c ++ s) = .push [c] s := by
  by_cases hc : Ascii c
  · rw [encode_ascii hc]
    simp only [List.cons_append, List.nil_append, strStep]
    rw [if_neg (by rw [B_inj hc ascii_lit]; exact h1), if_neg (by rw [B_inj hc ascii_lit]; exact h2),
      if_neg (by rw [UInt8.le_iff_toNat_le, B_toNat hc]; unfold Ascii at hc; simpa using hc), B_toNat hc]
    rw [Char.ofNat_toNat]
  · obtain ⟨b, r, he, hb⟩ := encode_high hc
    have hd := decode_encode c s
    have hl := String.length_utf8EncodeChar c
    have hdrop : (String.utf8EncodeChar c ++ s).drop c.utf8Size = s := by rw [← hl]; simp
    rw [he] at hd hdrop ⊢
    have hb' : 128 ≤ b.toNat := by rw [UInt8.le_iff_toNat_le] at hb; simpa using hb
    have hq : ∀ d : Char, Ascii d → b ≠ B d := by
      intro d hd' e
      rw [e, B_toNat hd'] at hb'
      unfold Ascii at hd'; omega
    simp only [List.cons_append] at hd hdrop ⊢
    simp only [strStep, hd, hdrop, if_pos hb, if_neg (hq '"' ascii_lit), if_neg (hq '\\' ascii_lit)]

theorem escStep_ok {e c : Char} (h : (e, c) ∈ escapes) (s : List Byte) :
    Ascii e ∧ escStep (B e :: s) = .push [c] s := by
  unfold escapes at h
  simp only [List.mem_cons, Prod.mk.injEq, List.not_mem_nil, or_false] at h
  rcases h with ⟨h, h'⟩ | ⟨h, h'⟩ | ⟨h, h'⟩ | ⟨h, h'⟩ | ⟨h, h'⟩ | ⟨h, h'⟩ | ⟨h, h'⟩ | ⟨h, h'⟩ <;> subst h <;>
    subst h' <;> exact ⟨ascii_lit, rfl⟩

theorem strStep_back (s : List Byte) : strStep (B '\\' :: s) = escStep s := rfl

theorem escStep_u (s : List Byte) : escStep (B 'u' :: s) = uniStep s := rfl

theorem pStr_ok {b s : List Char} (h : JStr b s) : ∀ (n : Nat) (rest : List Byte), b.length < n →
    pStr n (utf8 b ++ B '"' :: rest) = some (s, rest) := by
  induction h with
  | nil =>
    intro n rest hn
    cases n with
    | zero => exact absurd hn (by omega)
    | succ n => rfl
  | plain h1 h2 h3 _ ih =>
    intro n rest hn
    cases n with
    | zero => exact absurd hn (by omega)
    | succ n =>
      simp only [List.length_cons] at hn
      rw [utf8_cons, List.append_assoc, pStr, strStep_plain h1 h2]
      simp only
      rw [ih n rest (by omega)]
      rfl
  | esc he _ ih =>
    intro n rest hn
    cases n with
    | zero => exact absurd hn (by omega)
    | succ n =>
      simp only [List.length_cons] at hn
      obtain ⟨ha, hs⟩ := escStep_ok he (utf8 _ ++ B '"' :: rest)
      rw [utf8_cons_ascii ascii_lit, utf8_cons_ascii ha, List.cons_append, List.cons_append, pStr, strStep_back]
      rw [hs]
      simp only
      rw [ih n rest (by omega)]
      rfl
  | @uni h t s c hh _ ih =>
    intro n rest hn
    cases n with
    | zero => exact absurd hn (by omega)
    | succ n =>
      simp only [List.length_cons, List.length_append] at hn
      rw [utf8_cons_ascii ascii_lit, utf8_cons_ascii ascii_lit, utf8_append, List.cons_append, List.cons_append,
        List.append_assoc, pStr, strStep_back, escStep_u]
      unfold uniStep
      rw [hex4_ok hh]
      have hv := c.valid
      have hn' : c.toNat = c.val.toNat := rfl
      have hv' : c.toNat.isValidChar := hv
      have hs : ¬ (0xD800 ≤ c.toNat ∧ c.toNat ≤ 0xDBFF) := by
        unfold Nat.isValidChar at hv'; omega
      simp only [if_neg hs, if_pos hv', Char.ofNat_toNat]
      rw [ih n rest (by omega)]
      rfl
  | @pair h l t s i j c hh hl h1 h2 h3 h4 hc _ ih =>
    intro n rest hn
    cases n with
    | zero => exact absurd hn (by omega)
    | succ n =>
      simp only [List.length_cons, List.length_append] at hn
      rw [utf8_cons_ascii ascii_lit, utf8_cons_ascii ascii_lit, utf8_append, List.cons_append, List.cons_append,
        List.append_assoc, pStr, strStep_back, escStep_u]
      unfold uniStep
      rw [hex4_ok hh, utf8_cons_ascii ascii_lit, utf8_cons_ascii ascii_lit, utf8_append]
      simp only [if_pos (show 0xD800 ≤ i ∧ i ≤ 0xDBFF by omega), List.cons_append, lowStep, and_self, if_true,
        List.append_assoc]
      rw [hex4_ok hl]
      simp only [if_pos (show 0xDC00 ≤ j ∧ j ≤ 0xDFFF by omega)]
      rw [show 0x10000 + (i - 0xD800) * 1024 + (j - 0xDC00) = c.toNat by omega, Char.ofNat_toNat,
        ih n rest (by omega)]
      rfl

theorem pString_ok {b s : List Char} (h : JStr b s) (rest : List Byte) :
    pString (utf8 b ++ B '"' :: rest) = some (s, rest) := by
  unfold pString
  apply pStr_ok h
  have := utf8_length b
  simp only [List.length_append, List.length_cons]; omega

/-! ### Numbers -/

/-- what follows does not continue a number -/
def Stop (r : List Byte) : Prop :=
  ∀ b ∈ r.head?, isDigit b = false ∧ b ≠ B '.' ∧ b ≠ B 'e' ∧ b ≠ B 'E'

theorem digits_ok {ds : List Char} (h : ∀ c ∈ ds, Dig c) {r : List Byte} (hr : startsDigit r = false) :
    digits (ds.map B ++ r) = (ds.map B, r) := by
  unfold digits
  induction ds with
  | nil =>
    cases r with
    | nil => rfl
    | cons b r =>
      simp only [startsDigit] at hr
      simp [List.takeWhile, List.dropWhile, hr]
  | cons c cs ih =>
    have hc := h c (by simp)
    have hb := (isDigit_B (ascii_of_dig hc)).mpr hc
    have := ih fun d hd => h d (by simp [hd])
    simp only [Prod.mk.injEq] at this
    simp only [List.map_cons, List.cons_append, List.takeWhile_cons_of_pos hb, List.dropWhile_cons_of_pos hb,
      this.1, this.2]

theorem nat_ascii {t : List Char} (h : NatTok t) : ∀ c ∈ t, Ascii c := fun c hc => ascii_of_dig (h.1.2 c hc)

theorem pInt_nat {t : List Char} (h : NatTok t) {r : List Byte} (hr : startsDigit r = false)
    (sign : List Byte) :
    pNat sign (t.map B ++ r) = some (sign ++ t.map B, r) := by
  obtain ⟨⟨hne, hd⟩, hz⟩ := h
  cases t with
  | nil => exact absurd rfl hne
  | cons c cs =>
    have hc := hd c (by simp)
    have ha := ascii_of_dig hc
    simp only [List.map_cons, List.cons_append, pNat]
    by_cases h0 : c = '0'
    · have := hz (by rw [h0]; rfl)
      simp only [List.cons.injEq] at this
      obtain ⟨-, h2⟩ := this
      subst h2; subst h0
      simp
    · rw [if_neg (by rw [B_inj ha ascii_lit]; exact h0), if_pos ((isDigit_B ha).mpr hc),
        digits_ok (fun d hd' => hd d (by simp [hd'])) hr]

theorem pIntPart_ok {t : List Char} {i : Int} (h : IntTok t i) {r : List Byte} (hr : startsDigit r = false) :
    pIntPart (t.map B ++ r) = some (t.map B, r) := by
  cases h with
  | pos h =>
    have h' := pInt_nat h hr []
    obtain ⟨⟨hne, hd⟩, hz⟩ := h
    cases t with
    | nil => exact absurd rfl hne
    | cons c cs =>
      have hc := hd c (by simp)
      have : B c ≠ B '-' := by
        rw [Ne, B_inj (ascii_of_dig hc) ascii_lit]
        intro e; subst e
        exact absurd hc (by unfold Dig; decide)
      unfold pIntPart
      simp only [List.map_cons, List.cons_append, if_neg this]
      simpa using h'
  | neg h =>
    have h' := pInt_nat h hr [B '-']
    unfold pIntPart
    simp only [List.map_cons, List.cons_append, if_true]
    simpa using h'

theorem startsDigit_of {f : List Char} {r : List Byte} (hr : Stop r) (hf : f = [] ∨ ∃ c cs, f = c :: cs ∧ Ascii c ∧ ¬ Dig c) :
    startsDigit (f.map B ++ r) = false := by
  rcases hf with rfl | ⟨c, cs, rfl, hc, hd⟩
  · cases r with
    | nil => rfl
    | cons b r => exact (hr b rfl).1
  · simp only [List.map_cons, List.cons_append, startsDigit]
    cases h : isDigit (B c) with
    | false => rfl
    | true => exact absurd ((isDigit_B hc).mp h) hd

theorem startsDigit_digs {ds : List Char} (h : Digs ds) (r : List Byte) : startsDigit (ds.map B ++ r) = true := by
  obtain ⟨hne, hd⟩ := h
  cases ds with
  | nil => exact absurd rfl hne
  | cons c cs =>
    have hc := hd c (by simp)
    exact (isDigit_B (ascii_of_dig hc)).mpr hc

theorem stop_startsDigit {r : List Byte} (h : Stop r) : startsDigit r = false := by
  cases r with
  | nil => rfl
  | cons b r => exact (h b rfl).1

/-- what follows does not go on with a fraction -/
theorem pFrac_ok {f : List Char} (hf : f = [] ∨ FracTok f) {r : List Byte} (hr : startsDigit r = false)
    (hp : f = [] → ∀ b ∈ r.head?, b ≠ B '.') : pFrac (f.map B ++ r) = some (f.map B, r) := by
  rcases hf with rfl | ⟨ds, hds, rfl⟩
  · cases r with
    | nil => rfl
    | cons b r =>
      simp only [List.map_nil, List.nil_append, pFrac]
      rw [if_neg (hp rfl b rfl)]
  · simp only [List.map_cons, List.cons_append, pFrac, if_true, startsDigit_digs hds,
      digits_ok hds.2 hr]

theorem pSign_ok {sign : List Char} (hs : sign = [] ∨ sign = ['+'] ∨ sign = ['-']) {ds : List Char} (hds : Digs ds)
    (r : List Byte) : pSign (sign.map B ++ (ds.map B ++ r)) = (sign.map B, ds.map B ++ r) := by
  rcases hs with rfl | rfl | rfl
  · obtain ⟨hne, hd⟩ := hds
    cases ds with
    | nil => exact absurd rfl hne
    | cons c cs =>
      have hc := hd c (by simp)
      have h1 : ∀ d : Char, Ascii d → ¬ Dig d → B c ≠ B d := by
        intro d hd' hn e
        rw [B_inj (ascii_of_dig hc) hd'] at e
        subst e; exact hn hc
      simp only [List.map_nil, List.nil_append, List.map_cons, List.cons_append, pSign]
      rw [if_neg]
      rintro (h | h)
      · exact h1 '+' ascii_lit (by unfold Dig; decide) h
      · exact h1 '-' ascii_lit (by unfold Dig; decide) h
  · simp [pSign]
  · simp [pSign]

theorem pExp_ok {e : List Char} (he : e = [] ∨ ExpTok e) {r : List Byte} (hr : Stop r) :
    pExp (e.map B ++ r) = some (e.map B, r) := by
  rcases he with rfl | ⟨x, sign, ds, hx, hs, hds, rfl⟩
  · cases r with
    | nil => rfl
    | cons b r =>
      have := hr b rfl
      simp only [List.map_nil, List.nil_append, pExp]
      rw [if_neg (by rintro (h | h); exact this.2.2.1 h; exact this.2.2.2 h)]
  · have hx' : B x = B 'e' ∨ B x = B 'E' := by
      rcases hx with rfl | rfl
      · exact Or.inl rfl
      · exact Or.inr rfl
    simp only [List.map_cons, List.map_append, List.cons_append, List.append_assoc, pExp, if_pos hx',
      pSign_ok hs hds r, startsDigit_digs hds, if_true, digits_ok hds.2 (stop_startsDigit hr)]

theorem int_ascii {t : List Char} {i : Int} (h : IntTok t i) : ∀ c ∈ t, Ascii c := by
  cases h with
  | pos h => exact nat_ascii h
  | neg h =>
    intro c hc
    rcases List.mem_cons.mp hc with rfl | hc
    · exact ascii_lit
    · exact nat_ascii h c hc

theorem frac_ascii {t : List Char} (h : t = [] ∨ FracTok t) : ∀ c ∈ t, Ascii c := by
  rcases h with rfl | ⟨ds, hds, rfl⟩
  · intro c hc; cases hc
  · intro c hc
    rcases List.mem_cons.mp hc with rfl | hc
    · exact ascii_lit
    · exact ascii_of_dig (hds.2 c hc)

theorem exp_ascii {t : List Char} (h : t = [] ∨ ExpTok t) : ∀ c ∈ t, Ascii c := by
  rcases h with rfl | ⟨x, sign, ds, hx, hs, hds, rfl⟩
  · intro c hc; cases hc
  · intro c hc
    rcases List.mem_cons.mp hc with rfl | hc
    · rcases hx with rfl | rfl <;> exact ascii_lit
    · rcases List.mem_append.mp hc with hc | hc
      · rcases hs with rfl | rfl | rfl
        · cases hc
        · rw [List.mem_singleton.mp hc]; exact ascii_lit
        · rw [List.mem_singleton.mp hc]; exact ascii_lit
      · exact ascii_of_dig (hds.2 c hc)

theorem asChars_ok {t : List Char} (h : ∀ c ∈ t, Ascii c) : asChars (t.map B) = t := by
  unfold asChars
  induction t with
  | nil => rfl
  | cons c cs ih =>
    simp only [List.map_cons]
    rw [B_toNat (h c (by simp)), Char.ofNat_toNat, ih fun d hd => h d (by simp [hd])]

theorem decNat_place {t : List Char} (h : ∀ c ∈ t, Ascii c) : decNat (t.map B) = place t := by
  have : ∀ (t : List Char) (a : Nat), (∀ c ∈ t, Ascii c) →
      (t.map B).foldl (fun a b => 10 * a + (b.toNat - 48)) a = a * 10 ^ t.length + place t := by
    intro t
    induction t with
    | nil => intro a _; simp [place]
    | cons c cs ih =>
      intro a h
      simp only [List.map_cons, List.foldl_cons]
      rw [ih _ fun d hd => h d (by simp [hd]), B_toNat (h c (by simp))]
      simp only [List.length_cons, place, Nat.pow_succ]
      rw [Nat.add_mul, ← Nat.add_assoc]
      congr 2
      rw [Nat.mul_comm 10 a, Nat.mul_assoc, Nat.mul_comm 10]
  unfold decNat
  rw [this t 0 h]; simp

theorem parseI64_ok {t : List Char} {i : Int} (h : IntTok t i) :
    parseI64 (t.map B) = if -(2 ^ 63) ≤ i ∧ i < 2 ^ 63 then some i else none := by
  unfold parseI64
  cases h with
  | pos h =>
    have hd := decNat_place (nat_ascii h)
    obtain ⟨⟨hne, hd'⟩, -⟩ := h
    cases t with
    | nil => exact absurd rfl hne
    | cons c cs =>
      have hc := hd' c (by simp)
      have : B c ≠ B '-' := by
        rw [Ne, B_inj (ascii_of_dig hc) ascii_lit]
        intro e; subst e
        exact absurd hc (by unfold Dig; decide)
      simp only [List.map_cons] at hd ⊢
      simp only [if_neg this, hd]
  | neg h =>
    have hd := decNat_place (nat_ascii h)
    simp only [List.map_cons, if_true, hd]

theorem not_dig_minus : ¬ Dig '-' := by unfold Dig; decide

/-- the number token `a ++ f ++ e` -/
theorem pNumber_tok (P : FloatIO) {a f e : List Char} {i : Int} (ha : IntTok a i) (hf : f = [] ∨ FracTok f)
    (he : e = [] ∨ ExpTok e) {r : List Byte} (hr : Stop r) :
    pNumber P (utf8 (a ++ f ++ e) ++ r) =
      some (numValue P ((a ++ f ++ e).map B) (!(f.map B).isEmpty || !(e.map B).isEmpty), r) := by
  have hasc : ∀ c ∈ a ++ f ++ e, Ascii c := by
    intro c hc
    simp only [List.mem_append] at hc
    rcases hc with (hc | hc) | hc
    · exact int_ascii ha c hc
    · exact frac_ascii hf c hc
    · exact exp_ascii he c hc
  rw [utf8_ascii hasc]
  simp only [List.map_append, List.append_assoc]
  have hE : startsDigit (e.map B ++ r) = false := by
    apply startsDigit_of hr
    rcases he with rfl | ⟨x, sign, ds, hx, hs, hds, rfl⟩
    · exact Or.inl rfl
    · refine Or.inr ⟨x, _, rfl, ?_, ?_⟩
      · rcases hx with rfl | rfl <;> exact ascii_lit
      · rcases hx with rfl | rfl <;> unfold Dig <;> decide
  have hF : startsDigit (f.map B ++ (e.map B ++ r)) = false := by
    rcases hf with rfl | ⟨ds, hds, rfl⟩
    · exact hE
    · simp only [List.map_cons, List.cons_append, startsDigit]; rfl
  have hp : f = [] → ∀ b ∈ (e.map B ++ r).head?, b ≠ B '.' := by
    intro _ b hb
    rcases he with rfl | ⟨x, sign, ds, hx, hs, hds, rfl⟩
    · exact (hr b hb).2.1
    · simp only [List.map_cons, List.cons_append, List.head?_cons, Option.mem_def, Option.some.injEq] at hb
      subst hb
      rcases hx with rfl | rfl <;> decide
  unfold pNumber
  rw [pIntPart_ok ha hF]
  simp only
  rw [pFrac_ok hf hE hp]
  simp only
  rw [pExp_ok he hr]
  simp [List.append_assoc]

theorem pNumber_ok (P : FloatIO) {t : List Char} {v : JV P.F} (h : NumF P t v) {r : List Byte} (hr : Stop r) :
    pNumber P (utf8 t ++ r) = some (v, r) := by
  cases h with
  | int ht h1 h2 =>
    have := pNumber_tok P ht (Or.inl rfl) (Or.inl rfl) hr
    simp only [List.append_nil] at this
    rw [this]
    simp only [numValue, parseI64_ok ht, List.map_nil, List.isEmpty_nil, Bool.not_true, Bool.or_self,
      if_pos (And.intro h1 h2)]
    rfl
  | big ht hb =>
    have := pNumber_tok P ht (Or.inl rfl) (Or.inl rfl) hr
    simp only [List.append_nil] at this
    rw [this]
    simp only [numValue, parseI64_ok ht, List.map_nil, List.isEmpty_nil, Bool.not_true, Bool.or_self, if_neg hb,
      asChars_ok (int_ascii ht)]
    rfl
  | flo ht =>
    obtain ⟨a, i, f, e, ha, hf, he, hne, rfl⟩ := ht
    rw [pNumber_tok P ha hf he hr]
    have hasc : ∀ c ∈ a ++ f ++ e, Ascii c := by
      intro c hc
      simp only [List.mem_append] at hc
      rcases hc with (hc | hc) | hc
      · exact int_ascii ha c hc
      · exact frac_ascii hf c hc
      · exact exp_ascii he c hc
    have : (!(f.map B).isEmpty || !(e.map B).isEmpty) = true := by
      rcases hne with h | h
      · cases f with
        | nil => exact absurd rfl h
        | cons => rfl
      · cases e with
        | nil => exact absurd rfl h
        | cons => simp
    rw [this, numValue, if_pos rfl, asChars_ok hasc]

end Verif.Json
