import Verif.Json.Fuel

/-
  C78  JSON.parse(JSON.generate(v)) is v
  C79  JSON.parse accepts the JSON texts, and gives what they stand for
  C80  JSON.generate writes JSON
-/
namespace Verif.Json

theorem num64_numF {P : FloatIO} {t : List Char} {v : JV P.F} (h : Num64 P t v) : NumF P t v := by
  cases h with
  | int h h1 h2 => exact .int h h1 h2
  | flo h => exact .flo h

theorem num64_num {P : FloatIO} {t : List Char} {v : JV P.F} (h : Num64 P t v) : Num P t v := by
  cases h with
  | int h => exact .int h
  | flo h => exact .flo h

/-- the parser on a value followed by something that does not continue a number -/
theorem parse_prefix {P : FloatIO} {w t : List Char} {v : JV P.F} (hw : Ws w) (ht : JText (NumF P) JStr t v)
    {rest : List Byte} (hr : Stop rest) : parse P (utf8 w ++ (utf8 t ++ rest)) = some v := by
  unfold parse
  rw [pValue_ws P _ hw, text_ok ht _ hr]
  · rfl
  · have := utf8_length t
    simp only [List.length_append]; omega

/-- a concrete float, for the examples: the naturals and a NaN -/
def toyIO : FloatIO where
  F := Option Nat
  fmt f := match f with
    | some n => dec n ++ ['.', '0']
    | none => []
  read t := some (place t.dropLast.dropLast)
  isNan f := f.isNone
  isInf _ := false
  isPos _ := true

theorem toy_ok : FloatOk toyIO := by
  intro f h1 _
  cases f with
  | none => cases h1
  | some n =>
    obtain ⟨ht, hp, -⟩ := dec_ok n
    refine ⟨⟨dec n, _, ['.', '0'], [], .pos ht, Or.inr ⟨['0'], ⟨by simp, ?_⟩, rfl⟩, Or.inl rfl, Or.inl (by simp), ?_⟩, ?_⟩
    · intro c hc
      rw [List.mem_singleton.mp hc]
      unfold Dig; decide
    · simp [toyIO]
    · simp [toyIO, hp]

/-! ### C79: what JSON.parse accepts -/

/-- The texts of RFC 8259 whose integers have 64 bits: white space anywhere it may be,
every escape, every nesting, repeated keys. (Missing: larger integers, see
`C79_bigint_fails`.) -/
theorem C79_complete_partial (P : FloatIO) {t : List Char} {v : JV P.F} (h : JDoc (Num64 P) t v) :
    parse P (utf8 t) = some v := by
  obtain ⟨w, t', w', hw, hw', ht, rfl⟩ := h
  rw [utf8_append, utf8_append]
  refine parse_prefix hw (text_mono (fun _ _ => num64_numF) (fun _ _ h => h) ht) ?_
  have := stop_ws hw' stop_nil
  rwa [List.append_nil] at this

/-- A JSON text stands for one value. -/
theorem C79_unambiguous (P : FloatIO) {t : List Char} {v v' : JV P.F} (h : JDoc (Num64 P) t v)
    (h' : JDoc (Num64 P) t v') : v = v' := by
  have h1 := C79_complete_partial P h
  rw [C79_complete_partial P h'] at h1
  injection h1 with h1
  exact h1.symm

/-- What is accepted starts with a JSON value, and the result is what that value stands
for. (Missing: texts with escapes or control characters, where more is accepted than JSON
has; what follows the value is ignored; see the `_fails` theorems.) -/
theorem C79_sound_partial (P : FloatIO) {t : List Char} {v : JV P.F} (hc : ∀ c ∈ t, c ≠ '\\' ∧ 0x20 ≤ c.toNat)
    (h : parse P (utf8 t) = some v) :
    ∃ w t' rest, t = w ++ (t' ++ rest) ∧ Ws w ∧ JText (NumF P) JStr t' v := by
  unfold parse at h
  simp only [Option.map_eq_some_iff] at h
  obtain ⟨q, hq, rfl⟩ := h
  obtain ⟨w, t', rest, h1, -, h2, h3⟩ := pValue_inv P (fun c => 0x20 ≤ c.toNat) _ (v := q.1) (r := q.2) hc hq
  exact ⟨w, t', rest, h1, h2, text_mono (fun _ _ h => h) (fun _ _ => raw_str) h3⟩

/-- Texts of several lines are covered too, with strings of any characters but quotes and
backslashes. -/
theorem C79_lines_partial (P : FloatIO) {t : List Char} {v : JV P.F} (hc : '\\' ∉ t)
    (h : parse P (utf8 t) = some v) :
    ∃ w t' rest, t = w ++ (t' ++ rest) ∧ Ws w ∧ JText (NumF P) (RawStr fun _ => True) t' v := by
  unfold parse at h
  simp only [Option.map_eq_some_iff] at h
  obtain ⟨q, hq, rfl⟩ := h
  obtain ⟨w, t', rest, h1, -, h2, h3⟩ := pValue_inv P (fun _ => True) _ (v := q.1) (r := q.2)
    (fun c hc' => ⟨fun e => hc (e ▸ hc'), trivial⟩) hq
  exact ⟨w, t', rest, h1, h2, h3⟩

/-- The bound on the nesting in the model plays no part: with any larger one the parser
gives the same. -/
theorem C79_bound (P : FloatIO) {n : Nat} {s : List Byte} (h : s.length < n) :
    (pValue P n s).map (·.1) = parse P s := by
  unfold parse
  rw [pValue_fuel P n (s.length + 1) s h (by omega)]

/-- Whatever follows a value is ignored: a text that is not JSON is accepted. -/
theorem C79_trailing_fails (P : FloatIO) {t : List Char} {v : JV P.F} (h : JText (Num64 P) JStr t v)
    (junk : List Char) : parse P (utf8 (t ++ ' ' :: junk)) = some v := by
  rw [utf8_append, utf8_cons_ascii ascii_lit]
  exact parse_prefix (w := []) ws_nil (text_mono (fun _ _ => num64_numF) (fun _ _ h => h) h) stop_lit

/-- A number with a leading zero is read as 0. -/
theorem C79_leading_zero_fails (P : FloatIO) {ds : List Char} (h : Digs ds) :
    parse P (utf8 ('0' :: ds)) = some (.int 0) := by
  obtain ⟨c, cs, rfl, hc⟩ := digs_head h
  have ha := ascii_of_dig hc
  have hne : ∀ d : Char, Ascii d → ¬ Dig d → B c ≠ B d := by
    intro d hd hn e
    rw [B_inj ha hd] at e
    subst e; exact hn hc
  have hz : Dig '0' := by unfold Dig; decide
  unfold parse
  rw [utf8_cons_ascii ascii_lit, utf8_cons_ascii ha]
  rw [pValue_num P _ (Or.inr hz)]
  have h1 : pNumber P (B '0' :: B c :: utf8 cs) = some (.int 0, B c :: utf8 cs) := by
    unfold pNumber
    have e1 : pIntPart (B '0' :: B c :: utf8 cs) = some ([B '0'], B c :: utf8 cs) := rfl
    have e2 : pFrac (B c :: utf8 cs) = some ([], B c :: utf8 cs) := by
      simp only [pFrac]; rw [if_neg (hne '.' ascii_lit notDig)]
    have e3 : pExp (B c :: utf8 cs) = some ([], B c :: utf8 cs) := by
      simp only [pExp]
      rw [if_neg]
      rintro (e | e)
      · exact hne 'e' ascii_lit notDig e
      · exact hne 'E' ascii_lit notDig e
    simp only [e1, e2, e3]
    rfl
  rw [h1]
  rfl

/-- Every integer of more than 64 bits is read as a Float. -/
theorem C79_bigint_fails (P : FloatIO) {t : List Char} {i : Int} (h : IntTok t i)
    (hi : ¬ (-(2 ^ 63) ≤ i ∧ i < 2 ^ 63)) : parse P (utf8 t) = some (.flo (P.read t)) := by
  have := parse_prefix (P := P) (w := []) ws_nil (.num (.big h hi)) stop_nil
  simpa [utf8_nil] using this

/-- Control characters are accepted inside strings, which JSON forbids. -/
theorem C79_control_fails (P : FloatIO) {c : Char} (hc : c.toNat < 0x20) :
    parse P (utf8 ['"', c, '"']) = some (.str [c]) ∧ ¬ ∃ v : JV P.F, JText (Num P) JStr ['"', c, '"'] v := by
  have h1 : c ≠ '"' := by rintro rfl; exact absurd hc (by decide)
  have h2 : c ≠ '\\' := by rintro rfl; exact absurd hc (by decide)
  have ha : Ascii c := by unfold Ascii; omega
  constructor
  · have hs : pString (utf8 [c, '"']) = some ([c], []) := by
      unfold pString
      rw [utf8_cons]
      have : (String.utf8EncodeChar c ++ utf8 ['"']).length + 1 = 2 + 1 := by
        rw [encode_ascii ha]; rfl
      rw [this, pStr, strStep_plain h1 h2]
      rfl
    unfold parse
    rw [utf8_cons_ascii ascii_lit]
    have hq : skipWs (B '"' :: utf8 [c, '"']) = B '"' :: utf8 [c, '"'] := rfl
    simp only [pValue, hq, if_true, hs]
    rfl
  · rintro ⟨v, h⟩
    have key : ∀ {t : List Char} {v : JV P.F}, JText (Num P) JStr t v → t = ['"', c, '"'] → False := by
      intro t v h e
      cases h with
      | null => cases e
      | tru => cases e
      | fals => cases e
      | num h =>
        have hh : ∀ {a : List Char} {i : Int} {r : List Char}, IntTok a i → a ++ r ≠ ['"', c, '"'] := by
          intro a i r hi e
          obtain ⟨d, ds, rfl, hd⟩ := int_head hi
          simp only [List.cons_append, List.cons.injEq] at e
          rw [e.1] at hd
          rcases hd with hd | hd
          · cases hd
          · exact absurd hd (by unfold Dig; decide)
        cases h with
        | int h => exact hh (r := []) h (by simpa using e)
        | flo h =>
          obtain ⟨a, i, f, x, ha, -, -, -, rfl⟩ := h
          exact hh ha (by simpa [List.append_assoc] using e)
      | str h =>
        rename_i b s
        have : b = [c] := by
          simp only [List.cons.injEq, true_and] at e
          cases b with
          | nil => cases e
          | cons x b =>
            simp only [List.cons_append, List.cons.injEq] at e
            obtain ⟨rfl, e⟩ := e
            cases b with
            | nil => rfl
            | cons y b => simp at e
        subst this
        cases h with
        | plain _ _ h _ => omega
      | arr0 => cases e
      | arr => cases e
      | obj0 => cases e
      | obj => cases e
    exact key h rfl

/-- A backslash before a character that is no escape is accepted, and stands for itself. -/
theorem C79_escape_fails (P : FloatIO) {e : Char} (ha : Ascii e) (hn : ∀ c, (e, c) ∉ escapes) (hu : e ≠ 'u') :
    parse P (utf8 ['"', '\\', e, '"']) = some (.str ['\\', e]) := by
  have hx : ∀ d c, (d, c) ∈ escapes → Ascii d → B e ≠ B d := by
    intro d c hm hd h
    rw [B_inj ha hd] at h
    subst h
    exact hn c hm
  have he : ∀ s, escStep (B e :: s) = .push ['\\', e] s := by
    intro s
    simp only [escStep]
    rw [if_neg (hx '"' '"' (by decide) ascii_lit), if_neg (hx '\\' '\\' (by decide) ascii_lit),
      if_neg (hx '/' '/' (by decide) ascii_lit), if_neg (hx 'b' '\x08' (by decide) ascii_lit),
      if_neg (hx 'f' '\x0c' (by decide) ascii_lit), if_neg (hx 'n' '\n' (by decide) ascii_lit),
      if_neg (hx 'r' '\r' (by decide) ascii_lit), if_neg (hx 't' '\t' (by decide) ascii_lit),
      if_neg (by rw [B_inj ha ascii_lit]; exact hu), B_toNat ha, Char.ofNat_toNat]
  have hs : pString (utf8 ['\\', e, '"']) = some (['\\', e], []) := by
    unfold pString
    rw [utf8_cons_ascii ascii_lit, utf8_cons_ascii ha, List.length_cons, List.length_cons, pStr, strStep_back, he]
    rfl
  unfold parse
  rw [utf8_cons_ascii ascii_lit]
  have hq : skipWs (B '"' :: utf8 ['\\', e, '"']) = B '"' :: utf8 ['\\', e, '"'] := rfl
  simp only [pValue, hq, if_true, hs]
  rfl

/-- A character written `\uXXXX` after a high surrogate is lost. -/
theorem C79_surrogate_fails (P : FloatIO) {h l : List Char} {i : Nat} {c : Char} (hh : Hex4 h i) (hl : Hex4 l c.toNat)
    (h1 : 0xD800 ≤ i) (h2 : i < 0xDC00) :
    parse P (utf8 ('"' :: '\\' :: 'u' :: (h ++ '\\' :: 'u' :: (l ++ ['"'])))) = some (.str [Char.ofNat 0xFFFD]) := by
  have hc : ¬ (0xDC00 ≤ c.toNat ∧ c.toNat ≤ 0xDFFF) := by
    have hv : c.toNat.isValidChar := c.valid
    unfold Nat.isValidChar at hv; omega
  have hs : pString (utf8 ('\\' :: 'u' :: (h ++ '\\' :: 'u' :: (l ++ ['"'])))) = some ([Char.ofNat 0xFFFD], []) := by
    unfold pString
    rw [utf8_cons_ascii ascii_lit, utf8_cons_ascii ascii_lit, utf8_append, utf8_cons_ascii ascii_lit,
      utf8_cons_ascii ascii_lit, utf8_append, List.length_cons, List.length_cons, pStr, strStep_back, escStep_u]
    unfold uniStep
    rw [hex4_ok hh]
    simp only [if_pos (show 0xD800 ≤ i ∧ i ≤ 0xDBFF by omega), lowStep, and_self, if_true]
    rw [hex4_ok hl]
    simp only [if_neg hc]
    rfl
  unfold parse
  rw [utf8_cons_ascii ascii_lit]
  generalize utf8 ('\\' :: 'u' :: (h ++ '\\' :: 'u' :: (l ++ ['"']))) = u at hs
  have hq : skipWs (B '"' :: u) = B '"' :: u := rfl
  simp only [pValue, hq, if_true, hs]
  rfl

/-- `\u+041` is accepted. -/
theorem C79_plus_fails (P : FloatIO) : parse P (utf8 "\"\\u+041\"".toList) = some (.str ['A']) := rfl

def nest (F : Type) : Nat → JV F
  | 0 => .arr []
  | n + 1 => .arr [nest F n]

/-- There is no limit on the nesting (`max_nesting` is ignored): arrays nested to any
depth are accepted, as far as the machine's stack goes. -/
theorem C79_nesting_fails (P : FloatIO) (n : Nat) :
    parse P (utf8 (List.replicate (n + 1) '[' ++ List.replicate (n + 1) ']')) = some (nest P.F n) := by
  have h : ∀ n, JText (NumF P) JStr (List.replicate (n + 1) '[' ++ List.replicate (n + 1) ']') (nest P.F n) := by
    intro n
    induction n with
    | zero => exact JText.arr0 (w := []) ws_nil
    | succ n ih =>
      have := JText.arr (items_one ih)
      rw [List.replicate_succ, List.replicate_succ' (n := n + 1)]
      simpa [nest, List.append_assoc] using this
  have := parse_prefix (P := P) (w := []) ws_nil (h n) stop_nil
  simpa [utf8_nil] using this

/-! ### C80: JSON.generate writes JSON -/

/-- What is written is a JSON text that stands for the value, if its Integers are small
(62 bits and a sign) and its Floats finite. (Missing: larger Integers and the other Floats,
see below.) -/
theorem C80_generate_partial (P : FloatIO) (hP : FloatOk P) {v : RV P.F} {j : JV P.F} (hd : Denotes v j)
    (hs : Small P v) : ∃ t, generate P v = utf8 t ∧ JText (Num P) JStr t j :=
  ⟨gen P v, rfl, text_mono (fun _ _ => num64_num) (fun _ _ h => h) (gen_text hP v hd hs)⟩

/-- Any string at all is written as JSON, and so is any object JSON does not know, by its
`to_s`. -/
theorem C80_string (P : FloatIO) (s : List Char) :
    ∃ b, generate P (.str s) = utf8 ('"' :: (b ++ ['"'])) ∧ generate P (.other s) = generate P (.str s) ∧ JStr b s :=
  ⟨_, by rw [generate, gen]; rfl, by rw [generate, generate, gen, gen], genString_str s⟩

theorem first_char {F : Type} {N : List Char → JV F → Prop} {S : List Char → List Char → Prop}
    (hN : ∀ t v, N t v → ∃ c cs, t = c :: cs ∧ (Dig c ∨ (c = '-' ∧ ∃ d ds, cs = d :: ds ∧ Dig d))) {t : List Char}
    {v : JV F} (h : JText N S t v) {c : Char} {cs : List Char} (e : t = c :: cs) :
    c ≠ 'N' ∧ c ≠ 'I' ∧ (c = '-' → cs.head? ≠ some 'I') := by
  cases h with
  | num h =>
    obtain ⟨c', cs', rfl, hc⟩ := hN _ _ h
    cases e
    rcases hc with hc | ⟨rfl, d, ds, rfl, hd⟩
    · refine ⟨?_, ?_, ?_⟩
      · rintro rfl; exact absurd hc (by unfold Dig; decide)
      · rintro rfl; exact absurd hc (by unfold Dig; decide)
      · rintro rfl; exact absurd hc (by unfold Dig; decide)
    · refine ⟨by decide, by decide, fun _ h => ?_⟩
      simp only [List.head?_cons, Option.some.injEq] at h
      subst h
      exact absurd hd (by unfold Dig; decide)
  | null => cases e; exact ⟨by decide, by decide, by decide⟩
  | tru => cases e; exact ⟨by decide, by decide, by decide⟩
  | fals => cases e; exact ⟨by decide, by decide, by decide⟩
  | str => cases e; exact ⟨by decide, by decide, fun h => absurd h (by decide)⟩
  | arr0 => cases e; exact ⟨by decide, by decide, fun h => absurd h (by decide)⟩
  | arr => cases e; exact ⟨by decide, by decide, fun h => absurd h (by decide)⟩
  | obj0 => cases e; exact ⟨by decide, by decide, fun h => absurd h (by decide)⟩
  | obj => cases e; exact ⟨by decide, by decide, fun h => absurd h (by decide)⟩

theorem num_first {P : FloatIO} {t : List Char} {v : JV P.F} (h : Num P t v) :
    ∃ c cs, t = c :: cs ∧ (Dig c ∨ (c = '-' ∧ ∃ d ds, cs = d :: ds ∧ Dig d)) := by
  have hi : ∀ {a : List Char} {i : Int}, IntTok a i →
      ∃ c cs, a = c :: cs ∧ (Dig c ∨ (c = '-' ∧ ∃ d ds, cs = d :: ds ∧ Dig d)) := by
    intro a i h
    cases h with
    | pos h => obtain ⟨c, cs, rfl, hc⟩ := digs_head h.1; exact ⟨c, cs, rfl, Or.inl hc⟩
    | neg h => obtain ⟨c, cs, rfl, hc⟩ := digs_head h.1; exact ⟨_, _, rfl, Or.inr ⟨rfl, c, cs, rfl, hc⟩⟩
  cases h with
  | int h => exact hi h
  | flo h =>
    obtain ⟨a, i, f, e, ha, -, -, -, rfl⟩ := h
    obtain ⟨c, cs, rfl, hc⟩ := hi ha
    refine ⟨c, cs ++ (f ++ e), by simp, ?_⟩
    rcases hc with hc | ⟨h1, d, ds, rfl, hd⟩
    · exact Or.inl hc
    · exact Or.inr ⟨h1, d, ds ++ (f ++ e), by simp, hd⟩

/-- A NaN or an infinity is written as something that is not JSON. -/
theorem C80_nonfinite_fails (P : FloatIO) {f : P.F} (hf : P.isNan f = true ∨ P.isInf f = true) :
    ∃ t, generate P (.flo f) = utf8 t ∧ ¬ ∃ v, JDoc (Num P) t v := by
  refine ⟨gen P (.flo f), rfl, ?_⟩
  have key : ∀ (c : Char) (cs : List Char), (c = 'N' ∨ c = 'I' ∨ (c = '-' ∧ cs.head? = some 'I')) →
      ¬ ∃ v, JDoc (Num P) (c :: cs) v := by
    rintro c cs hc ⟨v, w, t', w', hw, hw', ht, e⟩
    cases w with
    | cons d w =>
      simp only [List.cons_append, List.cons.injEq] at e
      have := hw d (by simp)
      rw [← e.1] at this
      rcases hc with rfl | rfl | ⟨rfl, -⟩ <;> revert this <;> decide
    | nil =>
      cases t' with
      | nil =>
        obtain ⟨c', cs', he, -⟩ : ∃ c' cs', ([] : List Char) = c' :: cs' ∧ True := by
          cases ht with
          | num h => obtain ⟨a, b, e', -⟩ := num_first h; exact ⟨a, b, e', trivial⟩
        cases he
      | cons d t' =>
        simp only [List.nil_append, List.cons_append, List.cons.injEq] at e
        obtain ⟨h1, h2, h3⟩ := first_char (fun _ _ => num_first) ht rfl
        obtain ⟨rfl, rfl⟩ := e
        rcases hc with hc | hc | ⟨hc, hc'⟩
        · exact h1 hc
        · exact h2 hc
        · have h3' := h3 hc
          cases t' with
          | cons x t' => exact h3' hc'
          | nil =>
            subst hc
            have hd := ht
            cases hd with
            | num h =>
              obtain ⟨a, b, e', hh⟩ := num_first h
              cases e'
              rcases hh with hh | ⟨-, d, ds, e'', -⟩
              · exact absurd hh (by unfold Dig; decide)
              · cases e''
  rw [gen, genFloat]
  by_cases hn : P.isNan f = true
  · rw [if_pos hn]
    exact key 'N' _ (Or.inl rfl)
  · rw [if_neg hn, if_pos (hf.resolve_left hn)]
    by_cases hp : P.isPos f = true
    · rw [if_pos hp]; exact key 'I' _ (Or.inr (Or.inl rfl))
    · rw [if_neg hp]; exact key '-' _ (Or.inr (Or.inr ⟨rfl, rfl⟩))

/-! ### C78: the round trip -/

/-- What is generated is parsed back: any value of nil, booleans, small Integers, finite
Floats, Strings, and Arrays and Hashes of these. (Missing: larger Integers.) -/
theorem C78_round_trip_partial (P : FloatIO) (hP : FloatOk P) {v : RV P.F} {j : JV P.F} (hd : Denotes v j)
    (hs : Small P v) : parse P (generate P v) = some j :=
  C79_complete_partial P ⟨[], gen P v, [], ws_nil, ws_nil, gen_text hP v hd hs, by simp⟩

mutual
/-- a parsed value as a Ruby value -/
def ofJ {F : Type} : JV F → RV F
  | .null => .nil
  | .bool b => .bool b
  | .int i => .int i
  | .flo f => .flo f
  | .str s => .str s
  | .arr xs => .arr (ofJs xs)
  | .obj kvs => .hash (ofKVs kvs)

def ofJs {F : Type} : List (JV F) → List (RV F)
  | [] => []
  | v :: r => ofJ v :: ofJs r

def ofKVs {F : Type} : List (List Char × JV F) → List (Key × RV F)
  | [] => []
  | (k, v) :: r => (.str k, ofJ v) :: ofKVs r
end

mutual
/-- the keys of every Hash inside are distinct -/
def Distinct {F : Type} : JV F → Prop
  | .null => True
  | .bool _ => True
  | .int _ => True
  | .flo _ => True
  | .str _ => True
  | .arr xs => DistinctL xs
  | .obj kvs => (kvs.map (·.1)).Nodup ∧ DistinctP kvs

def DistinctL {F : Type} : List (JV F) → Prop
  | [] => True
  | v :: r => Distinct v ∧ DistinctL r

def DistinctP {F : Type} : List (List Char × JV F) → Prop
  | [] => True
  | (_, v) :: r => Distinct v ∧ DistinctP r
end

mutual
theorem ofJ_denotes {F : Type} : ∀ (j : JV F), Distinct j → Denotes (ofJ j) j
  | .null, _ => by rw [ofJ]; exact .nil
  | .bool b, _ => by rw [ofJ]; exact .bool b
  | .int i, _ => by rw [ofJ]; exact .int i
  | .flo f, _ => by rw [ofJ]; exact .flo f
  | .str s, _ => by rw [ofJ]; exact .str s
  | .arr xs, h => by
    rw [ofJ]
    unfold Distinct at h
    exact ofJs_denotes xs h
  | .obj kvs, h => by
    rw [ofJ]
    unfold Distinct at h
    obtain ⟨h1, h2, h3⟩ := ofKVs_denotes kvs h.2
    exact .hash h1 h2 h3 (collapsed_self h.1)

theorem ofJs_denotes {F : Type} : ∀ (xs : List (JV F)), DistinctL xs → Denotes (.arr (ofJs xs)) (.arr xs)
  | [], _ => by rw [ofJs]; exact .arr0
  | v :: r, h => by
    unfold DistinctL at h
    rw [ofJs]
    exact .arr (ofJ_denotes v h.1) (ofJs_denotes r h.2)

theorem ofKVs_denotes {F : Type} : ∀ (kvs : List (List Char × JV F)), DistinctP kvs →
    (ofKVs kvs).map (·.1.tos) = kvs.map (·.1) ∧ (ofKVs kvs).length = kvs.length ∧
      ∀ k v p j, ((k, v), (p, j)) ∈ (ofKVs kvs).zip kvs → Denotes v j
  | [], _ => by
    rw [ofKVs]
    exact ⟨rfl, rfl, fun k v p j h => by cases h⟩
  | (k, v) :: r, h => by
    unfold DistinctP at h
    obtain ⟨h1, h2, h3⟩ := ofKVs_denotes r h.2
    rw [ofKVs]
    refine ⟨by rw [List.map_cons, List.map_cons, h1]; rfl, by simp [h2], ?_⟩
    intro k' v' p j hm
    rw [List.zip_cons_cons] at hm
    rcases List.mem_cons.mp hm with e | hm
    · cases e; exact ofJ_denotes v h.1
    · exact h3 k' v' p j hm
end

/-- A value that came from JSON (Hashes with String keys) comes back unchanged. -/
theorem C78_values_partial (P : FloatIO) (hP : FloatOk P) {j : JV P.F} (hd : Distinct j) (hs : Small P (ofJ j)) :
    parse P (generate P (ofJ j)) = some j := C78_round_trip_partial P hP (ofJ_denotes j hd) hs

/-- Every string comes back, whatever its characters. -/
theorem C78_string (P : FloatIO) (s : List Char) : parse P (generate P (.str s)) = some (.str s) := by
  have ht : JText (Num64 P) JStr (gen P (.str s)) (.str s) := by rw [gen]; exact .str (genString_str s)
  exact C79_complete_partial P ⟨[], _, [], ws_nil, ws_nil, ht, by simp⟩

/-- Different values are written differently. -/
theorem C78_injective (P : FloatIO) (hP : FloatOk P) {v v' : RV P.F} {j j' : JV P.F} (hd : Denotes v j)
    (hs : Small P v) (hd' : Denotes v' j') (hs' : Small P v') (h : generate P v = generate P v') : j = j' := by
  have h1 := C78_round_trip_partial P hP hd hs
  rw [h, C78_round_trip_partial P hP hd' hs'] at h1
  injection h1 with h1
  exact h1.symm

/-- Every Integer beyond 62 bits comes back as a String. -/
theorem C78_bignum_fails (P : FloatIO) {i : Int} (hi : ¬ (-(2 ^ 62) ≤ i ∧ i < 2 ^ 62)) :
    parse P (generate P (.int i)) = some (.str (intDec i)) := by
  have hf : ¬ isFixnum i = true := by
    unfold isFixnum
    simp only [Bool.and_eq_true, decide_eq_true_eq]; exact hi
  have ht : JText (Num64 P) JStr (gen P (.int i)) (.str (intDec i)) := by
    rw [gen, if_neg hf]; exact .str (genString_str _)
  exact C79_complete_partial P ⟨[], _, [], ws_nil, ws_nil, ht, by simp⟩

/-! ### Examples -/

/-- a text with white space, an escape, a pair of surrogates, a repeated key -/
def sampleText : List Char := "{\"a\":1,\"é\" : [ -2.5e3,true ],\"a\":\"\\ud83d\\ude00\\n\"}".toList

example : parse toyIO (utf8 sampleText) =
    some (.obj [(['a'], .str [Char.ofNat 0x1F600, '\n']), (['é'], .arr [.flo (some (place "-2.5e3".toList.dropLast.dropLast)), .bool true])]) := by
  have hd : ∀ c, c = '1' ∨ c = '2' ∨ c = '5' ∨ c = '3' → Dig c := by
    rintro c (rfl | rfl | rfl | rfl) <;> unfold Dig <;> decide
  have one : ∀ c, c = '1' ∨ c = '2' ∨ c = '5' ∨ c = '3' → Digs [c] := by
    intro c hc
    refine ⟨by simp, fun d hd' => ?_⟩
    rw [List.mem_singleton.mp hd']; exact hd c hc
  have sp : Ws [' '] := by intro c hc; exact Or.inl (List.mem_singleton.mp hc)
  have n1 : JText (Num64 toyIO) JStr ['1'] (.int 1) := by
    have : IntTok ['1'] 1 := IntTok.pos (t := ['1']) ⟨one _ (Or.inl rfl), fun _ => by simp_all⟩
    exact .num (.int this (by decide) (by decide))
  have n2 : JText (Num64 toyIO) JStr "-2.5e3".toList (.flo (toyIO.read "-2.5e3".toList)) :=
    .num (.flo ⟨['-', '2'], _, ['.', '5'], ['e', '3'],
      .neg (t := ['2']) ⟨one _ (by simp), fun h => by cases h⟩,
      Or.inr ⟨['5'], one _ (by simp), rfl⟩, Or.inr ⟨'e', [], ['3'], Or.inl rfl, Or.inl rfl, one _ (by simp), rfl⟩,
      Or.inl (by simp), rfl⟩)
  have hexd : Hex4 "d83d".toList 0xD83D :=
    .mk (.low (c := 'd') (by decide) (by decide)) (.num (c := '8') (by decide) (by decide))
      (.num (c := '3') (by decide) (by decide)) (.low (c := 'd') (by decide) (by decide))
  have hexl : Hex4 "de00".toList 0xDE00 :=
    .mk (.low (c := 'd') (by decide) (by decide)) (.low (c := 'e') (by decide) (by decide))
      (.num (c := '0') (by decide) (by decide)) (.num (c := '0') (by decide) (by decide))
  have st : JStr "\\ud83d\\ude00\\n".toList [Char.ofNat 0x1F600, '\n'] :=
    JStr.pair (t := "\\n".toList) hexd hexl (by decide) (by decide) (by decide) (by decide) (by decide)
      (.esc (by decide) .nil)
  have ka : JStr ['a'] ['a'] := .plain (by decide) (by decide) (by decide) .nil
  have ke : JStr ['é'] ['é'] := .plain (by decide) (by decide) (by decide) .nil
  have arr := JText.arr (JItems.cons sp ws_nil n2 (JItems.one ws_nil sp JText.tru))
  have ps := JPairs.cons ws_nil ws_nil ws_nil ws_nil ka n1
    (JPairs.cons ws_nil sp sp ws_nil ke arr (JPairs.one ws_nil ws_nil ws_nil ws_nil ka (JText.str st)))
  refine C79_complete_partial toyIO ⟨[], _, [], ws_nil, ws_nil, JText.obj ps ?_, rfl⟩
  exact build_collapsed _

/-- a Hash with a Symbol key, an Array, a Float -/
def sampleValue : RV (Option Nat) :=
  .hash [(.str "k\n".toList, .arr [.int (-12), .flo (some 3), .nil]), (.other "sym".toList, .other "obj".toList)]

example : parse toyIO (generate toyIO sampleValue) =
    some (.obj [("k\n".toList, .arr [.int (-12), .flo (some 3), .null]), ("sym".toList, .str "obj".toList)]) := by
  refine C78_round_trip_partial toyIO toy_ok (v := sampleValue) ?_ ?_
  · refine Denotes.hash (ps := [("k\n".toList, .arr [.int (-12), .flo (some 3), .null]), ("sym".toList, .str "obj".toList)])
      rfl rfl ?_ (collapsed_self (by decide))
    intro k v p j h
    simp only [List.zip_cons_cons, List.zip_nil_right, List.mem_cons, Prod.mk.injEq, List.not_mem_nil, or_false] at h
    rcases h with ⟨⟨rfl, rfl⟩, rfl, rfl⟩ | ⟨⟨rfl, rfl⟩, rfl, rfl⟩
    · exact .arr (.int _) (.arr (.flo _) (.arr .nil .arr0))
    · exact .other _
  · simp only [sampleValue, Small, SmallP, SmallL]
    exact ⟨⟨⟨by decide, by decide⟩, ⟨rfl, rfl⟩, trivial, trivial⟩, trivial, trivial⟩

example : parse toyIO (generate toyIO (.int (2 ^ 62))) = some (.str (intDec (2 ^ 62))) :=
  C78_bignum_fails toyIO (by decide)

example : parse toyIO (utf8 "null xyz".toList) = some .null := C79_trailing_fails toyIO .null "xyz".toList

example : parse toyIO (utf8 "tru".toList) = none := rfl
example : parse toyIO (utf8 "[1,]".toList) = none := rfl
example : parse toyIO (utf8 "{\"a\":1,}".toList) = none := rfl

end Verif.Json
