import Verif.Value.Lemmas

/-!
# Properties C01, C02, C03: the encoding of values
-/

namespace Verif.Value

/-! ## C01 Integers survive being stored in a value -/

/-- C01: a stored 64-bit integer is read back unchanged. -/
theorem C01_integer_round_trip (n : BitVec 64) : toInt? (integer n) = some n.toInt :=
  toInt?_integer n

/-- C01: a stored arbitrary-precision integer is read back unchanged. -/
theorem C01_bigint_round_trip (n : Int) : toInt? (bigint n) = some n := toInt?_bigint n

/-- C01: a stored unsigned 64-bit integer is read back unchanged. -/
theorem C01_u64_round_trip (n : BitVec 64) : toInt? (integerFromU64 n) = some (n.toNat : Int) := by
  unfold integerFromU64
  split
  · rename_i h
    rw [toInt?_integer, BitVec.toInt_eq_toNat_cond]
    rw [if_pos (by omega)]
  · exact toInt?_bigint _

/-- C01: an integer is held inline exactly when it is in `[-2^62, 2^62)`. -/
theorem C01_inline_iff (n : Int) :
    (∃ w, bigint n = .imm w) ↔ (-(2 ^ 62) ≤ n ∧ n < 2 ^ 62) := by
  unfold bigint integer
  constructor
  · rintro ⟨w, h⟩
    split at h
    · rename_i hr
      split at h
      · rename_i hi
        rw [isI63_iff, toInt_ofInt_of_range hr] at hi
        exact hi
      · exact absurd h (by simp)
    · exact absurd h (by simp)
  · intro h
    have hr : -(2 ^ 63) ≤ n ∧ n < 2 ^ 63 := by omega
    rw [if_pos hr]
    have : isI63 (BitVec.ofInt 64 n) = true := by
      rw [isI63_iff, toInt_ofInt_of_range hr]; exact h
    rw [if_pos this]
    exact ⟨_, rfl⟩

/-- C01: all constructors agree on the representation of a number, so that equal
Integers have equal representations whichever way they were produced. -/
theorem C01_canonical (n : BitVec 64) (m : Int) :
    integer n = bigint m ↔ n.toInt = m := by
  constructor
  · intro h
    have := congrArg toInt? h
    rw [toInt?_integer, toInt?_bigint] at this
    exact Option.some.inj this
  · rintro rfl
    unfold bigint
    have := BitVec.toInt_lt (x := n)
    have := BitVec.le_toInt (x := n)
    rw [if_pos (by constructor <;> simp_all), BitVec.ofInt_toInt]

/-- C01: different Integers have different representations. -/
theorem C01_injective (n m : Int) : bigint n = bigint m ↔ n = m := by
  constructor
  · intro h
    have := congrArg toInt? h
    rw [toInt?_bigint, toInt?_bigint] at this
    exact Option.some.inj this
  · rintro rfl; rfl

/-- C01: the checked constructor refuses exactly what does not fit inline. -/
theorem C01_check_fixnum (n : BitVec 64) :
    checkFixnum n = (if -(2 ^ 62) ≤ n.toInt ∧ n.toInt < 2 ^ 62 then some (bigint n.toInt) else none) := by
  rw [← (C01_canonical n n.toInt).2 rfl]
  unfold checkFixnum integer
  by_cases h : isI63 n = true
  · rw [if_pos h, if_pos h, if_pos ((isI63_iff n).1 h)]
  · rw [if_neg h, if_neg (fun h' => h ((isI63_iff n).2 h'))]

example : bigint (2 ^ 62 - 1) = .imm 0x7fffffffffffffff#64 := by decide
example : bigint (2 ^ 62) = .bigint (2 ^ 62) := by decide
example : bigint (-(2 ^ 62)) = .imm 0x8000000000000001#64 := by decide

/-! ## C02 Floats survive being stored in a value -/

/-- C02, everything except one bit pattern: a stored float is read back with the
same bits.  Missing from the full statement: the pattern `0x3000000000000000`
(the number `2^-255`), for which it is false, see
`C02_float_round_trip_fails`. -/
theorem C02_float_round_trip_partial (b : BitVec 64) (hb : b ≠ 0x3000000000000000#64) :
    tryFloat (float b) = some b := by
  unfold float flonum
  by_cases h1 : b = 0x8000000000000000#64
  · simp [h1, tryFloat]
  rw [if_neg h1]
  by_cases h2 : b = 0#64
  · subst h2; decide
  rw [if_neg h2]
  simp only []
  split
  · rename_i h
    split at h
    · rename_i hc
      rw [flonumCond_iff] at hc
      obtain rfl := (Option.some.inj h)
      have e0 := enc_bits b 0 (by omega)
      have e1 := enc_bits b 1 (by omega)
      simp only [tryFloat, isFlonum_eq, e0, e1]
      rw [dec_enc b hc hb]
      rfl
    · exact absurd h (by simp)
  · rfl

/-- C02 is false as it stands: `2^-255` is read back as `0.0`. -/
theorem C02_float_round_trip_fails :
    tryFloat (float 0x3000000000000000#64) = some 0#64 := by decide

/-- C02, exact description: a float is read back unchanged if and only if it is
not `2^-255`. -/
theorem C02_float_round_trip_iff (b : BitVec 64) :
    tryFloat (float b) = some b ↔ b ≠ 0x3000000000000000#64 := by
  constructor
  · rintro h rfl
    rw [C02_float_round_trip_fails] at h
    exact absurd h (by decide)
  · exact C02_float_round_trip_partial b

/-- C02: two different floats (other than `2^-255`) are different values, and
every float value is recognised as a Float. -/
theorem C02_float_injective_partial (a b : BitVec 64) (ha : a ≠ 0x3000000000000000#64)
    (hb : b ≠ 0x3000000000000000#64) (h : float a = float b) : a = b := by
  have := congrArg tryFloat h
  rw [C02_float_round_trip_partial a ha, C02_float_round_trip_partial b hb] at this
  exact Option.some.inj this

-- 1.5, -0.0, +inf, a NaN with payload, the smallest denormal
example : tryFloat (float 0x3ff8000000000000#64) = some 0x3ff8000000000000#64 := by decide
example : float 0x3ff8000000000000#64 = .imm 0xffc0000000000002#64 := by decide
example : float 0x8000000000000000#64 = .hfloat 0x8000000000000000#64 := by decide
example : float 0x7ff0000000000000#64 = .hfloat 0x7ff0000000000000#64 := by decide
example : tryFloat (float 0x7ff8000000000123#64) = some 0x7ff8000000000123#64 := by decide
example : float 1#64 = .hfloat 1#64 := by decide

/-! ## C03 Value kinds never alias -/

/-- What a user can build: the kinds of Ruby values with their payload. -/
inductive Source where
  | int (n : BitVec 64) (h : isI63 n = true)
  | flo (b w : BitVec 64) (h : flonum b = some w) (hne : b ≠ 0x3000000000000000#64)
  | sym (id : BitVec 32)
  | nil
  | bool (b : Bool)
  /-- a heap cell: 64-byte aligned and not null -/
  | ref (addr : BitVec 64) (h0 : addr ≠ 0#64) (h64 : addr.toNat % 64 = 0)

/-- The word the code stores for it. -/
def Source.word : Source → BitVec 64
  | .int n _ => Value.fixnum n
  | .flo _ w _ _ => w
  | .sym id => Value.symbol id
  | .nil => Value.nil
  | .bool b => Value.bool b
  | .ref a _ _ => a

/-- The kind it was built as. -/
def Source.kind : Source → Kind
  | .int _ _ => .fixnum
  | .flo _ _ _ _ => .flonum
  | .sym _ => .symbol
  | .nil => .nil
  | .bool true => .true
  | .bool false => .false
  | .ref _ _ _ => .heap

theorem flonum_some_tag {b w : BitVec 64} (h : flonum b = some w) : isFlonum w = true := by
  unfold flonum at h
  split at h
  · exact absurd h (by simp)
  split at h
  · obtain rfl := Option.some.inj h; decide
  simp only [] at h
  split at h
  · obtain rfl := Option.some.inj h
    rw [isFlonum_eq, enc_bits b 0 (by omega), enc_bits b 1 (by omega)]
    simp
  · exact absurd h (by simp)

theorem symbol_bits (id : BitVec 32) (i : Nat) (hi : i < 8) :
    (symbol id).getLsbD i = TAG_SYMBOL.getLsbD i := by
  interval_cases i <;> simp [symbol, TAG_SYMBOL]

/-- C03: `unpack` recognises every value as the kind it was built as. -/
theorem C03_kind (s : Source) : kind s.word = s.kind := by
  cases s with
  | int n h =>
    have : isFixnum (fixnum n) = true := by rw [isFixnum_eq]; exact fixnum_bit0 n
    simp [Source.word, Source.kind, kind, this]
  | flo b w h hne =>
    have hf := flonum_some_tag h
    have h0 : isFixnum w = false := by
      rw [isFlonum_eq] at hf; rw [isFixnum_eq]; simp at hf; simp [hf]
    simp [Source.word, Source.kind, kind, hf, h0]
  | sym id =>
    have hb := symbol_bits id
    have hs : isSymbol (symbol id) = true := by
      rw [isSymbol_eq, hb 0 (by omega), hb 1 (by omega), hb 2 (by omega), hb 3 (by omega),
        hb 4 (by omega), hb 5 (by omega), hb 6 (by omega), hb 7 (by omega)]
      decide
    have hp : isPacked (symbol id) = true := by
      rw [isPacked_eq, hb 0 (by omega), hb 1 (by omega), hb 2 (by omega)]; decide
    have h0 : isFixnum (symbol id) = false := by rw [isFixnum_eq, hb 0 (by omega)]; decide
    have h1 : isFlonum (symbol id) = false := by
      rw [isFlonum_eq, hb 0 (by omega), hb 1 (by omega)]; decide
    have hz : (symbol id == 0#64) = false := by
      rw [beq_eq_false_iff_ne]
      intro hc
      have := hb 2 (by omega)
      rw [hc] at this
      exact absurd this (by decide)
    simp [Source.word, Source.kind, kind, h0, h1, hz, hp, hs]
  | nil => decide
  | bool b => cases b <;> decide
  | ref a h0 h64 =>
    have hbit : ∀ i, i < 6 → a.getLsbD i = false := by
      intro i hi
      rw [BitVec.getLsbD, Nat.testBit_eq_decide_div_mod_eq]
      have : a.toNat = 64 * (a.toNat / 64) := by omega
      rw [this]
      generalize a.toNat / 64 = k
      interval_cases i <;> simp <;> omega
    have hz : (a == 0#64) = false := by rw [beq_eq_false_iff_ne]; exact h0
    simp [Source.word, Source.kind, kind, isFixnum_eq, isFlonum_eq, isPacked_eq, hz,
      -BitVec.getLsbD_eq_getElem, hbit]

/-- C03: symbols keep their number. -/
theorem C03_symbol_round_trip (id : BitVec 32) : trySymbol (symbol id) = some id := by
  have hs : isSymbol (symbol id) = true := by
    have hb := symbol_bits id
    rw [isSymbol_eq, hb 0 (by omega), hb 1 (by omega), hb 2 (by omega), hb 3 (by omega),
      hb 4 (by omega), hb 5 (by omega), hb 6 (by omega), hb 7 (by omega)]
    decide
  rw [trySymbol, if_pos hs]
  congr 1
  apply BitVec.eq_of_getLsbD_eq
  intro i hi
  have h1 : TAG_SYMBOL.getLsbD (32 + i) = false := by
    interval_cases i <;> decide
  have h2 : 32 + i < 64 := by omega
  have h3 : TAG_SYMBOL[32 + i] = false := by rw [← BitVec.getLsbD_eq_getElem]; exact h1
  simp [symbol, hi, h3, h2]

/-- C03: two values built from different contents are different words.
(`2^-255` is excluded by `Source`, see C02.) -/
theorem C03_distinct (s t : Source) (h : s.word = t.word) : s = t := by
  have hk : s.kind = t.kind := by rw [← C03_kind, ← C03_kind, h]
  cases s with
  | int n hn =>
    cases t with
    | int m hm =>
      simp only [Source.word] at h
      have := fixnum_sshiftRight n hn
      rw [h, fixnum_sshiftRight m hm] at this
      subst this; rfl
    | bool b => cases b <;> simp [Source.kind] at hk
    | _ => simp [Source.kind] at hk
  | flo b w hb hne =>
    cases t with
    | flo b' w' hb' hne' =>
      simp only [Source.word] at h
      subst h
      have h1 : float b = .imm w := by simp [float, hb]
      have h2 : float b' = .imm w := by simp [float, hb']
      have := C02_float_injective_partial b b' hne hne' (h1.trans h2.symm)
      subst this; rfl
    | bool b => cases b <;> simp [Source.kind] at hk
    | _ => simp [Source.kind] at hk
  | sym id =>
    cases t with
    | sym id' =>
      simp only [Source.word] at h
      have := C03_symbol_round_trip id
      rw [h, C03_symbol_round_trip id'] at this
      rw [Option.some.inj this]
    | bool b => cases b <;> simp [Source.kind] at hk
    | _ => simp [Source.kind] at hk
  | nil =>
    cases t with
    | nil => rfl
    | bool b => cases b <;> simp [Source.kind] at hk
    | _ => simp [Source.kind] at hk
  | bool b =>
    cases t with
    | bool b' => cases b <;> cases b' <;> simp_all [Source.kind]
    | _ => cases b <;> simp [Source.kind] at hk
  | ref a h0 h64 =>
    cases t with
    | ref a' h0' h64' =>
      simp only [Source.word] at h
      subst h; rfl
    | bool b => cases b <;> simp [Source.kind] at hk
    | _ => simp [Source.kind] at hk

/-- C03: a word is falsy exactly when it is `nil` or `false`. -/
theorem C03_truthiness (w : BitVec 64) : asBool w = false ↔ (w = nil ∨ w = bool false) := by
  constructor
  · intro h
    simp only [asBool, bne_eq_false_iff_eq] at h
    have key : ∀ i, i < 64 → i ≠ 4 → w.getLsbD i = NIL_VALUE.getLsbD i := by
      intro i hi h4
      rw [← h, BitVec.getLsbD_and, BitVec.getLsbD_not]
      have : (0x10#64).getLsbD i = false := by
        interval_cases i <;> first | decide | exact absurd rfl h4
      rw [this]; simp [hi]
    cases h4 : w.getLsbD 4 with
    | false =>
      left
      apply BitVec.eq_of_getLsbD_eq
      intro i hi
      by_cases hi4 : i = 4
      · subst hi4; rw [h4]; decide
      · exact key i hi hi4
    | true =>
      right
      apply BitVec.eq_of_getLsbD_eq
      intro i hi
      by_cases hi4 : i = 4
      · subst hi4; rw [h4]; decide
      · rw [key i hi hi4]
        clear key h4 h
        interval_cases i <;> first | decide | exact absurd rfl hi4
  · rintro (rfl | rfl) <;> decide

/-- C03: consequently a value built as anything but `nil` or `false` is truthy. -/
theorem C03_truthy (s : Source) (h1 : s ≠ .nil) (h2 : s ≠ .bool false) : asBool s.word = true := by
  by_contra hc
  rw [Bool.not_eq_true, C03_truthiness] at hc
  rcases hc with hc | hc
  · exact h1 (C03_distinct s .nil hc)
  · exact h2 (C03_distinct s (.bool false) hc)

example : kind (symbol 7#32) = .symbol := by decide
example : asBool (fixnum 0#64) = true := by decide
example : (Source.ref 0x7f00001040#64 (by decide) (by decide)).word ≠ Value.nil := by decide

end Verif.Value
