import Verif.Str.Utf8

/-!
# Text and validity of strings

A program is any sequence of operations on any number of strings, mixed with questions that fill the
cached code range.
-/

namespace Verif.Str

/-! ## C116: unchecked reads of text -/

/-- What the standard library's UTF-8 check accepts is what encodes Unicode scalar values: no
surrogates, no overlong forms, nothing above U+10FFFF, nothing cut. -/
theorem C116_utf8_spec (bs : List Nat) :
    wellFormed u8w bs = true ↔
      ∃ cs : List Nat, (∀ c ∈ cs, c < 0xD800 ∨ (0xE000 ≤ c ∧ c < 0x110000)) ∧
        bs = (cs.map encode).flatten := by
  rw [wellFormed_iff u8w_code, wf_u8]
  simp only [scalar, Bool.or_eq_true, decide_eq_true_eq, Bool.and_eq_true]

example : encode 0x1F600 = [0xF0, 0x9F, 0x98, 0x80] := by decide
example : wellFormed u8w [0xED, 0xA0, 0x80] = false := by decide

/-- After any program, whenever the bytes of a string are handed on as text without a check, they
are the UTF-8 form of Unicode scalar values; and they are handed on exactly when they are. -/
theorem C116_text_reads (iso : List Nat → Bool) (ops : List Op) (k : Nat) :
    (run iso ops k).checkUtf8 iso = true ↔
      ∃ cs : List Nat, (∀ c ∈ cs, c < 0xD800 ∨ (0xE000 ≤ c ∧ c < 0x110000)) ∧
        (run iso ops k).bytes = (cs.map encode).flatten := by
  have hs := run_safe (iso := iso) ops k
  generalize run iso ops k = s at hs
  rw [← C116_utf8_spec]
  unfold S.checkUtf8
  split_ifs with h1 h2
  · exact ⟨fun _ => (wellFormed_iff u8w_code _).mpr ((hs.seven h1).wf (e := .utf8) rfl), fun _ => rfl⟩
  · exact ⟨fun _ => (wellFormed_iff u8w_code _).mpr (hs.valid h2.2 h2.1), fun _ => rfl⟩
  · exact Iff.rfl

/-- After any program, a string that answers true to `ascii_only?` has only ASCII bytes (its bytes
are also indexed as characters without a check). -/
theorem C116_ascii_reads (iso : List Nat → Bool) (ops : List Op) (k : Nat)
    (h : (run iso ops k).asciiOnly iso = true) : ∀ b ∈ (run iso ops k).bytes, b < 0x80 :=
  (run_safe (iso := iso) ops k).seven (by simpa [S.asciiOnly] using h)

/-- After any program, a UTF-8 string that answers true to `valid_encoding?` is UTF-8. -/
theorem C116_valid_utf8 (iso : List Nat → Bool) (ops : List Op) (k : Nat)
    (he : (run iso ops k).enc = .utf8) (h : (run iso ops k).validEncoding iso = true) :
    ∃ cs : List Nat, (∀ c ∈ cs, c < 0xD800 ∨ (0xE000 ≤ c ∧ c < 0x110000)) ∧
      (run iso ops k).bytes = (cs.map encode).flatten := by
  rw [← C116_text_reads]
  simp only [S.validEncoding, Bool.or_eq_true, decide_eq_true_eq] at h
  unfold S.checkUtf8
  rcases h with h | h <;> simp [h, he]

/-- "é" and "a" put together, cut, and reversed -/
def sample : List Op :=
  [.new 0 [0xC3, 0xA9] .utf8, .newScanned 1 [0x61] .utf8, .query 0, .append 0 1, .substr 2 0 0 2,
   .reverse 3 0, .mul 4 3 2, .splice 4 1 2 1, .setByte 1 0 0xE9]

example : (run (fun _ => true) sample 3).bytes = [0x61, 0xC3, 0xA9] ∧
    (run (fun _ => true) sample 3).cr = .valid ∧
    (run (fun _ => true) sample 4).bytes = [0x61, 0x61, 0x61, 0xC3, 0xA9] ∧
    (run (fun _ => true) sample 1).cr = .unknown ∧
    (run (fun _ => true) sample 1).checkUtf8 (fun _ => true) = false := by decide +kernel

/-! ## C117: the answers agree with the contents -/

/-- Valid in its encoding: a sequence of characters (for ISO-2022-JP, what the decoder says). -/
def Valid (iso : List Nat → Bool) (e : Enc) (bs : List Nat) : Prop :=
  match e with
  | .utf8 => ∃ cs : List Nat, (∀ c ∈ cs, c < 0xD800 ∨ (0xE000 ≤ c ∧ c < 0x110000)) ∧
      bs = (cs.map encode).flatten
  | .usAscii => ∀ b ∈ bs, b < 0x80
  | .utf16le | .utf16be => bs.length % 2 = 0
  | .utf32le | .utf32be => bs.length % 4 = 0
  | .eucJp => ∃ cs : List (List Nat), bs = cs.flatten ∧ ∀ c ∈ cs, eucw c = some c.length
  | .sjis _ => ∃ cs : List (List Nat), bs = cs.flatten ∧ ∀ c ∈ cs, sjisw c = some c.length
  | .iso2022Jp => bs = [] ∨ iso bs = true
  | .ascii8 | .iso8859 _ | .other _ | .namedByte _ => True

theorem wf_chars {w : List Nat → Option Nat} (hw : w [] = none) (bs : List Nat) :
    Wf w bs ↔ ∃ cs : List (List Nat), bs = cs.flatten ∧ ∀ c ∈ cs, w c = some c.length := by
  constructor
  · intro h
    obtain ⟨cs, h1, h2⟩ := h.split
    exact ⟨cs, h1.symm, fun c hc => (h2 c hc).2⟩
  · rintro ⟨cs, rfl, h⟩
    refine Wf.ofChars (fun c hc => ⟨?_, h c hc⟩)
    rintro rfl
    have := h [] hc
    rw [hw] at this; simp at this

theorem classify_valid (iso : List Nat → Bool) (e : Enc) (bs : List Nat) :
    classify iso e bs ≠ .broken ↔ Valid iso e bs := by
  by_cases he : e = .iso2022Jp
  · subst he
    simp only [classify, Valid, Enc.asciiCompat, Bool.false_and, Bool.false_eq_true, if_false]
    split_ifs <;> simp_all
  · rw [classify_broken he]
    cases e <;> simp only [code, Valid]
    case utf8 => rw [← wellFormed_iff u8w_code]; exact C116_utf8_spec bs
    case usAscii => exact ⟨fun h => wf_ascii h, fun h => Ascii.wf (e := .usAscii) rfl h⟩
    case eucJp => exact wf_chars rfl bs
    case sjis => exact wf_chars rfl bs
    case iso2022Jp => exact absurd rfl he
    all_goals first | (rw [wf_fixw (by omega)]; done) | exact ⟨fun _ => trivial, fun _ => wf_fix1 _⟩

/-- `valid_encoding?` after a program answers whether the bytes are valid in the encoding, whatever
was asked before; a true answer to `ascii_only?` is right.  Partial: the operations of the program
must satisfy `fine` — ISO-2022-JP strings are not joined, repeated or reversed; `<<` with an Integer,
`ljust` and non-String interpolations act on ASCII-compatible strings (US-ASCII: only ASCII
characters); strings known to be broken are not reversed, nor repeated unless UTF-8; compiled `<<`
of an ASCII byte does not follow a broken Shift_JIS string.  The theorems below show that each of
these cases goes wrong. -/
theorem C117_valid_partial (iso : List Nat → Bool) (ops : List Op)
    (hf : fineFrom iso (fun _ => ⟨[], .utf8, .sevenBit⟩) ops) (k : Nat) :
    ((run iso ops k).validEncoding iso = true ↔
      Valid iso (run iso ops k).enc (run iso ops k).bytes) ∧
    ((run iso ops k).asciiOnly iso = true → ∀ b ∈ (run iso ops k).bytes, b < 0x80) ∧
    ((run iso ops k).asciiOnly iso = true →
      (run iso ops k).bytes = [] ∨ (run iso ops k).enc.asciiCompat = true) := by
  have hs := run_sound hf k
  generalize run iso ops k = s at hs
  refine ⟨?_, ?_, ?_⟩
  · rw [← classify_valid]
    simp only [S.validEncoding, Bool.or_eq_true, decide_eq_true_eq]
    constructor
    · rintro (h | h)
      · rw [hs.seven h]; simp
      · exact hs.valid h
    · intro h
      have h1 := codeRange_ne_unknown (iso := iso) s
      cases hc : s.codeRange iso with
      | unknown => exact absurd hc h1
      | sevenBit => exact Or.inl rfl
      | valid => exact Or.inr rfl
      | broken => exact absurd (hs.broken hc) h
  · intro h
    exact seven_ascii (hs.seven (by simpa [S.asciiOnly] using h))
  · intro h
    rcases classify_seven.mp (hs.seven (by simpa [S.asciiOnly] using h)) with h | h
    · exact Or.inl h
    · exact Or.inr h.1

example : fineFrom (fun _ => true) (fun _ => ⟨[], .utf8, .sevenBit⟩) sample := by
  refine ⟨trivial, trivial, trivial, ⟨by decide +kernel, by decide +kernel⟩, trivial,
    ⟨by decide +kernel, by decide +kernel⟩, ⟨by decide +kernel, by decide +kernel⟩, trivial, trivial, trivial⟩

/-- A string that nobody has asked about answers exactly. -/
theorem C117_unasked (iso : List Nat → Bool) (s : S) (h : s.cr = .unknown) :
    (s.asciiOnly iso = true ↔
      s.bytes = [] ∨ (s.enc.asciiCompat = true ∧ ∀ b ∈ s.bytes, b < 0x80)) ∧
    (s.validEncoding iso = true ↔ Valid iso s.enc s.bytes) := by
  have hc : s.codeRange iso = classify iso s.enc s.bytes := by simp [S.codeRange, h]
  constructor
  · simp only [S.asciiOnly, hc, decide_eq_true_eq]
    exact classify_seven
  · rw [← classify_valid]
    simp only [S.validEncoding, hc, Bool.or_eq_true, decide_eq_true_eq]
    have := classify_ne_unknown (iso := iso) s.enc s.bytes
    cases hx : classify iso s.enc s.bytes <;> simp_all

def T : List Nat → Bool := fun _ => true

/-- `"éa"[1].ascii_only?` is false -/
theorem C117_substring_fails :
    (run T [.new 0 [0xC3, 0xA9, 0x61] .utf8, .substr 1 0 2 3] 1).bytes = [0x61] ∧
    (run T [.new 0 [0xC3, 0xA9, 0x61] .utf8, .substr 1 0 2 3] 1).asciiOnly T = false := by
  decide +kernel

/-- `s = "é"; s.valid_encoding?; s[0] = "a"; s.ascii_only?` is false; without the question before it
is true -/
theorem C117_splice_fails :
    (run T [.new 0 [0xC3, 0xA9] .utf8, .new 1 [0x61] .utf8, .query 0, .splice 0 0 2 1] 0).bytes = [0x61] ∧
    (run T [.new 0 [0xC3, 0xA9] .utf8, .new 1 [0x61] .utf8, .query 0, .splice 0 0 2 1] 0).asciiOnly T
      = false ∧
    (run T [.new 0 [0xC3, 0xA9] .utf8, .new 1 [0x61] .utf8, .splice 0 0 2 1] 0).asciiOnly T = true := by
  decide +kernel

/-- `"\xA9\xC3".reverse` is "é", but `valid_encoding?` is false -/
theorem C117_reverse_fails :
    (run T [.new 0 [0xA9, 0xC3] .utf8, .reverse 1 0] 1).bytes = encode 0xE9 ∧
    (run T [.new 0 [0xA9, 0xC3] .utf8, .reverse 1 0] 1).validEncoding T = false := by
  decide +kernel

/-- `s = "\xA1".force_encoding("EUC-JP"); (s * 2).valid_encoding?` is true; if `s.valid_encoding?`
is asked before, it is false -/
theorem C117_repeat_fails :
    (run T [.new 0 [0xA1] .eucJp, .mul 1 0 2] 1).validEncoding T = true ∧
    (run T [.new 0 [0xA1] .eucJp, .query 0, .mul 1 0 2] 1).validEncoding T = false := by
  decide +kernel

/-- `"a".encode("UTF-16LE") << 97` has three bytes and answers true to `valid_encoding?` if it was
asked before; a US-ASCII string takes in "é" and answers true -/
theorem C117_append_integer_fails :
    (run T [.new 0 [0x61, 0] .utf16le, .query 0, .appendInt 0 97] 0).bytes = [0x61, 0, 0x61] ∧
    (run T [.new 0 [0x61, 0] .utf16le, .query 0, .appendInt 0 97] 0).validEncoding T = true ∧
    ¬ Valid T .utf16le [0x61, 0, 0x61] ∧
    (run T [.new 0 [0x61, 0] .utf16le, .appendInt 0 97] 0).validEncoding T = false ∧
    (run T [.newScanned 0 [] .usAscii, .appendInt 0 0xE9] 0).bytes = [0xC3, 0xA9] ∧
    (run T [.newScanned 0 [] .usAscii, .appendInt 0 0xE9] 0).validEncoding T = true ∧
    ¬ Valid T .usAscii [0xC3, 0xA9] := by
  refine ⟨by decide +kernel, by decide +kernel, by simp [Valid], by decide +kernel,
    by decide +kernel, by decide +kernel, ?_⟩
  intro h
  exact absurd (h 0xC3 (by simp)) (by omega)

/-- `s = "\x81".force_encoding("Shift_JIS"); s.valid_encoding?; s << 0x40`: the interpreter
answers true to `valid_encoding?`, compiled code false -/
theorem C117_compiled_append_fails :
    (run T [.new 0 [0x81] (.sjis 0), .query 0, .appendInt 0 0x40] 0).validEncoding T = true ∧
    (run T [.new 0 [0x81] (.sjis 0), .query 0, .jitAppendByte 0 0x40] 0).validEncoding T = false ∧
    (run T [.new 0 [0x81] (.sjis 0), .query 0, .appendInt 0 0x40] 0).bytes =
      (run T [.new 0 [0x81] (.sjis 0), .query 0, .jitAppendByte 0 0x40] 0).bytes := by
  decide +kernel

/-- `"".encode("UTF-16LE").ljust(1)` is the single byte of a blank and answers true to
`ascii_only?` and `valid_encoding?` -/
theorem C117_pad_fails :
    (run T [.newScanned 0 [] .utf16le, .newScanned 1 [0x20] .utf8, .pad 2 0 1 1 .left] 2).bytes = [0x20] ∧
    (run T [.newScanned 0 [] .utf16le, .newScanned 1 [0x20] .utf8, .pad 2 0 1 1 .left] 2).enc = .utf16le ∧
    (run T [.newScanned 0 [] .utf16le, .newScanned 1 [0x20] .utf8, .pad 2 0 1 1 .left] 2).validEncoding T
      = true ∧
    ¬ Valid T .utf16le [0x20] := by
  refine ⟨by decide +kernel, by decide +kernel, by decide +kernel, by simp [Valid]⟩

/-- A UTF-16 string and an object whose `to_s` is no String in one interpolation: the sum of an even
and an odd number of bytes, and `valid_encoding?` is true. -/
theorem C117_interpolation_fails :
    (run T [.new 0 [0x61, 0] .utf16le, .interp 1 [.inl 0, .inr [0x23]]] 1).bytes = [0x61, 0, 0x23] ∧
    (run T [.new 0 [0x61, 0] .utf16le, .interp 1 [.inl 0, .inr [0x23]]] 1).enc = .utf16le ∧
    (run T [.new 0 [0x61, 0] .utf16le, .interp 1 [.inl 0, .inr [0x23]]] 1).validEncoding T = true ∧
    ¬ Valid T .utf16le [0x61, 0, 0x23] := by
  refine ⟨by decide +kernel, by decide +kernel, by decide +kernel, by simp [Valid]⟩

end Verif.Str
