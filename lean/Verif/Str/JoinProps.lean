import Verif.Str.CharProps

/-! # Joining, repairing and padding strings -/

namespace Verif.Str

variable {iso : List Nat → Bool}

/-! ## C120: encodings of joined strings -/

/-- When two strings can be joined: same encoding, or one is empty, or both encodings contain ASCII
and one of the strings answers true to `ascii_only?`.  Otherwise `<<` and `+` raise, and the
receiver keeps its bytes and encoding. -/
theorem C120_when_joinable (iso : List Nat → Bool) (a b : S) :
    ((extend iso a b).1 = true ↔
      a.enc = b.enc ∨ a.bytes = [] ∨ b.bytes = [] ∨
      (a.enc.asciiCompat = true ∧ b.enc.asciiCompat = true ∧
        (a.asciiOnly iso = true ∨ b.asciiOnly iso = true))) ∧
    ((extend iso a b).1 = false →
      (extend iso a b).2.1.bytes = a.bytes ∧ (extend iso a b).2.1.enc = a.enc) := by
  unfold extend compatEnc
  by_cases hb : b.bytes = []
  · simp [hb]
  · by_cases he : a.enc = b.enc
    · simp [hb, he]
    · by_cases ha : a.bytes = []
      · simp only [hb, he, ha, if_false, and_false, if_true]
        split_ifs <;> simp
      · simp only [hb, he, ha, if_false, and_false, false_or]
        unfold compatible S.asciiOnly
        rw [if_neg he]
        by_cases h1 : a.enc.asciiCompat = true <;> by_cases h2 : b.enc.asciiCompat = true <;>
          by_cases h3 : a.codeRange iso = .sevenBit <;> by_cases h4 : b.codeRange iso = .sevenBit <;>
          simp [h1, h2, h3, h4, S.query]

/-- The joined string has the bytes of both, one after the other.  Its encoding is the receiver's,
unless the receiver's text fits into the other's encoding only. -/
theorem C120_joined (iso : List Nat → Bool) (a b : S) (h : (extend iso a b).1 = true) :
    (extend iso a b).2.1.bytes = a.bytes ++ b.bytes ∧
    ((extend iso a b).2.1.enc = a.enc ∨
      ((extend iso a b).2.1.enc = b.enc ∧ b.bytes ≠ [] ∧
        ((a.bytes = [] ∧ ¬ (a.enc.asciiCompat = true ∧ b.asciiOnly iso = true)) ∨
         (a.asciiOnly iso = true ∧ b.asciiOnly iso = false)))) := by
  revert h
  unfold extend compatEnc
  by_cases hb : b.bytes = []
  · simp [hb]
  · by_cases he : a.enc = b.enc
    · simp [hb, he, S.query]
    · by_cases ha : a.bytes = []
      · simp only [hb, he, ha, if_false, and_false, if_true]
        split_ifs <;> simp_all [S.query, S.asciiOnly]
      · simp only [hb, he, ha, if_false, and_false]
        unfold compatible S.asciiOnly
        rw [if_neg he]
        by_cases h1 : a.enc.asciiCompat = true <;> by_cases h2 : b.enc.asciiCompat = true <;>
          by_cases h3 : a.codeRange iso = .sevenBit <;> by_cases h4 : b.codeRange iso = .sevenBit <;>
          simp [h1, h2, h3, h4, hb, S.query]

theorem fits_chars {x : S} {e : Enc} (hx : Sound iso x) (hf : Fits iso x e) :
    chars e x.bytes = chars x.enc x.bytes := by
  rcases hf with h | h | h
  · rw [h]
  · rw [h]; rfl
  · rcases classify_seven.mp (hx.seven h.1) with h0 | h0
    · rw [h0]; rfl
    · rw [chars_ascii h.2 h0.2, chars_ascii h0.1 h0.2]

/-- Two valid strings of a `fine` program, once joined, are valid, and the characters are those of
the first and then those of the second. -/
theorem C120_characters (iso : List Nat → Bool) (ops : List Op)
    (hf : fineFrom iso (fun _ => ⟨[], .utf8, .sevenBit⟩) ops) (i j : Nat) (a b : S)
    (ha : run iso ops i = a) (hb : run iso ops j = b)
    (na : a.enc ≠ .iso2022Jp) (nb : b.enc ≠ .iso2022Jp)
    (va : Valid iso a.enc a.bytes) (vb : Valid iso b.enc b.bytes) (h : (extend iso a b).1 = true) :
    let r := (extend iso a b).2.1
    Valid iso r.enc r.bytes ∧ chars r.enc r.bytes = chars a.enc a.bytes ++ chars b.enc b.bytes := by
  have sa : Sound iso a := ha ▸ run_sound hf i
  have sb : Sound iso b := hb ▸ run_sound hf j
  have wa := (classify_broken na).mp ((classify_valid iso a.enc a.bytes).mpr va)
  have wb := (classify_broken nb).mp ((classify_valid iso b.enc b.bytes).mpr vb)
  simp only
  revert h
  unfold extend
  by_cases hb0 : b.bytes = []
  · rw [if_pos hb0]
    intro _
    refine ⟨va, ?_⟩
    simp only [hb0]
    rw [show chars b.enc [] = [] from rfl, List.append_nil]
  · rw [if_neg hb0]
    rcases hce : compatEnc iso a b with ⟨_ | e, a1, b1⟩
    · simp
    · intro _
      obtain ⟨h1, h2, s1, s2⟩ := compat_side hce
      obtain ⟨e1, e2, e3, _⟩ := touched_bytes h1
      obtain ⟨f1, f2, f3, f4⟩ := touched_bytes h2
      simp only [query_bytes, e1, f1]
      have hne : e ≠ .iso2022Jp := by
        rcases s2 with s | s | s
        · rw [← s]; exact nb
        · exact absurd s hb0
        · intro he; rw [he] at s; simp [Enc.asciiCompat] at s
      have known : ∀ x : S, Sound iso x → x.enc ≠ .iso2022Jp → Wf (code x.enc) x.bytes →
          x.codeRange iso = .sevenBit ∨ x.codeRange iso = .valid := by
        intro x hx hn hw
        have := codeRange_ne_unknown (iso := iso) x
        cases hc : x.codeRange iso with
        | unknown => exact absurd hc this
        | sevenBit => exact Or.inl rfl
        | valid => exact Or.inr rfl
        | broken => exact absurd (hx.broken hc) ((classify_broken hn).mpr hw)
      have wa' := sa.side hne s1 (known a sa na wa)
      have wb' := sb.side hne s2 (known b sb nb wb)
      refine ⟨(classify_valid iso e _).mp ((classify_broken hne).mpr (wa'.append wb')), ?_⟩
      rw [chars_append hne wa' wb', fits_chars sa s1, fits_chars sb s2]

example : (extend T ⟨[0x61], .utf8, .unknown⟩ ⟨[0x82, 0xA0], .sjis 0, .unknown⟩).2.1 =
    ⟨[0x61, 0x82, 0xA0], .sjis 0, .valid⟩ ∧
    (extend T ⟨[0xC3, 0xA9], .utf8, .unknown⟩ ⟨[0x82, 0xA0], .sjis 0, .unknown⟩).1 = false := by
  decide +kernel

/-- `"éa"[1] + "あ".encode("Shift_JIS")` raises, while `"a" + …` does not: the first string is "a",
but known only as valid. -/
theorem C120_cut_ascii_fails :
    (run T [.new 0 [0xC3, 0xA9, 0x61] .utf8, .substr 1 0 2 3] 1).bytes = [0x61] ∧
    (extend T (run T [.new 0 [0xC3, 0xA9, 0x61] .utf8, .substr 1 0 2 3] 1)
      ⟨[0x82, 0xA0], .sjis 0, .unknown⟩).1 = false ∧
    (extend T ⟨[0x61], .utf8, .unknown⟩ ⟨[0x82, 0xA0], .sjis 0, .unknown⟩).1 = true := by
  decide +kernel

/-- Compiled `<<` with a String does what the interpreter does: when it does not leave the work to
the interpreter's code, the bytes and the encoding are the same, and both are allowed. -/
theorem C120_compiled_append (iso : List Nat → Bool) (a b t : S) (h : jitAppend a b = some t) :
    (extend iso a b).1 = true ∧ (extend iso a b).2.1.bytes = t.bytes ∧ (extend iso a b).2.1.enc = t.enc := by
  obtain ⟨ht, hf, hne⟩ := jitAppend_fits (iso := iso) h
  have hj : (extend iso a b).1 = true := by
    rw [(C120_when_joinable iso a b).1]
    rcases hf with h1 | h1 | h1
    · exact Or.inl h1.symm
    · exact Or.inr (Or.inr (Or.inl h1))
    · by_cases he : a.enc = b.enc
      · exact Or.inl he
      · refine Or.inr (Or.inr (Or.inr ⟨h1.2, ?_, Or.inr (by simp [S.asciiOnly, h1.1])⟩))
        unfold jitAppend at h
        split_ifs at h with g1 g2 g3 g4
        · exact absurd (tag_eq g1 g2) he
        · exact tag_compat g4
  have hb := C120_joined iso a b hj
  refine ⟨hj, by rw [hb.1, ht], ?_⟩
  rw [ht]
  simp only
  rcases hb.2 with h1 | ⟨h1, h2, h3⟩
  · exact h1
  · rcases hf with g | g | g
    · rw [h1, g]
    · exact absurd g h2
    · rcases h3 with h3 | h3
      · exact absurd ⟨g.2, by simp [S.asciiOnly, g.1]⟩ h3.2
      · simp [S.asciiOnly, g.1] at h3

example : jitAppend ⟨[0xC3, 0xA9], .utf8, .valid⟩ ⟨[0x61], .usAscii, .sevenBit⟩ =
    some ⟨[0xC3, 0xA9, 0x61], .utf8, .valid⟩ := by decide

/-! ## C121: scrub -/

/-- `o` is `bs` with every character kept and every invalid piece replaced; no character begins
inside a piece that is replaced. -/
inductive Scrubbed (w : List Nat → Option Nat) (repl : List Nat) : List Nat → List Nat → Prop where
  | nil : Scrubbed w repl [] []
  | keep (c r o : List Nat) : c ≠ [] → w (c ++ r) = some c.length → Scrubbed w repl r o →
      Scrubbed w repl (c ++ r) (c ++ o)
  | drop (f r o : List Nat) : f ≠ [] → (∀ n, n < f.length → w (f.drop n ++ r) = none) →
      Scrubbed w repl r o → Scrubbed w repl (f ++ r) (repl ++ o)

theorem Scrubbed.wf {w} (hw : Code w) {repl bs o} (h : Scrubbed w repl bs o) (hr : Wf w repl) : Wf w o := by
  induction h with
  | nil => exact Wf.nil
  | keep c r o h0 h1 _ ih =>
    refine Wf.cons c o h0 ?_ ih
    have := hw.take h1
    rwa [List.take_left' rfl] at this
  | drop f r o h0 _ _ ih => exact hr.append ih

theorem scrubW_spec {w} (hw : Code w) {repl} : ∀ n bs, bs.length ≤ n → Scrubbed w repl bs (scrubW w repl n bs) := by
  intro n
  induction n with
  | zero =>
    intro bs hb
    have : bs = [] := List.length_eq_zero_iff.mp (by omega)
    subst this; exact Scrubbed.nil
  | succ n ih =>
    intro bs hb
    cases bs with
    | nil => exact Scrubbed.nil
    | cons b t =>
      simp only [scrubW]
      cases h : w (b :: t) with
      | none =>
        exact Scrubbed.drop [b] t _ (by simp) (fun n hn => by
          have : n = 0 := by simp at hn; omega
          subst this; simpa using h) (ih t (by simp only [List.length_cons] at hb; omega))
      | some k =>
        simp only
        have hp := hw.pos _ _ h
        have hl : ((b :: t).take k).length = k := by rw [List.length_take]; omega
        have := Scrubbed.keep (w := w) (repl := repl) ((b :: t).take k) ((b :: t).drop k) _
          (by intro h0; rw [h0] at hl; simp at hl; omega)
          (by rw [List.take_append_drop, hl]; exact h)
          (ih ((b :: t).drop k) (by rw [List.length_drop]; simp only [List.length_cons] at *; omega))
        rwa [List.take_append_drop] at this

theorem u8w_cont {b : Nat} (h : cont b = true) (t : List Nat) : u8w (b :: t) = none := by
  simp only [cont, Bool.and_eq_true, decide_eq_true_eq] at h
  simp only [u8w]
  rw [if_neg (by omega), if_neg (by omega), if_neg (by omega), if_neg (by omega)]

theorem ok_cont {a b : Nat} : (ok3 a b = true → cont b = true) ∧ (ok4 a b = true → cont b = true) := by
  constructor
  · intro h
    unfold ok3 at h
    split_ifs at h <;> simp_all [cont] <;> omega
  · intro h
    unfold ok4 at h
    split_ifs at h <;> simp_all [cont] <;> omega

/-- the bytes of an invalid piece after the first are continuation bytes -/
theorem badLen_spec {b : Nat} {t : List Nat} (h : u8w (b :: t) = none) :
    0 < badLen (b :: t) ∧ badLen (b :: t) ≤ (b :: t).length ∧
    ∀ n, n < badLen (b :: t) → u8w ((b :: t).drop n) = none := by
  have one : (0 : Nat) < 1 ∧ 1 ≤ (b :: t).length ∧ ∀ n, n < 1 → u8w ((b :: t).drop n) = none :=
    ⟨by omega, by simp, fun n hn => by
      have : n = 0 := by omega
      subst this; exact h⟩
  have two : ∀ b1 r, t = b1 :: r → cont b1 = true →
      (0 : Nat) < 2 ∧ 2 ≤ (b :: t).length ∧ ∀ n, n < 2 → u8w ((b :: t).drop n) = none := by
    intro b1 r ht hc
    refine ⟨by omega, by simp [ht], fun n hn => ?_⟩
    rcases n with _ | _ | n
    · exact h
    · subst ht; exact u8w_cont hc r
    · omega
  simp only [badLen]
  split_ifs with h1 h2
  · rcases t with _ | ⟨b1, r⟩ <;> simp only
    · exact one
    · split_ifs with g
      · exact two b1 r rfl (ok_cont.1 g)
      · exact one
  · rcases t with _ | ⟨b1, _ | ⟨b2, r⟩⟩ <;> simp only
    · exact one
    · split_ifs with g
      · exact two b1 [] rfl (ok_cont.2 g)
      · exact one
    · split_ifs with g g2
      · refine ⟨by omega, by simp, fun n hn => ?_⟩
        rcases n with _ | _ | _ | n
        · exact h
        · exact u8w_cont (ok_cont.2 g) _
        · exact u8w_cont g2 r
        · omega
      · exact two b1 _ rfl (ok_cont.2 g)
      · exact one
  · exact one

theorem scrubUtf8_spec {repl} : ∀ n bs, bs.length ≤ n → Scrubbed u8w repl bs (scrubUtf8 repl n bs) := by
  intro n
  induction n with
  | zero =>
    intro bs hb
    have : bs = [] := List.length_eq_zero_iff.mp (by omega)
    subst this; exact Scrubbed.nil
  | succ n ih =>
    intro bs hb
    cases bs with
    | nil => exact Scrubbed.nil
    | cons b t =>
      simp only [scrubUtf8]
      cases h : u8w (b :: t) with
      | none =>
        simp only
        obtain ⟨p1, p2, p3⟩ := badLen_spec h
        generalize badLen (b :: t) = k at *
        have hl : ((b :: t).take k).length = k := by rw [List.length_take]; omega
        have := Scrubbed.drop (w := u8w) (repl := repl) ((b :: t).take k) ((b :: t).drop k) _
          (by intro h0; rw [h0] at hl; simp at hl; omega)
          (fun m hm => by
            have hmk : m < k := by omega
            have hd : (b :: t).drop m = ((b :: t).take k).drop m ++ (b :: t).drop k := by
              conv_lhs => rw [← List.take_append_drop k (b :: t)]
              rw [List.drop_append_of_le_length (by omega)]
            rw [← hd]; exact p3 m hmk)
          (ih ((b :: t).drop k) (by rw [List.length_drop]; simp only [List.length_cons] at *; omega))
        rwa [List.take_append_drop] at this
      | some k =>
        simp only
        have hp := u8w_code.pos _ _ h
        have hl : ((b :: t).take k).length = k := by rw [List.length_take]; omega
        have := Scrubbed.keep (w := u8w) (repl := repl) ((b :: t).take k) ((b :: t).drop k) _
          (by intro h0; rw [h0] at hl; simp at hl; omega)
          (by rw [List.take_append_drop, hl]; exact h)
          (ih ((b :: t).drop k) (by rw [List.length_drop]; simp only [List.length_cons] at *; omega))
        rwa [List.take_append_drop] at this

theorem scrubAscii_spec {repl} : ∀ bs : List Nat,
    Scrubbed asciiw repl bs (bs.flatMap (fun b => if b < 0x80 then [b] else repl))
  | [] => Scrubbed.nil
  | b :: t => by
    rw [List.flatMap_cons]
    split_ifs with h
    · exact Scrubbed.keep [b] t _ (by simp) (by simp [asciiw, h]) (scrubAscii_spec t)
    · exact Scrubbed.drop [b] t _ (by simp) (fun n hn => by
        have : n = 0 := by simp at hn; omega
        subst this; simp [asciiw, h]) (scrubAscii_spec t)

/-- a text with no invalid piece is left as it is -/
theorem Scrubbed.id {w} (hw : Code w) {repl bs o} (h : Scrubbed w repl bs o) (hv : Wf w bs) : o = bs := by
  induction h with
  | nil => rfl
  | keep c r o h0 h1 _ ih =>
    obtain ⟨k, hk, h2⟩ := hv.inv hw (by simp [h0])
    rw [h1] at hk
    cases hk
    rw [List.drop_left' rfl] at h2
    rw [ih h2]
  | drop f r o h0 h1 _ _ =>
    obtain ⟨k, hk, _⟩ := hv.inv hw (by simp [h0])
    have := h1 0 (by cases f <;> simp_all)
    rw [List.drop_zero, hk] at this
    simp at this

/-- `scrub` keeps every character and replaces every invalid piece, whole; a valid string stays as it
is.  Partial: strings in UTF-16 and UTF-32 are returned as they are (`C121_utf16_fails`). -/
theorem C121_scrub_partial (iso : List Nat → Bool) (ops : List Op)
    (hf : fineFrom iso (fun _ => ⟨[], .utf8, .sevenBit⟩) ops) (k : Nat) (s : S) (hrun : run iso ops k = s)
    (repl : List Nat) :
    (Valid iso s.enc s.bytes → (scrub iso s repl).bytes = s.bytes) ∧
    (scrub iso s repl).enc = s.enc ∧
    ((s.enc = .utf8 ∨ s.enc = .usAscii ∨ s.enc = .eucJp ∨ ∃ n, s.enc = .sjis n) →
      Scrubbed (code s.enc) repl s.bytes (scrub iso s repl).bytes ∧
      (Valid iso s.enc repl → Valid iso s.enc (scrub iso s repl).bytes)) := by
  have hs : Sound iso s := hrun ▸ run_sound hf k
  have hv : s.validEncoding iso = true ↔ Valid iso s.enc s.bytes := by
    have := (C117_valid_partial iso ops hf k).1
    rwa [hrun] at this
  have hspec : (s.enc = .utf8 ∨ s.enc = .usAscii ∨ s.enc = .eucJp ∨ ∃ n, s.enc = .sjis n) →
      Scrubbed (code s.enc) repl s.bytes (scrub iso s repl).bytes := by
    intro he
    have hne : s.enc ≠ .iso2022Jp := by
      rcases he with h | h | h | ⟨n, h⟩ <;> rw [h] <;> simp
    have hsame : Wf (code s.enc) s.bytes → Scrubbed (code s.enc) repl s.bytes s.bytes := by
      intro hw
      have h1 := scrubW_spec (code_code s.enc) (repl := repl) _ s.bytes (Nat.le_refl _)
      rwa [h1.id (code_code _) hw] at h1
    unfold scrub
    by_cases h : s.validEncoding iso = true
    · rw [if_pos h]
      exact hsame ((classify_broken hne).mp ((classify_valid iso _ _).mpr (hv.mp h)))
    · rw [if_neg h]
      rcases he with h | h | h | ⟨n, h⟩ <;> simp only [h, code]
      · exact scrubUtf8_spec _ _ (Nat.le_refl _)
      · exact scrubAscii_spec _
      · exact scrubW_spec eucw_code _ _ (Nat.le_refl _)
      · exact scrubW_spec sjisw_code _ _ (Nat.le_refl _)
  refine ⟨?_, ?_, fun he => ⟨hspec he, fun hr => ?_⟩⟩
  · intro h
    unfold scrub
    rw [if_pos (hv.mpr h)]
    rfl
  · unfold scrub
    split_ifs <;> rfl
  · have hne : s.enc ≠ .iso2022Jp := by
      rcases he with h | h | h | ⟨n, h⟩ <;> rw [h] <;> simp
    have hw := (classify_broken hne).mp ((classify_valid iso _ _).mpr hr)
    exact (classify_valid iso _ _).mp ((classify_broken hne).mpr ((hspec he).wf (code_code _) hw))

example : (scrub T ⟨[0x61, 0xE3, 0x81, 0x62, 0xFF, 0xC3, 0xA9], .utf8, .unknown⟩ [0x3F]).bytes =
    [0x61, 0x3F, 0x62, 0x3F, 0xC3, 0xA9] := by decide +kernel

/-- a UTF-16 string of one byte is not repaired -/
theorem C121_utf16_fails (repl : List Nat) :
    (scrub T ⟨[0x61], .utf16le, .unknown⟩ repl).bytes = [0x61] ∧ ¬ Valid T .utf16le [0x61] := by
  constructor
  · rfl
  · simp [Valid]

end Verif.Str
