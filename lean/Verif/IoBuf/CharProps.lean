import Verif.IoBuf.IoProps

/-!
# C44: characters are not cut

`charSpec` and `limitSpec` are stated with the tables the program uses.  Here they are compared
with UTF-8 itself: on a text of UTF-8 characters, `getc` takes exactly the next character, and a
line cut by a limit is cut behind a whole character.
-/

namespace Verif.IoBuf

/-- A byte that continues a character. -/
def IsCont (b : Byte) : Prop := 0x80 ≤ b.toNat ∧ b.toNat < 0xc0

/-- The byte sequences of one character, one to four bytes (RFC 3629, without the exclusion of
overlong and surrogate forms, which the readers do not check). -/
inductive Utf8Char : List Byte → Prop where
  | one {a} : a.toNat < 0x80 → Utf8Char [a]
  | two {a b} : 0xc0 ≤ a.toNat → a.toNat < 0xe0 → IsCont b → Utf8Char [a, b]
  | three {a b c} : 0xe0 ≤ a.toNat → a.toNat < 0xf0 → IsCont b → IsCont c → Utf8Char [a, b, c]
  | four {a b c d} : 0xf0 ≤ a.toNat → a.toNat < 0xf8 → IsCont b → IsCont c → IsCont d →
      Utf8Char [a, b, c, d]

theorem byte_all (P : Byte → Bool) (h : (List.range 256).all (fun n => P (UInt8.ofNat n)) = true)
    (b : Byte) : P b = true := by
  have hb : b.toNat < 256 := b.toNat_lt
  have := List.all_eq_true.1 h b.toNat (List.mem_range.2 hb)
  rwa [UInt8.ofNat_toNat] at this

theorem charTotal_table (b : Byte) :
    charTotal b = if b.toNat < 0x80 then 1 else if b.toNat < 0xc0 then 1
      else if b.toNat < 0xe0 then 2 else if b.toNat < 0xf0 then 3 else if b.toNat < 0xf8 then 4
      else 1 := by
  have := byte_all (fun b => decide (charTotal b = if b.toNat < 0x80 then 1
    else if b.toNat < 0xc0 then 1 else if b.toNat < 0xe0 then 2 else if b.toNat < 0xf0 then 3
    else if b.toNat < 0xf8 then 4 else 1)) (by decide +kernel) b
  simpa using this

theorem utf8Need_table (b : Byte) :
    utf8Need b = if b.toNat < 0x80 then 1 else if b.toNat < 0xc0 then 1
      else if b.toNat < 0xe0 then 2 else if b.toNat < 0xf0 then 3 else if b.toNat < 0xf8 then 4
      else 1 := by
  have := byte_all (fun b => decide (utf8Need b = if b.toNat < 0x80 then 1
    else if b.toNat < 0xc0 then 1 else if b.toNat < 0xe0 then 2 else if b.toNat < 0xf0 then 3
    else if b.toNat < 0xf8 then 4 else 1)) (by decide +kernel) b
  simpa using this

theorem cont_mask (b : Byte) : (b &&& 0xc0 = 0x80) ↔ IsCont b := by
  have := byte_all (fun b => decide ((b &&& 0xc0 = 0x80) ↔ (0x80 ≤ b.toNat ∧ b.toNat < 0xc0)))
    (by decide +kernel) b
  unfold IsCont; exact of_decide_eq_true this

/-- **C44, `getc`.**  On a stream that starts with a UTF-8 character, `getc` returns exactly that
character. -/
theorem C44_getc_whole_character {c rest : List Byte} (h : Utf8Char c) :
    charSpec (c ++ rest) = (c, rest) := by
  cases h with
  | one h1 =>
    simp only [List.cons_append, List.nil_append, charSpec, charTotal_table]
    rw [if_pos h1]; rfl
  | two h1 h2 _ =>
    simp only [List.cons_append, List.nil_append, charSpec, charTotal_table]
    rw [if_neg (by omega), if_neg (by omega), if_pos h2]; rfl
  | three h1 h2 _ _ =>
    simp only [List.cons_append, List.nil_append, charSpec, charTotal_table]
    rw [if_neg (by omega), if_neg (by omega), if_neg (by omega), if_pos h2]; rfl
  | four h1 h2 _ _ _ =>
    simp only [List.cons_append, List.nil_append, charSpec, charTotal_table]
    rw [if_neg (by omega), if_neg (by omega), if_neg (by omega), if_neg (by omega), if_pos h2]; rfl

/-- How many bytes are missing after a prefix of a character. -/
theorem missing_prefix {c p q pre : List Byte} (h : Utf8Char c) (hc : c = p ++ q) (hp : p ≠ []) :
    utf8Missing (pre ++ p) = q.length := by
  have cm : ∀ {b : Byte}, IsCont b → (b &&& 0xc0 = 0x80) := fun h => (cont_mask _).2 h
  have ncm : ∀ {b : Byte}, ¬ IsCont b → ¬ (b &&& 0xc0 = 0x80) := fun h h' => h ((cont_mask _).1 h')
  cases p with
  | nil => exact absurd rfl hp
  | cons x p =>
    unfold utf8Missing
    cases h with
    | one h1 =>
      simp only [List.cons_append, List.cons.injEq] at hc
      obtain ⟨rfl, hc⟩ := hc
      obtain ⟨rfl, rfl⟩ := List.append_eq_nil_iff.1 hc.symm
      rw [List.reverse_append]
      simp only [List.reverse_singleton, List.singleton_append, utf8MissingLoop]
      rw [if_neg (ncm (by unfold IsCont; omega)), utf8Need_table, if_pos h1]; rfl
    | two h1 h2 h3 =>
      simp only [List.cons_append, List.cons.injEq] at hc
      obtain ⟨rfl, hc⟩ := hc
      rename_i a b
      have hn : utf8Need a = 2 := by
        rw [utf8Need_table, if_neg (by omega), if_neg (by omega), if_pos h2]
      have hl : ¬ (a &&& 0xc0 = 0x80) := ncm (by unfold IsCont; omega)
      rcases p with _ | ⟨y, p⟩
      · simp only [List.nil_append] at hc
        subst hc
        rw [List.reverse_append]
        simp [utf8MissingLoop, hl, hn]
      · simp only [List.cons_append, List.cons.injEq] at hc
        obtain ⟨rfl, hc⟩ := hc
        obtain ⟨rfl, rfl⟩ := List.append_eq_nil_iff.1 hc.symm
        rw [List.reverse_append]
        simp [utf8MissingLoop, hl, hn, cm h3]
    | three h1 h2 h3 h4 =>
      simp only [List.cons_append, List.cons.injEq] at hc
      obtain ⟨rfl, hc⟩ := hc
      rename_i a b c
      have hn : utf8Need a = 3 := by
        rw [utf8Need_table, if_neg (by omega), if_neg (by omega), if_neg (by omega), if_pos h2]
      have hl : ¬ (a &&& 0xc0 = 0x80) := ncm (by unfold IsCont; omega)
      rcases p with _ | ⟨y, _ | ⟨z, p⟩⟩
      · simp only [List.nil_append] at hc
        subst hc
        rw [List.reverse_append]
        simp [utf8MissingLoop, hl, hn]
      · simp only [List.cons_append, List.nil_append, List.cons.injEq] at hc
        obtain ⟨rfl, rfl⟩ := hc
        rw [List.reverse_append]
        simp [utf8MissingLoop, hl, hn, cm h3]
      · simp only [List.cons_append, List.cons.injEq] at hc
        obtain ⟨rfl, rfl, hc⟩ := hc
        obtain ⟨rfl, rfl⟩ := List.append_eq_nil_iff.1 hc.symm
        rw [List.reverse_append]
        simp [utf8MissingLoop, hl, hn, cm h3, cm h4]
    | four h1 h2 h3 h4 h5 =>
      simp only [List.cons_append, List.cons.injEq] at hc
      obtain ⟨rfl, hc⟩ := hc
      rename_i a b c d
      have hn : utf8Need a = 4 := by
        rw [utf8Need_table, if_neg (by omega), if_neg (by omega), if_neg (by omega),
          if_neg (by omega), if_pos h2]
      have hl : ¬ (a &&& 0xc0 = 0x80) := ncm (by unfold IsCont; omega)
      rcases p with _ | ⟨y, _ | ⟨z, _ | ⟨w, p⟩⟩⟩
      · simp only [List.nil_append] at hc
        subst hc
        rw [List.reverse_append]
        simp [utf8MissingLoop, hl, hn]
      · simp only [List.cons_append, List.nil_append, List.cons.injEq] at hc
        obtain ⟨rfl, rfl⟩ := hc
        rw [List.reverse_append]
        simp [utf8MissingLoop, hl, hn, cm h3]
      · simp only [List.cons_append, List.nil_append, List.cons.injEq] at hc
        obtain ⟨rfl, rfl, rfl⟩ := hc
        rw [List.reverse_append]
        simp [utf8MissingLoop, hl, hn, cm h3, cm h4]
      · simp only [List.cons_append, List.cons.injEq] at hc
        obtain ⟨rfl, rfl, rfl, hc⟩ := hc
        obtain ⟨rfl, rfl⟩ := List.append_eq_nil_iff.1 hc.symm
        rw [List.reverse_append]
        simp [utf8MissingLoop, cm h3, cm h4, cm h5]

theorem complSpec_char {c : List Byte} (h : Utf8Char c) (pre r : List Byte) (q : List Byte) :
    ∀ (k : Nat) (p : List Byte), c = p ++ q → p ≠ [] → q.length ≤ k →
      complSpec k (pre ++ p) (q ++ r) = (pre ++ c, r) := by
  induction q with
  | nil =>
    intro k p hc hp hk
    rw [List.append_nil] at hc
    subst hc
    cases k with
    | zero => rfl
    | succ k =>
      unfold complSpec
      rw [if_pos (show utf8Missing (pre ++ c) = 0 from missing_prefix (q := []) h (by simp) hp)]
      rfl
  | cons b q ih =>
    intro k p hc hp hk
    cases k with
    | zero => simp at hk
    | succ k =>
      unfold complSpec
      rw [if_neg (by rw [missing_prefix h hc hp]; simp)]
      show complSpec k (pre ++ p ++ [b]) (q ++ r) = _
      rw [List.append_assoc]
      exact ih k (p ++ [b]) (by rw [hc]; simp) (by simp) (by simpa using hk)

theorem utf8Char_length {c : List Byte} (h : Utf8Char c) : 1 ≤ c.length ∧ c.length ≤ 4 := by
  cases h <;> simp

/-- **C44, limits.**  A line of a UTF-8 text cut at `n` bytes is completed to whole characters:
the shortest run of characters of at least `n` bytes. -/
theorem C44_limit_whole_characters (cs : List (List Byte)) (hcs : ∀ c ∈ cs, Utf8Char c) :
    ∀ (n : Nat), n ≠ 0 → n ≤ cs.flatten.length → ∀ pre,
      ∃ k, limitSpec true (pre ++ cs.flatten.take n) (cs.flatten.drop n)
          = (pre ++ (cs.take k).flatten, (cs.drop k).flatten) ∧
        n ≤ (cs.take k).flatten.length ∧
        ∀ j, j < k → (cs.take j).flatten.length < n := by
  induction cs with
  | nil =>
    intro n hn hle
    simp at hle
    exact absurd hle hn
  | cons c cs ih =>
    intro n hn hle pre
    have hc := hcs c List.mem_cons_self
    have hl := utf8Char_length hc
    rcases Nat.lt_or_ge c.length n with hlt | hge
    · -- past this character
      obtain ⟨k, k1, k2, k3⟩ := ih (fun d hd => hcs d (List.mem_cons_of_mem _ hd)) (n - c.length)
        (by omega) (by rw [List.flatten_cons, List.length_append] at hle; omega) (pre ++ c)
      refine ⟨k + 1, ?_, ?_, ?_⟩
      · have e1 : (c :: cs).flatten.take n = c ++ cs.flatten.take (n - c.length) := by
          rw [List.flatten_cons, List.take_append, List.take_of_length_le (by omega)]
        have e2 : (c :: cs).flatten.drop n = cs.flatten.drop (n - c.length) := by
          rw [List.flatten_cons, List.drop_append, List.drop_eq_nil_of_le (by omega),
            List.nil_append]
        rw [e1, e2, ← List.append_assoc, k1]
        simp
      · simp; simp at k2; omega
      · intro j hj
        cases j with
        | zero => simp; omega
        | succ j =>
          have := k3 j (by omega)
          simp; simp at this; omega
    · -- cut inside this character, or right behind it
      refine ⟨1, ?_, ?_, ?_⟩
      · have e1 : (c :: cs).flatten.take n = c.take n := by
          rw [List.flatten_cons, List.take_append_of_le_length hge]
        have e2 : (c :: cs).flatten.drop n = c.drop n ++ cs.flatten := by
          rw [List.flatten_cons, List.drop_append_of_le_length hge]
        rw [e1, e2]
        unfold limitSpec
        rw [if_pos rfl, complSpec_char hc pre cs.flatten (c.drop n) 16 (c.take n)
          (by rw [List.take_append_drop]) (by
            intro h
            have := congrArg List.length h
            rw [List.length_take, List.length_nil] at this
            omega) (by rw [List.length_drop]; omega)]
        simp
      · simp; omega
      · intro j hj
        have : j = 0 := by omega
        subst this
        simp; omega

/-- `"aé漢😀"`. -/
example : ∀ c ∈ [[97], [0xc3, 0xa9], [0xe6, 0xbc, 0xa2], [0xf0, 0x9f, 0x98, 0x80]],
    Utf8Char c := by
  intro c hc
  simp only [List.mem_cons, List.not_mem_nil, or_false] at hc
  rcases hc with rfl | rfl | rfl | rfl
  · exact .one (by decide)
  · exact .two (by decide) (by decide) (by unfold IsCont; decide)
  · exact .three (by decide) (by decide) (by unfold IsCont; decide) (by unfold IsCont; decide)
  · exact .four (by decide) (by decide) (by unfold IsCont; decide) (by unfold IsCont; decide)
      (by unfold IsCont; decide)

end Verif.IoBuf
