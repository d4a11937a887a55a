import Verif.Symbol.Lemmas

/-!
# C19, C42, C43: Symbols are interned

A history is any sequence of acquisitions of the table's lock, by any threads in any order,
starting from the table the interpreter starts with.  `none` is a panic; a history that does
not panic may be as long as it likes.
-/

namespace Verif.Symbol

variable (lossy : ByteArray → String)

/-! ## One Symbol per name -/

/-- In every history, two answers are the same Symbol exactly when they were given the same
name: the same text, or the same bytes under the same encoding. -/
theorem C19_same_symbol_iff_same_name {ss : List Step} {as : List (Key × Nat)} {t : Table}
    (h : Table.new.run lossy ss = some (as, t)) :
    ∀ p ∈ as, ∀ q ∈ as, p.2 = q.2 ↔ p.1 = q.1 := by
  obtain ⟨hi, -, hf⟩ := run_spec lossy ss new_inv h
  intro p hp q hq
  constructor
  · intro e
    exact find_inj hi (hf p hp) (by rw [hf q hq, e])
  · intro e
    have h1 := hf p hp
    rw [e, hf q hq] at h1
    simpa using h1.symm

/-- The name a Symbol reports is the one it was interned under, and stays so for as long as
the program runs. -/
theorem C19_name_reads_back {ss later : List Step} {as bs : List (Key × Nat)} {t u : Table}
    (h : Table.new.run lossy ss = some (as, t)) (h' : t.run lossy later = some (bs, u)) :
    (∀ s i, (Key.text s, i) ∈ as → u.name i = some (.utf8 s) ∧ u.encoding i = none) ∧
      ∀ b e i, (Key.bin b e, i) ∈ as → u.name i = some (.bytes b) ∧ u.encoding i = some e := by
  obtain ⟨hi, -, hf⟩ := run_spec lossy ss new_inv h
  obtain ⟨hi', he, -⟩ := run_spec lossy later hi h'
  constructor
  · intro s i hm
    have hn := (hi'.rev s i (he.find (hf _ hm))).2.2.1
    refine ⟨hn, ?_⟩
    cases hc : u.encoding i with
    | none => rfl
    | some e =>
      obtain ⟨_, _, b, hb⟩ := hi'.enc i e hc
      rw [hn] at hb; simp at hb
  · intro b e i hm
    obtain ⟨_, _, p, q⟩ := hi'.bytes b e i (he.find (hf _ hm))
    exact ⟨p, q⟩

/-- Interning a name again, however much later, answers the Symbol it was given before. -/
theorem C19_interning_again {ss later : List Step} {as bs : List (Key × Nat)} {t u : Table}
    (h : Table.new.run lossy ss = some (as, t)) (h' : t.run lossy later = some (bs, u)) :
    ∀ p ∈ as, u.intern p.1 = some (p.2, u) := by
  obtain ⟨hi, -, hf⟩ := run_spec lossy ss new_inv h
  obtain ⟨-, he, -⟩ := run_spec lossy later hi h'
  intro p hp
  exact intern_found (he.find (hf p hp))

/-- Looking a name up takes the lock twice: once to read and, if the name is not there, once
to write.  Whatever other threads intern between the two, and afterwards, the answer is the
Symbol every other answer for that name is, and no other name's. -/
theorem C19_lookup_is_atomic {ss mid later : List Step} {as bs cs : List (Key × Nat)}
    {t₁ t₂ t₃ u : Table} {s : String} {i : Nat}
    (h : Table.new.run lossy ss = some (as, t₁)) (h' : t₁.run lossy mid = some (bs, t₂))
    (hc : callGetId t₁ t₂ s = some (i, t₃)) (h'' : t₃.run lossy later = some (cs, u)) :
    ∀ p ∈ as ++ bs ++ cs, p.2 = i ↔ p.1 = .text s := by
  obtain ⟨hi, -, hf⟩ := run_spec lossy ss new_inv h
  obtain ⟨hi2, he2, hf2⟩ := run_spec lossy mid hi h'
  have h3 : Inv t₃ ∧ Ext t₂ t₃ ∧ find t₃ (.text s) = some i := by
    unfold callGetId at hc
    cases hp : t₁.peek s with
    | some j =>
      simp only [hp, Option.some.injEq, Prod.mk.injEq] at hc
      obtain ⟨rfl, rfl⟩ := hc
      exact ⟨hi2, Ext.refl _, he2.find (k := .text s) hp⟩
    | none =>
      simp only [hp] at hc
      exact getId_spec hi2 hc
  obtain ⟨hi3, he3, hk⟩ := h3
  obtain ⟨hi4, he4, hf4⟩ := run_spec lossy later hi3 h''
  have hk4 := he4.find hk
  intro p hp
  have hfp : find u p.1 = some p.2 := by
    rcases List.mem_append.mp hp with hp | hp
    · rcases List.mem_append.mp hp with hp | hp
      · exact he4.find (he3.find (he2.find (hf p hp)))
      · exact he4.find (he3.find (hf2 p hp))
    · exact hf4 p hp
  constructor
  · intro e
    exact find_inj hi4 hfp (by rw [hk4, e])
  · intro e
    rw [e, hk4] at hfp
    simpa using hfp.symm

/-- The premises hold when two threads miss `:foo` in the read phase and both go on to write:
the second finds what the first wrote. -/
example : ∃ t t₃, Table.new.run lossy [.peek "foo"] = some ([], Table.new) ∧
    Table.new.run lossy [.getId "foo", .fromBytes ⟨#[0xff]⟩ .ascii8] =
      some ([(.text "foo", 101), (.bin ⟨#[0xff]⟩ .ascii8, 102)], t) ∧
    callGetId Table.new t "foo" = some (101, t₃) := by
  refine ⟨addBin (addText Table.new "foo") ⟨#[0xff]⟩ .ascii8,
    addBin (addText Table.new "foo") ⟨#[0xff]⟩ .ascii8, ?_, ?_, ?_⟩
  · have : Table.new.peek "foo" = none := by decide +kernel
    simp [Table.run, Table.step, this]
  · have h1 : Table.new.rev.lookup "foo" = none := by decide +kernel
    have h2 : Table.new.freshId = some 101 := by decide +kernel
    have h3 : (addText Table.new "foo").freshId = some 102 := by decide +kernel
    have h4 : Table.new.getId "foo" = some (101, addText Table.new "foo") := by
      simp only [Table.getId, h1, h2]; rfl
    have h5 : (addText Table.new "foo").getIdFromBytes ⟨#[0xff]⟩ .ascii8 =
        some (102, addBin (addText Table.new "foo") ⟨#[0xff]⟩ .ascii8) := by
      have h6 : (addText Table.new "foo").revBytes.lookup (⟨#[0xff]⟩, .ascii8) = none := by
        decide +kernel
      simp only [Table.getIdFromBytes, h6, h3]; rfl
    simp [Table.run, Table.step, h4, h5]
  · have h1 : Table.new.peek "foo" = none := by decide +kernel
    have h2 : (addBin (addText Table.new "foo") ⟨#[0xff]⟩ .ascii8).rev.lookup "foo" = some 101 := by
      decide +kernel
    simp only [callGetId, h1, Table.getId, h2]

/-- Interning fails only when all 2^32 - 1 ids are taken: it panics, and never hands out an id
twice. -/
theorem C19_interning_fails_only_out_of_ids {ss : List Step} {as : List (Key × Nat)} {t : Table}
    (h : Table.new.run lossy ss = some (as, t)) (k : Key) :
    t.intern k = none ↔ (t.table.length = 2 ^ 32 - 1 ∧ ∀ i, find t k ≠ some i) := by
  obtain ⟨hi, -, -⟩ := run_spec lossy ss new_inv h
  have hs := hi.small
  constructor
  · intro hn
    refine ⟨?_, ?_⟩
    · apply Nat.le_antisymm (by omega)
      apply Nat.le_of_not_lt
      intro hc
      obtain ⟨i, u, e, _⟩ := intern_total (t := t) (by omega) k
      rw [e] at hn; simp at hn
    · intro i hf
      rw [intern_found hf] at hn; simp at hn
  · rintro ⟨hl, hf⟩
    have hfr : t.freshId = none := by
      unfold Table.freshId
      rw [hl]; rfl
    cases k with
    | text s =>
      cases hk : t.rev.lookup s with
      | some i => exact absurd hk (hf i)
      | none => simp [Table.intern, Table.getId, hk, hfr]
    | bin b e =>
      cases hk : t.revBytes.lookup (b, e) with
      | some i => exact absurd hk (hf i)
      | none => simp [Table.intern, Table.getIdFromBytes, hk, hfr]

/-! ## Names known in advance -/

/-- The interpreter refers to some names by number.  Each of those numbers is the Symbol of
the name it stands for, in every history: `"+"` interned by a program is the `+` the
interpreter dispatches on. -/
theorem C19_names_known_in_advance {ss : List Step} {as : List (Key × Nat)} {t : Table}
    (h : Table.new.run lossy ss = some (as, t)) :
    ∀ p ∈ fixedNames ++ specialGvars, t.intern (.text p.1) = some (p.2, t) ∧
      t.name p.2 = some (.utf8 p.1) := by
  obtain ⟨hi, he, -⟩ := run_spec lossy ss new_inv h
  have hn : ∀ p ∈ fixedNames ++ specialGvars, Table.new.rev.lookup p.1 = some p.2 := by
    decide +kernel
  intro p hp
  have := he.rev _ _ (hn p hp)
  exact ⟨intern_found (k := .text p.1) this, (hi.rev _ _ this).2.2.1⟩

/-- In particular the operators, the hooks and the conversions the interpreter calls by number
(`_ADD` is 5, `TO_S` is 31, ...) are the ones a program defines by name. -/
theorem C19_operators_and_hooks {ss : List Step} {as : List (Key × Nat)} {t : Table}
    (h : Table.new.run lossy ss = some (as, t)) :
    ∀ p ∈ [("initialize", 1), ("Object", 2), ("new", 3), ("+", 5), ("-", 6), ("*", 7), ("/", 8),
        ("%", 9), ("**", 10), ("<<", 11), (">>", 12), ("|", 13), ("&", 14), ("^", 15), ("~", 16),
        ("-@", 17), ("+@", 18), ("==", 19), ("!=", 20), (">", 21), (">=", 22), ("<", 23),
        ("<=", 24), ("<=>", 25), ("===", 26), ("=~", 27), ("[]", 28), ("[]=", 29), ("to_s", 31),
        ("to_proc", 32), ("method_missing", 33), ("each", 34), ("to_ary", 51), ("to_a", 52),
        ("allocate", 53), ("method_added", 54), ("hash", 55), ("eql?", 56), ("to_str", 57),
        ("to_path", 58), ("singleton_method_added", 59), ("method_removed", 60),
        ("method_undefined", 61), ("const_added", 62), ("inherited", 63),
        ("append_features", 64), ("extend_object", 65), ("extended", 66), ("included", 67),
        ("prepended", 68), ("!~", 69), ("!", 70), ("inspect", 71),
        ("singleton_method_removed", 72), ("singleton_method_undefined", 73), ("to_int", 74),
        ("to_f", 75), ("initialize_copy", 76), ("initialize_clone", 77), ("initialize_dup", 78),
        ("respond_to_missing?", 79)], t.intern (.text p.1) = some (p.2, t) := by
  have hsub : ∀ p ∈ [("initialize", 1), ("Object", 2), ("new", 3), ("+", 5), ("-", 6), ("*", 7), ("/", 8),
        ("%", 9), ("**", 10), ("<<", 11), (">>", 12), ("|", 13), ("&", 14), ("^", 15), ("~", 16),
        ("-@", 17), ("+@", 18), ("==", 19), ("!=", 20), (">", 21), (">=", 22), ("<", 23),
        ("<=", 24), ("<=>", 25), ("===", 26), ("=~", 27), ("[]", 28), ("[]=", 29), ("to_s", 31),
        ("to_proc", 32), ("method_missing", 33), ("each", 34), ("to_ary", 51), ("to_a", 52),
        ("allocate", 53), ("method_added", 54), ("hash", 55), ("eql?", 56), ("to_str", 57),
        ("to_path", 58), ("singleton_method_added", 59), ("method_removed", 60),
        ("method_undefined", 61), ("const_added", 62), ("inherited", 63),
        ("append_features", 64), ("extend_object", 65), ("extended", 66), ("included", 67),
        ("prepended", 68), ("!~", 69), ("!", 70), ("inspect", 71),
        ("singleton_method_removed", 72), ("singleton_method_undefined", 73), ("to_int", 74),
        ("to_f", 75), ("initialize_copy", 76), ("initialize_clone", 77), ("initialize_dup", 78),
        ("respond_to_missing?", 79)], p ∈ fixedNames ++ specialGvars := by decide +kernel
  intro p hp
  exact (C19_names_known_in_advance lossy h p (hsub p hp)).1

/-- Asking whether a global variable is one of the special ones is a range check on its
Symbol.  It answers yes exactly for the sixteen names listed, in every history, and the name
read back by position is the variable's. -/
theorem C19_special_globals {ss : List Step} {as : List (Key × Nat)} {t : Table}
    (h : Table.new.run lossy ss = some (as, t)) :
    (∀ s i, (Key.text s, i) ∈ as →
      (isSpecialGvar i = true ↔
        s ∈ ["$?", "$<", "$FILENAME", "$/", "$-0", "$\\", "$,", "$;", "$.", "$stdout", "$stderr",
          "$VERBOSE", "$-v", "$-w", "$0", "$PROGRAM_NAME"]) ∧
      (isSpecialGvar i = true → specialGvarName i = some s)) ∧
    ∀ b e i, (Key.bin b e, i) ∈ as → isSpecialGvar i = false := by
  obtain ⟨hi, he, hf⟩ := run_spec lossy ss new_inv h
  have hr : ∀ i < 96, 80 ≤ i → ∃ p ∈ specialGvars, p.2 = i ∧ specialGvarName i = some p.1 ∧
      Table.new.rev.lookup p.1 = some i := by decide +kernel
  have hl : specialGvars.map (·.1) = ["$?", "$<", "$FILENAME", "$/", "$-0", "$\\", "$,", "$;",
      "$.", "$stdout", "$stderr", "$VERBOSE", "$-v", "$-w", "$0", "$PROGRAM_NAME"] := by rfl
  have hn : ∀ p ∈ specialGvars, Table.new.rev.lookup p.1 = some p.2 ∧ 80 ≤ p.2 ∧ p.2 ≤ 95 := by
    decide +kernel
  have hsp : ∀ i, isSpecialGvar i = true ↔ 80 ≤ i ∧ i ≤ 95 := by
    intro i; simp [isSpecialGvar]
  refine ⟨?_, ?_⟩
  · intro s i hm
    have hfs : find t (.text s) = some i := hf _ hm
    have hs : isSpecialGvar i = true → ∃ p ∈ specialGvars, p.1 = s ∧
        specialGvarName i = some p.1 := by
      intro hc
      rw [hsp] at hc
      obtain ⟨p, hp, e1, e2, e3⟩ := hr i (by omega) hc.1
      refine ⟨p, hp, ?_, e2⟩
      have := find_inj hi hfs (k' := .text p.1) (he.rev _ _ e3)
      simpa using this.symm
    refine ⟨⟨?_, ?_⟩, ?_⟩
    · intro hc
      obtain ⟨p, hp, e, -⟩ := hs hc
      rw [← hl, ← e]
      exact List.mem_map.mpr ⟨p, hp, rfl⟩
    · intro hc
      rw [← hl] at hc
      obtain ⟨p, hp, rfl⟩ := List.mem_map.mp hc
      obtain ⟨e1, e2, e3⟩ := hn p hp
      have := he.rev _ _ e1
      simp only [find] at hfs
      rw [this] at hfs
      simp only [Option.some.injEq] at hfs
      rw [hsp, ← hfs]
      exact ⟨e2, e3⟩
    · intro hc
      obtain ⟨p, -, rfl, e⟩ := hs hc
      exact e
  · intro b e i hm
    have hfs : find t (.bin b e) = some i := hf _ hm
    apply Bool.eq_false_iff.mpr
    intro hc
    rw [hsp] at hc
    obtain ⟨p, hp, e1, e2, e3⟩ := hr i (by omega) hc.1
    have := find_inj hi hfs (k' := .text p.1) (he.rev _ _ e3)
    simp at this

/-! ## Listing every Symbol -/

/-- `Symbol.all_symbols` lists every Symbol a history has answered, once. -/
theorem C43_all_symbols_lists_all_partial {ss : List Step} {as : List (Key × Nat)} {t : Table}
    (h : Table.new.run lossy ss = some (as, t)) :
    (∀ p ∈ as, p.2 ∈ t.allSymbols) ∧ t.allSymbols.Nodup := by
  obtain ⟨hi, -, hf⟩ := run_spec lossy ss new_inv h
  have hs := hi.small
  unfold Table.allSymbols
  rw [Nat.mod_eq_of_lt hs]
  constructor
  · intro p hp
    have hb : 1 ≤ p.2 ∧ p.2 ≤ t.table.length := by
      have := hf p hp
      obtain ⟨k, i⟩ := p
      cases k with
      | text s => have := hi.rev _ _ this; exact ⟨this.1, this.2.1⟩
      | bin b e => have := hi.bytes _ _ _ this; exact ⟨this.1, this.2.1⟩
    exact List.mem_map.mpr ⟨p.2 - 1, List.mem_range.mpr (by omega), by omega⟩
  · rw [List.nodup_iff_pairwise_ne, List.pairwise_map]
    have := (List.nodup_iff_pairwise_ne.mp List.nodup_range : (List.range t.table.length).Pairwise (· ≠ ·))
    exact this.imp (fun hab hc => hab (by omega))

/-- It lists five more, in every history: distinct Symbols that all read back as the empty
name, and that no interning, of `""` or anything else, ever answers.  In a listing of all
Symbols, equal names are not equal Symbols. -/
theorem C43_all_symbols_lists_phantoms {ss : List Step} {as : List (Key × Nat)} {t : Table}
    (h : Table.new.run lossy ss = some (as, t)) :
    ∀ i, 96 ≤ i → i ≤ 100 → i ∈ t.allSymbols ∧ t.toS i = some ⟨"".toByteArray, .usAscii⟩ ∧
      ∀ k u, t.intern k ≠ some (i, u) := by
  obtain ⟨hi, -, hf⟩ := run_spec lossy ss new_inv h
  have hs := hi.small
  have hl := hi.len
  intro i h1 h2
  refine ⟨?_, ?_, ?_⟩
  · unfold Table.allSymbols
    rw [Nat.mod_eq_of_lt hs]
    exact List.mem_map.mpr ⟨i - 1, List.mem_range.mpr (by omega), by omega⟩
  · have hn := hi.phantom i ⟨h1, h2⟩
    have he : t.encoding i = none := by
      cases hc : t.encoding i with
      | none => rfl
      | some e =>
        obtain ⟨_, _, b, hb⟩ := hi.enc i e hc
        rw [hn] at hb; simp at hb
    simp only [Table.toS, hn, he]
    rfl
  · intro k u hc
    obtain ⟨hu, hx, hk⟩ := intern_spec hi hc
    have hn := hx.name _ _ (hi.phantom i ⟨h1, h2⟩)
    cases k with
    | text s => exact (hu.rev _ _ hk).2.2.2 ⟨h1, h2⟩
    | bin b e =>
      have := (hu.bytes _ _ _ hk).2.2.1
      rw [hn] at this; simp at this

/-! ## `String#to_sym` and `Symbol#to_s` -/

/-- The encoding a Symbol made from a String reports: US-ASCII for ASCII text, UTF-8 for other
valid UTF-8 text, ASCII-8BIT for text that is not valid, and otherwise the String's own. -/
def symEnc (s : RStr) : Enc :=
  if isAscii s.bytes ∧ s.enc.asciiCompatible then .usAscii
  else if s.enc = .utf8 ∨ s.enc = .usAscii then
    if s.bytes.IsValidUTF8 then (if isAscii s.bytes then .usAscii else .utf8) else .ascii8
  else s.enc

/-- the String a Symbol's key reads back as -/
def keyStr : Key → RStr
  | .text s => ⟨s.toByteArray, if isAscii s.toByteArray then .usAscii else .utf8⟩
  | .bin b e => ⟨b, e⟩

theorem toS_of_find {t : Table} (hi : Inv t) {k : Key} {i : Nat} (h : find t k = some i) :
    t.toS i = some (keyStr k) := by
  cases k with
  | text s =>
    have hn := (hi.rev s i h).2.2.1
    have he : t.encoding i = none := by
      cases hc : t.encoding i with
      | none => rfl
      | some e =>
        obtain ⟨_, _, b, hb⟩ := hi.enc i e hc
        rw [hn] at hb; simp at hb
    simp only [Table.toS, hn, he]
    rfl
  | bin b e =>
    obtain ⟨_, _, hn, he⟩ := hi.bytes b e i h
    simp only [Table.toS, hn, he]
    rfl

theorem fromUtf8_bytes {b : ByteArray} {s : String} (h : fromUtf8 b = some s) :
    s.toByteArray = b := by
  unfold fromUtf8 at h
  split at h
  · simp only [Option.some.injEq] at h
    rw [← h]
  · exact absurd h (by simp)

theorem fromUtf8_none {b : ByteArray} (h : fromUtf8 b = none) : ¬ b.IsValidUTF8 := by
  unfold fromUtf8 at h
  split at h
  · exact absurd h (by simp)
  · assumption

theorem fromUtf8_toByteArray (s : String) : fromUtf8 s.toByteArray = some s := by
  unfold fromUtf8
  rw [dif_pos s.isValidUTF8]

/-- Turning a String into a Symbol and asking the Symbol for its name gives the String's bytes
back, under the encoding `symEnc` says, however many Symbols are made in between. -/
theorem C19_to_sym_to_s {ss later : List Step} {as bs : List (Key × Nat)} {t t' u : Table}
    {i : Nat} (s : RStr) (h : Table.new.run lossy ss = some (as, t))
    (hs : t.intern (toSymKey s) = some (i, t')) (h' : t'.run lossy later = some (bs, u)) :
    u.toS i = some ⟨s.bytes, symEnc s⟩ := by
  obtain ⟨hi, -, -⟩ := run_spec lossy ss new_inv h
  obtain ⟨hi', -, hk⟩ := intern_spec hi hs
  obtain ⟨hu, he, -⟩ := run_spec lossy later hi' h'
  rw [toS_of_find hu (he.find hk)]
  obtain ⟨b, e⟩ := s
  unfold toSymKey symEnc
  dsimp only
  by_cases ha : isAscii b = true
  · by_cases hc : e.asciiCompatible = true
    · have hv := valid_of_isAscii ha
      simp only [ha, hc, Bool.and_self, if_true, true_or, and_self]
      cases hf : fromUtf8 b with
      | none => exact absurd hv (fromUtf8_none hf)
      | some w =>
        have hw := fromUtf8_bytes hf
        simp only [keyStr]
        rw [hw, ha]; rfl
    · have hne : ¬ (e = .usAscii ∨ e = .utf8) := by
        rintro (rfl | rfl) <;> exact hc rfl
      have hne' : ¬ (e = .utf8 ∨ e = .usAscii) := fun x => hne x.symm
      simp only [ha, hc, Bool.true_and, Bool.false_eq_true, if_false, and_false, hne, hne',
        keyStr]
  · simp only [ha, Bool.false_and, Bool.false_eq_true, if_false, false_and]
    by_cases hne : e = .usAscii ∨ e = .utf8
    · rw [if_pos hne, if_pos hne.symm]
      cases hf : fromUtf8 b with
      | none =>
        rw [if_neg (fromUtf8_none hf)]
        rfl
      | some w =>
        have hw := fromUtf8_bytes hf
        simp only [keyStr]
        have hv : b.IsValidUTF8 := hw ▸ w.isValidUTF8
        rw [hw, if_neg ha, if_pos hv]
    · rw [if_neg hne, if_neg (fun x => hne x.symm)]
      rfl

/-- what interns as itself: text, or bytes `String#to_sym` would intern the same way -/
def Canonical : Key → Prop
  | .text _ => True
  | .bin b e => toSymKey ⟨b, e⟩ = .bin b e

theorem toSymKey_canonical (s : RStr) : Canonical (toSymKey s) := by
  obtain ⟨b, e⟩ := s
  unfold toSymKey
  dsimp only
  by_cases ha : isAscii b = true
  · have hv := valid_of_isAscii ha
    by_cases hc : e.asciiCompatible = true
    · simp only [ha, hc, Bool.and_self, if_true, true_or]
      cases hf : fromUtf8 b with
      | none => exact absurd hv (fromUtf8_none hf)
      | some w => trivial
    · have hne : ¬ (e = .usAscii ∨ e = .utf8) := by
        rintro (rfl | rfl) <;> exact hc rfl
      simp only [ha, hc, Bool.true_and, Bool.false_eq_true, if_false, hne]
      simp only [Canonical, toSymKey, ha, hc, Bool.true_and, Bool.false_eq_true, if_false, hne]
  · simp only [ha, Bool.false_and, Bool.false_eq_true, if_false]
    by_cases hne : e = .usAscii ∨ e = .utf8
    · rw [if_pos hne]
      cases hf : fromUtf8 b with
      | none => simp [Canonical, toSymKey, ha]
      | some w => trivial
    · rw [if_neg hne]
      simp only [Canonical, toSymKey, ha, Bool.false_and, Bool.false_eq_true, if_false, hne]

theorem literalKey_canonical (s : String) (src : Enc) : Canonical (literalKey s src) := by
  unfold literalKey
  split
  · trivial
  · rename_i h
    have h1 : isAscii s.toByteArray = false := by
      cases hx : isAscii s.toByteArray
      · rfl
      · exact absurd (.inl hx) h
    have h2 : ¬ (src = .usAscii ∨ src = .utf8) := by
      rintro (x | x)
      · exact h (.inr (.inr x))
      · exact h (.inr (.inl x))
    simp only [Canonical, toSymKey, h1, Bool.false_and, Bool.false_eq_true, if_false, h2]

theorem toSym_toS {u : Table} (hu : Inv u) {k : Key} {i : Nat} (hc : Canonical k)
    (hk : find u k = some i) : ∃ r, u.toS i = some r ∧ toSymKey r = k := by
  refine ⟨_, toS_of_find hu hk, ?_⟩
  cases k with
  | text s =>
    simp only [toSymKey, keyStr]
    by_cases ha : isAscii s.toByteArray = true
    · simp [ha, Enc.asciiCompatible, fromUtf8_toByteArray]
    · simp [ha, fromUtf8_toByteArray]
  | bin b e => exact hc

/-- The other way round: the name of a Symbol, turned into a Symbol again, is that same Symbol,
for every Symbol that came from a literal in a source file of any encoding or from a String. -/
theorem C19_to_s_to_sym {ss later : List Step} {as bs : List (Key × Nat)} {t t' u : Table}
    {i : Nat} {k : Key} (h : Table.new.run lossy ss = some (as, t))
    (hk : (∃ s, k = toSymKey s) ∨ (∃ s src, k = literalKey s src))
    (hs : t.intern k = some (i, t')) (h' : t'.run lossy later = some (bs, u)) :
    ∃ r, u.toS i = some r ∧ u.intern (toSymKey r) = some (i, u) := by
  obtain ⟨hi, -, -⟩ := run_spec lossy ss new_inv h
  obtain ⟨hi', -, hf⟩ := intern_spec hi hs
  obtain ⟨hu, he, -⟩ := run_spec lossy later hi' h'
  have hc : Canonical k := by
    rcases hk with ⟨s, rfl⟩ | ⟨s, src, rfl⟩
    · exact toSymKey_canonical s
    · exact literalKey_canonical s src
  obtain ⟨r, e1, e2⟩ := toSym_toS hu hc (he.find hf)
  exact ⟨r, e1, by rw [e2]; exact intern_found (he.find hf)⟩

/-- Two Strings become the same Symbol exactly when they have the same bytes and `symEnc` gives
them the same encoding. -/
theorem C19_to_sym_eq_iff {ss : List Step} {as : List (Key × Nat)} {t t' t'' : Table}
    {i j : Nat} (r s : RStr) (h : Table.new.run lossy ss = some (as, t))
    (hr : t.intern (toSymKey r) = some (i, t')) (hs : t'.intern (toSymKey s) = some (j, t'')) :
    i = j ↔ r.bytes = s.bytes ∧ symEnc r = symEnc s := by
  obtain ⟨hi, -, -⟩ := run_spec lossy ss new_inv h
  obtain ⟨hi', -, hf⟩ := intern_spec hi hr
  obtain ⟨hi'', he, hf'⟩ := intern_spec hi' hs
  have step1 : ∀ (a b : Table) (k : Key) (n : Nat), a.intern k = some (n, b) →
      ∃ st bs, a.run lossy [st] = some (bs, b) := by
    intro a b k n hk
    cases k with
    | text x =>
      simp only [Table.intern] at hk
      exact ⟨.getId x, [(.text x, n)], by simp [Table.run, Table.step, hk]⟩
    | bin c e =>
      simp only [Table.intern] at hk
      exact ⟨.fromBytes c e, [(.bin c e, n)], by simp [Table.run, Table.step, hk]⟩
  have hR : t''.toS i = some ⟨r.bytes, symEnc r⟩ := by
    obtain ⟨st, bs, hb⟩ := step1 _ _ _ _ hs
    exact C19_to_sym_to_s lossy r h hr hb
  have hS : t''.toS j = some ⟨s.bytes, symEnc s⟩ := by
    obtain ⟨st, bs, hb⟩ := step1 _ _ _ _ hr
    have hss : Table.new.run lossy (ss ++ [st]) = some (as ++ bs, t') := by
      rw [run_append, h]
      simp only [Option.bind_some]
      rw [hb]
      rfl
    exact C19_to_sym_to_s lossy s hss hs (later := []) rfl
  constructor
  · intro e
    rw [e, hS] at hR
    simp only [Option.some.injEq, RStr.mk.injEq] at hR
    exact ⟨hR.1.symm, hR.2.symm⟩
  · rintro ⟨e1, e2⟩
    have k1 := toSym_toS hi'' (toSymKey_canonical r) (he.find hf)
    have k2 := toSym_toS hi'' (toSymKey_canonical s) hf'
    obtain ⟨x, x1, x2⟩ := k1
    obtain ⟨y, y1, y2⟩ := k2
    rw [hR] at x1
    rw [hS] at y1
    simp only [Option.some.injEq] at x1 y1
    have : x = y := by rw [← x1, ← y1, e1, e2]
    have hkeys : toSymKey r = toSymKey s := by rw [← x2, ← y2, this]
    have a := he.find hf
    rw [hkeys, hf'] at a
    simpa using a.symm

/-- `"a"` in KOI8-R and `"a"` in UTF-8 are one Symbol; `"é"` tagged binary and `"é"` are two. -/
example : symEnc ⟨"a".toByteArray, .namedByte 0⟩ = symEnc ⟨"a".toByteArray, .utf8⟩ ∧
    symEnc ⟨"é".toByteArray, .ascii8⟩ ≠ symEnc ⟨"é".toByteArray, .utf8⟩ := by
  decide +kernel

/-! ## Where the rule is not kept

The methods that take a method, variable or constant name accept a String.  `to_sym` and these
methods do not intern all Strings alike. -/

/-- A String given as a name stands for the Symbol `to_sym` makes of it exactly when its bytes
are valid UTF-8 and it is tagged UTF-8 or US-ASCII or is ASCII in an ASCII-compatible encoding,
or when its bytes are not valid UTF-8 and it is tagged neither UTF-8 nor US-ASCII. -/
theorem C42_name_argument_iff_partial (s : RStr) :
    nameArgKey s = toSymKey s ↔
      (s.bytes.IsValidUTF8 ∧ (s.enc = .utf8 ∨ s.enc = .usAscii ∨
          (isAscii s.bytes = true ∧ s.enc.asciiCompatible = true))) ∨
      (¬ s.bytes.IsValidUTF8 ∧ s.enc ≠ .utf8 ∧ s.enc ≠ .usAscii) := by
  obtain ⟨b, e⟩ := s
  unfold nameArgKey toSymKey
  dsimp only
  cases hf : fromUtf8 b with
  | some w =>
    have hv : b.IsValidUTF8 := fromUtf8_bytes hf ▸ w.isValidUTF8
    simp only [hv, true_and, not_true_eq_false, false_and, or_false]
    by_cases hx : (isAscii b && e.asciiCompatible) = true
    · rw [if_pos hx]
      simp only [true_or, if_true, true_iff]
      right; right
      simpa [Bool.and_eq_true] using hx
    · rw [if_neg hx]
      have hx' : ¬ (isAscii b = true ∧ e.asciiCompatible = true) := by
        simpa [Bool.and_eq_true] using hx
      by_cases he : e = .usAscii ∨ e = .utf8
      · rw [if_pos he]
        simp only [true_iff]
        rcases he with he | he
        · exact .inr (.inl he)
        · exact .inl he
      · rw [if_neg he]
        constructor
        · intro h; exact absurd h (by simp)
        · rintro (h | h | h)
          · exact absurd (.inr h) he
          · exact absurd (.inl h) he
          · exact absurd h hx'
  | none =>
    have hv := fromUtf8_none hf
    have ha : isAscii b = false := by
      cases hx : isAscii b
      · rfl
      · exact absurd (valid_of_isAscii hx) hv
    simp only [hv, false_and, not_false_eq_true, true_and, false_or, ha, Bool.false_and,
      Bool.false_eq_true, if_false]
    by_cases he : e = .usAscii ∨ e = .utf8
    · rw [if_pos he]
      constructor
      · intro h
        simp only [Key.bin.injEq, true_and] at h
        rcases he with he | he <;> rw [h] at he <;> exact absurd he (by simp)
      · rintro ⟨h1, h2⟩
        rcases he with he | he
        · exact absurd he h2
        · exact absurd he h1
    · rw [if_neg he]
      simp only [true_iff]
      exact ⟨fun x => he (.inr x), fun x => he (.inl x)⟩

/-- A method defined under the String `"\xff"` (UTF-8, not valid) is not the method `to_sym`
names: the two intern to different Symbols in every history, and the name of the first, turned
back into a Symbol, is the second. -/
theorem C42_invalid_name_argument_differs {ss : List Step} {as : List (Key × Nat)}
    {t t' t'' : Table} {i j : Nat} (h : Table.new.run lossy ss = some (as, t))
    (hi : t.intern (nameArgKey ⟨⟨#[0xff]⟩, .utf8⟩) = some (i, t'))
    (hj : t'.intern (toSymKey ⟨⟨#[0xff]⟩, .utf8⟩) = some (j, t'')) :
    i ≠ j ∧ ∃ r, t''.toS i = some r ∧ t''.intern (toSymKey r) = some (j, t'') := by
  obtain ⟨h0, -, -⟩ := run_spec lossy ss new_inv h
  obtain ⟨h1, -, f1⟩ := intern_spec h0 hi
  obtain ⟨h2, he, f2⟩ := intern_spec h1 hj
  have k1 : nameArgKey ⟨⟨#[0xff]⟩, .utf8⟩ = .bin ⟨#[0xff]⟩ .utf8 := by decide +kernel
  have k2 : toSymKey ⟨⟨#[0xff]⟩, .utf8⟩ = .bin ⟨#[0xff]⟩ .ascii8 := by decide +kernel
  rw [k1] at f1
  rw [k2] at f2
  have f1' := he.find f1
  refine ⟨?_, _, toS_of_find h2 f1', ?_⟩
  · intro hc
    rw [hc] at f1'
    exact absurd (find_inj h2 f1' f2) (by simp)
  · simp only [keyStr]
    rw [k2]
    exact intern_found f2

/-- So does `Marshal.load` of a Symbol whose recorded name is not valid in UTF-8. -/
theorem C42_marshal_invalid_differs {ss : List Step} {as : List (Key × Nat)}
    {t t' t'' : Table} {i j : Nat} (h : Table.new.run lossy ss = some (as, t))
    (hi : t.intern (marshalKey ⟨#[0xff]⟩ .utf8) = some (i, t'))
    (hj : t'.intern (toSymKey ⟨⟨#[0xff]⟩, .utf8⟩) = some (j, t'')) : i ≠ j := by
  have k1 : marshalKey ⟨#[0xff]⟩ .utf8 = nameArgKey ⟨⟨#[0xff]⟩, .utf8⟩ := by decide +kernel
  rw [k1] at hi
  exact (C42_invalid_name_argument_differs lossy h hi hj).1

/-! ## Derived names -/

/-- `attr_reader` and `attr_writer` derive an instance variable's name and a method's name from
a Symbol.  Different text Symbols get different derived names, spelled as expected. -/
theorem C43_derived_names_of_text_partial {ss : List Step} {as : List (Key × Nat)} {t t₁ t₂ : Table}
    {m n : String} {i j i' j' : Nat} (h : Table.new.run lossy ss = some (as, t))
    (hm : (Key.text m, i) ∈ as) (hn : (Key.text n, j) ∈ as) :
    (t.addIvarPrefix lossy i = some (i', t₁) → t₁.addIvarPrefix lossy j = some (j', t₂) →
      t₂.name i' = some (.utf8 ("@" ++ m)) ∧ t₂.name j' = some (.utf8 ("@" ++ n)) ∧
        (i' = j' ↔ i = j)) ∧
    (t.addAssignPostfix lossy i = some (i', t₁) → t₁.addAssignPostfix lossy j = some (j', t₂) →
      t₂.name i' = some (.utf8 (m ++ "=")) ∧ t₂.name j' = some (.utf8 (n ++ "=")) ∧
        (i' = j' ↔ i = j)) := by
  obtain ⟨hi, -, hf⟩ := run_spec lossy ss new_inv h
  have fm := hf _ hm
  have fn := hf _ hn
  have nm := (hi.rev _ _ fm).2.2.1
  have nn := (hi.rev _ _ fn).2.2.1
  have hmn : m = n ↔ i = j := by
    constructor
    · intro e
      rw [e] at fm
      simp only [find] at fm fn
      rw [fm] at fn
      simpa using fn
    · intro e
      rw [e] at nm
      rw [nm] at nn
      simpa using nn
  have main : ∀ (f : String → String), (∀ a b, f a = f b → a = b) →
      t.getId (f m) = some (i', t₁) → t₁.getId (f n) = some (j', t₂) →
      t₂.name i' = some (.utf8 (f m)) ∧ t₂.name j' = some (.utf8 (f n)) ∧ (i' = j' ↔ i = j) := by
    intro f hinj e1 e2
    obtain ⟨h1, -, f1⟩ := getId_spec hi e1
    obtain ⟨h2, x2, f2⟩ := getId_spec h1 e2
    have f1' := x2.find f1
    refine ⟨(h2.rev _ _ f1').2.2.1, (h2.rev _ _ f2).2.2.1, ?_⟩
    rw [← hmn]
    constructor
    · intro e
      rw [e] at f1'
      have := find_inj h2 f1' f2
      simp only [Key.text.injEq] at this
      exact hinj _ _ this
    · intro e
      rw [e, f2] at f1'
      simpa using f1'.symm
  constructor
  · intro e1 e2
    simp only [Table.addIvarPrefix, nm, Option.bind_eq_bind, Option.bind_some,
      getIdFromString_eq, Table.display] at e1
    have nn' := (getId_spec hi e1).2.1.name _ _ nn
    simp only [Table.addIvarPrefix, nn', Option.bind_eq_bind, Option.bind_some,
      getIdFromString_eq, Table.display] at e2
    exact main ("@" ++ ·) (fun a b hab => (String.append_right_inj _).mp hab) e1 e2
  · intro e1 e2
    simp only [Table.addAssignPostfix, nm, Option.bind_eq_bind, Option.bind_some,
      getIdFromString_eq, Table.display] at e1
    have nn' := (getId_spec hi e1).2.1.name _ _ nn
    simp only [Table.addAssignPostfix, nn', Option.bind_eq_bind, Option.bind_some,
      getIdFromString_eq, Table.display] at e2
    exact main (· ++ "=") (fun a b hab => (String.append_left_inj _).mp hab) e1 e2

/-- Binary Symbols do not: the derivation goes through a lossy conversion to text, and two
names the conversion confuses (any two single invalid bytes, both of which become U+FFFD) share
their instance variable and their writer. -/
theorem C43_binary_derived_names_collide {ss : List Step} {as : List (Key × Nat)}
    {t t₁ t₂ : Table} {b c : ByteArray} {d e : Enc} {i j i' j' : Nat}
    (h : Table.new.run lossy ss = some (as, t)) (hb : (Key.bin b d, i) ∈ as)
    (hc : (Key.bin c e, j) ∈ as) (hl : lossy b = lossy c)
    (h1 : t.addIvarPrefix lossy i = some (i', t₁))
    (h2 : t₁.addIvarPrefix lossy j = some (j', t₂)) : i' = j' := by
  obtain ⟨hi, -, hf⟩ := run_spec lossy ss new_inv h
  have nb := (hi.bytes _ _ _ (hf _ hb)).2.2.1
  have nc := (hi.bytes _ _ _ (hf _ hc)).2.2.1
  simp only [Table.addIvarPrefix, nb, Option.bind_eq_bind, Option.bind_some,
    getIdFromString_eq, Table.display] at h1
  obtain ⟨hi1, x1, f1⟩ := getId_spec hi h1
  have nc' := x1.name _ _ nc
  simp only [Table.addIvarPrefix, nc', Option.bind_eq_bind, Option.bind_some,
    getIdFromString_eq, Table.display] at h2
  obtain ⟨hi2, x2, f2⟩ := getId_spec hi1 h2
  have := x2.find f1
  rw [hl, f2] at this
  simpa using this.symm

/-! ## Comparing -/

theorem cmpBytes_eq : ∀ l m : List UInt8, cmpBytes l m = .eq ↔ l = m
  | [], [] => by simp [cmpBytes]
  | [], _ :: _ => by simp [cmpBytes]
  | _ :: _, [] => by simp [cmpBytes]
  | a :: l, b :: m => by
    unfold cmpBytes
    split
    · rename_i h
      simp only [reduceCtorEq, false_iff, List.cons.injEq, not_and]
      intro e; subst e
      exact absurd h (UInt8.lt_irrefl a)
    · split
      · rename_i h
        simp only [reduceCtorEq, false_iff, List.cons.injEq, not_and]
        intro e; subst e
        exact absurd h (UInt8.lt_irrefl a)
      · rename_i h1 h2
        have : a = b := UInt8.le_antisymm (UInt8.not_lt.mp h2) (UInt8.not_lt.mp h1)
        rw [cmpBytes_eq l m]
        simp [this]

theorem cmpBytes_swap : ∀ l m : List UInt8, (cmpBytes l m).swap = cmpBytes m l
  | [], [] => by simp [cmpBytes]
  | [], _ :: _ => by simp [cmpBytes]
  | _ :: _, [] => by simp [cmpBytes]
  | a :: l, b :: m => by
    unfold cmpBytes
    by_cases h1 : a < b
    · rw [if_pos h1, if_neg (UInt8.not_lt.mpr (UInt8.le_of_lt h1)), if_pos h1]; rfl
    · rw [if_neg h1]
      by_cases h2 : b < a
      · rw [if_pos h2, if_pos h2]; rfl
      · rw [if_neg h2, if_neg h2, if_neg h1]
        exact cmpBytes_swap l m

theorem cmpBytes_trans : ∀ l m n : List UInt8, cmpBytes l m = .lt → cmpBytes m n = .lt →
    cmpBytes l n = .lt
  | [], [], _, h, _ => by simp [cmpBytes] at h
  | [], _ :: _, [], _, h => by simp [cmpBytes] at h
  | [], _ :: _, _ :: _, _, _ => by simp [cmpBytes]
  | _ :: _, [], _, h, _ => by simp [cmpBytes] at h
  | _ :: _, _ :: _, [], _, h => by simp [cmpBytes] at h
  | a :: l, b :: m, c :: n, h, h' => by
    unfold cmpBytes at h h' ⊢
    by_cases h1 : a < b
    · by_cases h2 : b < c
      · rw [if_pos (UInt8.lt_trans h1 h2)]
      · rw [if_neg h2] at h'
        by_cases h3 : c < b
        · rw [if_pos h3] at h'; exact absurd h' (by simp)
        · have : b = c := UInt8.le_antisymm (UInt8.not_lt.mp h3) (UInt8.not_lt.mp h2)
          rw [← this, if_pos h1]
    · rw [if_neg h1] at h
      by_cases h2 : b < a
      · rw [if_pos h2] at h; exact absurd h (by simp)
      · rw [if_neg h2] at h
        have : a = b := UInt8.le_antisymm (UInt8.not_lt.mp h2) (UInt8.not_lt.mp h1)
        subst this
        by_cases h3 : a < c
        · rw [if_pos h3]
        · rw [if_neg h3] at h' ⊢
          by_cases h4 : c < a
          · rw [if_pos h4] at h'; exact absurd h' (by simp)
          · rw [if_neg h4] at h' ⊢
            exact cmpBytes_trans l m n h h'

/-- `Symbol#<=>` orders text Symbols totally, and calls two equal only when they are the same
Symbol. -/
theorem C43_comparison_of_text_partial {ss : List Step} {as : List (Key × Nat)} {t : Table}
    {l m n : String} {i j k : Nat} (h : Table.new.run lossy ss = some (as, t))
    (hl : (Key.text l, i) ∈ as) (hm : (Key.text m, j) ∈ as) (hn : (Key.text n, k) ∈ as) :
    (t.compare i j = some .eq ↔ i = j) ∧
      (t.compare i j).map Ordering.swap = t.compare j i ∧ (t.compare i j).isSome ∧
      (t.compare i j = some .lt → t.compare j k = some .lt → t.compare i k = some .lt) := by
  obtain ⟨hi, -, hf⟩ := run_spec lossy ss new_inv h
  have key : ∀ (x y : String) (p q : Nat), (Key.text x, p) ∈ as → (Key.text y, q) ∈ as →
      t.compare p q = some (cmpBytes x.toByteArray.data.toList y.toByteArray.data.toList) ∧
        (x = y ↔ p = q) := by
    intro x y p q hx hy
    have fx := hf _ hx
    have fy := hf _ hy
    have nx := (hi.rev _ _ fx).2.2.1
    have ny := (hi.rev _ _ fy).2.2.1
    have hxy : x = y ↔ p = q := by
      constructor
      · intro e
        rw [e] at fx
        simp only [find] at fx fy
        rw [fx] at fy
        simpa using fy
      · intro e
        rw [e, ny] at nx
        simpa using nx.symm
    refine ⟨?_, hxy⟩
    unfold Table.compare
    by_cases e : p = q
    · rw [if_pos e, hxy.mpr e, (cmpBytes_eq _ _).mpr rfl]
    · rw [if_neg e, nx, ny]
      rfl
  obtain ⟨k1, e1⟩ := key l m i j hl hm
  obtain ⟨k2, -⟩ := key m l j i hm hl
  obtain ⟨k3, -⟩ := key m n j k hm hn
  obtain ⟨k4, -⟩ := key l n i k hl hn
  refine ⟨?_, ?_, ?_, ?_⟩
  · rw [k1, ← e1]
    simp only [Option.some.injEq]
    rw [cmpBytes_eq]
    constructor
    · intro e
      apply String.toByteArray_inj.mp
      apply ByteArray.ext
      exact Array.toList_inj.mp e
    · intro e; rw [e]
  · rw [k1, k2, Option.map_some, cmpBytes_swap]
  · rw [k1]; rfl
  · rw [k1, k3, k4]
    simp only [Option.some.injEq]
    exact cmpBytes_trans _ _ _

/-- Binary Symbols with the same bytes under different encodings are different Symbols that
compare equal. -/
theorem C43_comparison_ignores_encoding {ss : List Step} {as : List (Key × Nat)} {t : Table}
    {b : ByteArray} {d e : Enc} {i j : Nat} (h : Table.new.run lossy ss = some (as, t))
    (hb : (Key.bin b d, i) ∈ as) (hc : (Key.bin b e, j) ∈ as) (hde : d ≠ e) :
    i ≠ j ∧ t.compare i j = some .eq := by
  obtain ⟨hi, -, hf⟩ := run_spec lossy ss new_inv h
  have fb := hf _ hb
  have fc := hf _ hc
  have hij : i ≠ j := by
    intro hc
    rw [hc] at fb
    have := find_inj hi fb fc
    simp only [Key.bin.injEq, true_and] at this
    exact hde this
  refine ⟨hij, ?_⟩
  unfold Table.compare
  rw [if_neg hij, (hi.bytes _ _ _ fb).2.2.1, (hi.bytes _ _ _ fc).2.2.1]
  simp only [Option.bind_eq_bind, Option.bind_some, Option.some.injEq]
  exact (cmpBytes_eq _ _).mpr rfl

/-- The premises of the last theorems hold: a history that interns two texts and one byte
string under two encodings. -/
example : ∃ t, Table.new.run lossy [.getId "a", .fromString "b", .fromBytes ⟨#[0xe9]⟩ .eucJp,
    .fromBytes ⟨#[0xe9]⟩ (.iso8859 1)] = some ([(.text "a", 101), (.text "b", 102),
      (.bin ⟨#[0xe9]⟩ .eucJp, 103), (.bin ⟨#[0xe9]⟩ (.iso8859 1), 104)], t) := by
  obtain ⟨r, hr⟩ : ∃ r, r = Table.new.run lossy [.getId "a", .fromString "b",
    .fromBytes ⟨#[0xe9]⟩ .eucJp, .fromBytes ⟨#[0xe9]⟩ (.iso8859 1)] := ⟨_, rfl⟩
  have h1 : (r.map (·.1)) = some [(.text "a", 101), (.text "b", 102),
      (.bin ⟨#[0xe9]⟩ .eucJp, 103), (.bin ⟨#[0xe9]⟩ (.iso8859 1), 104)] := by
    rw [hr]
    have : ∀ l, l = (fun _ : ByteArray => "") → ((Table.new.run l [.getId "a", .fromString "b",
      .fromBytes ⟨#[0xe9]⟩ .eucJp, .fromBytes ⟨#[0xe9]⟩ (.iso8859 1)]).map (·.1)) =
      some [(.text "a", 101), (.text "b", 102),
      (.bin ⟨#[0xe9]⟩ .eucJp, 103), (.bin ⟨#[0xe9]⟩ (.iso8859 1), 104)] := by
      rintro l rfl
      decide +kernel
    exact this (fun _ => "") rfl
  rw [← hr]
  cases r with
  | none => simp at h1
  | some p =>
    simp only [Option.map_some, Option.some.injEq] at h1
    exact ⟨p.2, by rw [← h1]⟩

end Verif.Symbol
