import Verif.Text.PieceLemmas
import Mathlib.Data.List.Forall2
import Mathlib.Data.List.GetD

/-!
# C131: cutting a string into pieces

`Clean sep f`: the separator stands in `f ++ sep` first at the end of `f`.
-/

namespace Verif.Text

/-! ## split -/

/-- C131: with a limit other than 0 the fields of `split(sep, limit)` joined by the separator are the
string again; every field but the last ends at the first place of the separator; a positive limit is
never exceeded; and the last field contains no separator unless the limit was reached. -/
theorem C131_split (s sep : List Nat) (lim : Int) (hs : s ≠ []) (hsep : sep ≠ []) (hawk : sep ≠ [32])
    (hl : lim ≠ 0) :
    List.intercalate sep (split s sep lim) = s ∧
    (∀ f ∈ (split s sep lim).dropLast, Clean sep f) ∧
    (0 < lim → ((split s sep lim).length : Int) ≤ lim) ∧
    (((split s sep lim).length : Int) ≠ lim → ∀ p, (split s sep lim).getLast? = some p →
      ∀ j, ¬ sep <+: p.drop j) := by
  unfold split
  by_cases h1 : lim = 1
  · rw [if_pos h1, if_neg hs]
    subst h1
    refine ⟨intercalate_one sep s, by simp, fun _ => by simp, fun h => by simp at h⟩
  · rw [if_neg h1, if_neg hsep, if_neg hawk]
    obtain ⟨a1, a2, a3, a4⟩ := strLoop_spec sep hsep lim (s.length + 1) 1 s (by omega)
    rw [emit_keep lim hl s hs]
    refine ⟨a1, by simpa using a2, fun h => ?_, fun h p hp => ?_⟩
    · have := a3 h (by omega)
      simp only [List.length_append, List.length_cons, List.length_nil]
      omega
    · simp only [List.getLast?_append, List.getLast?_singleton, Option.some_or, Option.some.injEq] at hp
      subst hp
      rcases a4 with a4 | ⟨a4, a5⟩
      · exact a4
      · exfalso
        have := a3 a4 (by omega)
        simp only [List.length_append, List.length_cons, List.length_nil] at h
        omega

-- "a,,b,".split(",", -1) and with limit 2
example : split [97, 44, 44, 98, 44] [44] (-1) = [[97], [], [98], []] ∧
    split [97, 44, 44, 98, 44] [44] 2 = [[97], [44, 98, 44]] := by decide

/-- C131: without a limit `split` gives the fields of `split(sep, -1)` without the empty ones at the
end, for every separator. -/
theorem C131_split_default (s sep : List Nat) :
    ∃ k, split s sep (-1) = split s sep 0 ++ List.replicate k [] ∧
      (split s sep 0).getLast? ≠ some [] := by
  unfold split
  rw [if_neg (show ¬ (-1 : Int) = 1 by decide), if_neg (show ¬ (0 : Int) = 1 by decide)]
  have e : (if sep = [] then charsLoop (-1) 1 s
      else if sep = [32] then awkLoop (-1) 1 none s
      else strLoop sep (-1) (s.length + 1) 1 s) =
      (if sep = [] then charsLoop 0 1 s
      else if sep = [32] then awkLoop 0 1 none s
      else strLoop sep 0 (s.length + 1) 1 s) := by
    rw [charsLoop_nonpos (-1) (by decide), charsLoop_nonpos 0 (by decide),
      awkLoop_nonpos (-1) (by decide), awkLoop_nonpos 0 (by decide) 1,
      strLoop_nonpos sep (-1) (by decide), strLoop_nonpos sep 0 (by decide) _ 1]
  rw [e]
  exact emit_default s _

example : split [44, 97, 44, 44, 98, 44, 44] [44] 0 = [[], [97], [], [98]] := by decide

theorem awkLoop_words (cur : Option (List Nat)) (s : List Nat)
    (hc : ∀ c, cur = some c → c ≠ []) :
    ((awkLoop 0 0 cur s).1 ++ [(awkLoop 0 0 cur s).2]).filter (· ≠ []) =
      ((s.splitOnP awkSpace).modifyHead (cur.getD [] ++ ·)).filter (· ≠ []) ∧
    ∀ f ∈ (awkLoop 0 0 cur s).1, f ≠ [] := by
  induction s generalizing cur with
  | nil =>
    cases cur with
    | none => simp [awkLoop]
    | some c => simp [awkLoop]
  | cons c t ih =>
    cases cur with
    | none =>
      rw [awkLoop, List.splitOnP_cons_eq_if_modifyHead]
      by_cases hsp : awkSpace c = true
      · rw [if_pos hsp, if_pos hsp]
        obtain ⟨h1, h2⟩ := ih none (by simp)
        refine ⟨?_, h2⟩
        rw [h1]
        cases hsl : t.splitOnP awkSpace with
        | nil => simp
        | cons x l => simp
      · rw [if_neg hsp, if_neg hsp, if_neg (by decide)]
        obtain ⟨h1, h2⟩ := ih (some [c]) (by simp)
        refine ⟨?_, h2⟩
        rw [h1]
        cases hsl : t.splitOnP awkSpace with
        | nil => simp
        | cons x l => simp
    | some w =>
      have hw := hc w rfl
      rw [awkLoop, List.splitOnP_cons_eq_if_modifyHead]
      by_cases hsp : awkSpace c = true
      · rw [if_pos hsp, if_pos hsp]
        obtain ⟨h1, h2⟩ := ih none (by simp)
        simp only [show ¬ (0 : Int) > 0 by omega, if_false]
        refine ⟨?_, ?_⟩
        · rw [List.cons_append, List.filter_cons_of_pos (by simpa using hw), h1]
          have : (t.splitOnP awkSpace).modifyHead (fun x => (none : Option (List Nat)).getD [] ++ x) =
              t.splitOnP awkSpace := by
            cases t.splitOnP awkSpace <;> simp
          rw [this]
          simp [hw]
        · intro f hf
          rcases List.mem_cons.1 hf with rfl | hf
          · exact hw
          · exact h2 f hf
      · rw [if_neg hsp, if_neg hsp]
        obtain ⟨h1, h2⟩ := ih (some (w ++ [c])) (by simp)
        refine ⟨?_, h2⟩
        rw [h1]
        cases hsl : t.splitOnP awkSpace with
        | nil => simp
        | cons x l => simp

/-- C131: `split` by whitespace gives the words: the string cut at every white character, without
the empty pieces. -/
theorem C131_split_words (s : List Nat) :
    split s [32] 0 = (s.splitOnP fun c => [32, 9, 10, 11, 12, 13].contains c).filter (· ≠ []) := by
  have hw : (fun c => [32, 9, 10, 11, 12, 13].contains c) = awkSpace := by
    funext c
    rw [Bool.eq_iff_iff]
    simp [awkSpace, or_assoc]
  rw [hw]
  unfold split
  rw [if_neg (by decide), if_neg (by decide), if_pos rfl, awkLoop_nonpos 0 (by decide)]
  obtain ⟨h1, h2⟩ := awkLoop_words none s (by simp)
  have e : (s.splitOnP awkSpace).modifyHead (fun x => (none : Option (List Nat)).getD [] ++ x) =
      s.splitOnP awkSpace := by
    cases s.splitOnP awkSpace <;> simp
  rw [e] at h1
  rw [← h1]
  unfold emit
  obtain ⟨a', k', e1, e2, e3⟩ := foldl_push_trim ((awkLoop 0 0 none s).1 ++
    if s ≠ [] ∧ ((0 : Int) > 0 ∨ (awkLoop 0 0 none s).2 ≠ [] ∨ (0 : Int) < 0) then
      [(awkLoop 0 0 none s).2] else []) [] 0 (by simp)
  have e1' := congrArg Prod.fst e1
  simp only [if_true] at e1' ⊢
  refine Eq.trans e1' ?_
  simp only [List.replicate_zero, List.append_nil, List.nil_append] at e2
  have hne : ∀ f ∈ (awkLoop 0 0 none s).1 ++
      (if s ≠ [] ∧ ((0 : Int) > 0 ∨ (awkLoop 0 0 none s).2 ≠ [] ∨ (0 : Int) < 0) then
        [(awkLoop 0 0 none s).2] else []), f ≠ [] := by
    intro f hf
    rcases List.mem_append.1 hf with hf | hf
    · exact h2 f hf
    · split_ifs at hf with hc
      · simp only [List.mem_singleton] at hf
        subst hf
        rcases hc.2 with h | h | h
        · omega
        · exact h
        · omega
      · simp at hf
  have hk : k' = 0 := by
    by_contra hk
    have : [] ∈ a' ++ List.replicate k' ([] : List Nat) := by
      simp [hk]
    rw [← e2] at this
    exact hne [] this rfl
  subst hk
  simp only [List.replicate_zero, List.append_nil] at e2
  rw [← e2, List.filter_append, List.filter_eq_self.2 (fun f hf => by simpa using h2 f hf)]
  congr 1
  by_cases hr : (awkLoop 0 0 none s).2 = []
  · simp [hr]
  · have hsne : s ≠ [] := by
      rintro rfl
      exact hr rfl
    simp [hr, hsne]

example : split [32, 97, 32, 32, 98, 9] [32] 0 = [[97], [98]] := by decide

theorem awkLoop_content (lim : Int) (i : Int) (cur : Option (List Nat)) (s : List Nat) :
    ((awkLoop lim i cur s).1.flatten ++ (awkLoop lim i cur s).2).filter (fun c => !awkSpace c) =
      (cur.getD [] ++ s).filter fun c => !awkSpace c := by
  induction s generalizing i cur with
  | nil => cases cur <;> simp [awkLoop]
  | cons c t ih =>
    cases cur with
    | none =>
      rw [awkLoop]
      by_cases hsp : awkSpace c = true
      · rw [if_pos hsp, ih]
        simp [hsp]
      · rw [if_neg hsp]
        by_cases hl : lim > 0 ∧ lim ≤ i
        · rw [if_pos hl]; simp
        · rw [if_neg hl, ih]; simp
    | some w =>
      rw [awkLoop]
      by_cases hsp : awkSpace c = true
      · rw [if_pos hsp]
        simp only [List.flatten_cons, List.append_assoc, List.filter_append]
        have := ih (if lim > 0 then i + 1 else i) none
        simp only [List.filter_append, Option.getD_none, List.nil_append] at this
        rw [this]
        simp [hsp]
      · rw [if_neg hsp, ih]; simp

theorem awkLoop_limit (lim : Int) (h : 0 < lim) (i : Int) (cur : Option (List Nat)) (s : List Nat)
    (hc : cur ≠ none → i < lim) (hi : i ≤ lim) :
    ((awkLoop lim i cur s).1.length : Int) ≤ lim - i := by
  induction s generalizing i cur with
  | nil => cases cur <;> simp [awkLoop] <;> omega
  | cons c t ih =>
    cases cur with
    | none =>
      rw [awkLoop]
      split_ifs with h1 h2
      · exact ih i none (by simp) hi
      · simp; omega
      · exact ih i _ (fun _ => by omega) hi
    | some w =>
      have := hc (by simp)
      rw [awkLoop]
      split_ifs with h1
      · have := ih (i + 1) none (by simp) (by omega)
        simp only [List.length_cons, Nat.cast_add, Nat.cast_one]
        omega
      · exact ih i _ (fun _ => by omega) hi

/-- C131: `split` by whitespace with any limit loses nothing but white characters, and a positive
limit is not exceeded. -/
theorem C131_split_words_limit (s : List Nat) (lim : Int) :
    ((split s [32] lim).flatten.filter fun c => !awkSpace c) = (s.filter fun c => !awkSpace c) ∧
    (0 < lim → ((split s [32] lim).length : Int) ≤ lim) := by
  by_cases h1 : lim = 1
  · subst h1
    unfold split
    by_cases hs : s = []
    · simp [hs]
    · simp [hs]
  by_cases h0 : lim = 0
  · subst h0
    refine ⟨?_, fun h => by omega⟩
    obtain ⟨k, e, _⟩ := C131_split_default s [32]
    have e2 : (split s [32] (-1)).flatten = (split s [32] 0).flatten := by
      rw [e, List.flatten_append]
      simp
    rw [← e2]
    unfold split
    rw [if_neg (by decide), if_neg (by decide), if_pos rfl]
    by_cases hs : s = []
    · subst hs; rfl
    · rw [emit_keep (-1) (by decide) s hs]
      have := awkLoop_content (-1) 1 none s
      simpa using this
  · unfold split
    rw [if_neg h1, if_neg (by decide), if_pos rfl]
    by_cases hs : s = []
    · subst hs
      simp only [awkLoop, emit]
      simp
      omega
    · rw [emit_keep lim h0 s hs]
      refine ⟨?_, fun h => ?_⟩
      · have := awkLoop_content lim 1 none s
        simpa using this
      · have := awkLoop_limit lim h 1 none s (by simp) (by omega)
        simp only [List.length_append, List.length_cons, List.length_nil]
        omega

example : split [97, 32, 32, 98, 32, 99, 32] [32] 2 = [[97], [98, 32, 99, 32]] := by decide

theorem charsLoop_pos (lim : Int) (i : Int) (s : List Nat) (h : i < lim) (h0 : 0 < lim) :
    charsLoop lim i s = ((s.take (lim - i).toNat).map ([·]), s.drop (lim - i).toNat) := by
  induction s generalizing i with
  | nil => simp [charsLoop]
  | cons c t ih =>
    rw [charsLoop]
    by_cases hl : lim > 0 ∧ lim ≤ i + 1
    · rw [if_pos hl]
      have : (lim - i).toNat = 1 := by omega
      rw [this]; simp
    · rw [if_neg hl, if_pos h0, ih (i + 1) (by omega)]
      have : (lim - i).toNat = (lim - (i + 1)).toNat + 1 := by omega
      rw [this]; simp

/-- C131: `split("")` gives the characters; a limit of `n` gives the first `n - 1` and the rest, a
negative one the characters and an empty string. -/
theorem C131_split_chars (s : List Nat) (hs : s ≠ []) :
    split s [] 0 = s.map ([·]) ∧
    (∀ lim : Int, lim < 0 → split s [] lim = s.map ([·]) ++ [[]]) ∧
    (∀ n : Nat, 0 < n → split s [] n = (s.take (n - 1)).map ([·]) ++ [s.drop (n - 1)]) := by
  refine ⟨?_, fun lim h => ?_, fun n hn => ?_⟩
  · unfold split
    rw [if_neg (by decide), if_pos rfl, charsLoop_nonpos 0 (by decide)]
    have h := C131_split_default s []
    obtain ⟨k, e, hlast⟩ := h
    unfold split at e hlast
    rw [if_neg (show ¬ (-1 : Int) = 1 by decide), if_neg (show ¬ (0 : Int) = 1 by decide),
      if_pos rfl, if_pos rfl, charsLoop_nonpos (-1) (by decide), charsLoop_nonpos 0 (by decide),
      emit_keep (-1) (by decide) s hs] at e
    rw [if_neg (by decide), if_pos rfl, charsLoop_nonpos 0 (by decide)] at hlast
    generalize emit 0 s (s.map ([·]), []) = r at e hlast
    simp only at e
    cases k with
    | zero =>
      simp only [List.replicate_zero, List.append_nil] at e
      rw [← e] at hlast
      simp at hlast
    | succ k =>
      rw [List.replicate_succ', ← List.append_assoc] at e
      have e' := List.append_inj_left' e rfl
      cases k with
      | zero => simpa using e'.symm
      | succ k =>
        exfalso
        have : [] ∈ s.map ([·]) := by rw [e']; simp
        simp at this
  · unfold split
    rw [if_neg (by omega), if_pos rfl, charsLoop_nonpos lim (by omega), emit_keep lim (by omega) s hs]
  · unfold split
    by_cases h1 : (n : Int) = 1
    · have : n = 1 := by omega
      subst this
      simp [hs]
    · rw [if_neg h1, if_pos rfl, charsLoop_pos n 1 s (by omega) (by omega),
        emit_keep n (by omega) s hs]
      simp only [show ((n : Int) - 1).toNat = n - 1 by omega]

/-- C131, part: `split("", limit)` does not depend on the encoding of the receiver when the limit is
at most the number of characters.

Missing: a larger limit, and the empty receiver with a negative limit, where it is false: see the
next theorem. -/
theorem C131_split_chars_encoding_partial (s : List Nat) (hs : s ≠ []) (lim : Int)
    (h : lim ≤ s.length) : splitCharsBytes s lim = split s [] lim := by
  obtain ⟨h1, h2, h3⟩ := C131_split_chars s hs
  unfold splitCharsBytes
  rcases Int.lt_trichotomy lim 0 with hl | hl | hl
  · rw [if_neg (by omega), if_pos hl, h2 lim hl]
  · subst hl
    rw [if_neg (by omega), if_neg (by omega), h1, List.append_nil]
  · obtain ⟨n, rfl⟩ : ∃ n : Nat, lim = n := ⟨lim.toNat, by omega⟩
    rw [h3 n (by omega), if_neg (show ¬ (n : Int) < 0 by omega), List.append_nil]
    by_cases hn : (n : Int) < s.length
    · rw [if_pos ⟨hl, hn⟩]
      simp
    · rw [if_neg (by omega)]
      have hn' : n = s.length := by omega
      subst hn'
      conv_lhs => rw [← List.take_append_drop (s.length - 1) s]
      rw [List.map_append]
      congr 1
      have hlen : (s.drop (s.length - 1)).length = 1 := by
        rw [List.length_drop]
        have : 0 < s.length := List.length_pos_iff.2 hs
        omega
      obtain ⟨c, hc⟩ := List.length_eq_one_iff.1 hlen
      rw [hc]
      rfl

/-- C131 fails across encodings: `"abc".split("", 4)` ends with an empty string in UTF-8 and does not
in EUC-JP, and `"".split("", -1)` is empty in UTF-8 and `[""]` in EUC-JP. -/
theorem C131_split_chars_encoding_fails :
    split [97, 98, 99] [] 4 = [[97], [98], [99], []] ∧
    splitCharsBytes [97, 98, 99] 4 = [[97], [98], [99]] ∧
    split [] [] (-1) = [] ∧ splitCharsBytes [] (-1) = [[]] := by decide

/-! ## lines -/

/-- C131: the lines of a string put together are the string; none is empty; each but the last ends
with the separator, and the separator stands nowhere before its end. -/
theorem C131_lines (s sep : List Nat) (hsep : sep ≠ []) (sp : Sep)
    (hsp : sp = .str sep ∨ (sp = .dflt ∧ sep = [10])) :
    (lines s false sp).flatten = s ∧ (∀ p ∈ lines s false sp, p ≠ []) ∧
    (∀ p ∈ (lines s false sp).dropLast, ∃ f, p = f ++ sep ∧ Clean sep f) ∧
    (∀ p, (lines s false sp).getLast? = some p →
      (∃ f, p = f ++ sep ∧ Clean sep f) ∨ ∀ j, ¬ sep <+: p.drop j) := by
  have e : lines s false sp = inclLoop sep (s.length + 1) s := by
    rcases hsp with rfl | ⟨rfl, rfl⟩
    · simp [lines, hsep, linesSep]
    · simp [lines, linesDefault]
  rw [e]
  exact inclLoop_spec sep hsep _ s (by omega)

example : lines [97, 10, 10, 98] false .dflt = [[97, 10], [10], [98]] := by decide

/-- C131: with `chomp: true` and a separator each line loses the separator at its end and nothing
else. -/
theorem C131_lines_chomp (s sep : List Nat) (hsep : sep ≠ []) :
    List.Forall₂ (fun a b => b = a ++ sep ∨ (b = a ∧ ¬ sep <:+ b))
      (lines s true (.str sep)) (lines s false (.str sep)) := by
  simp only [lines, hsep, if_false, linesSep]
  rw [List.forall₂_map_left_iff, List.forall₂_map_right_iff]
  apply List.forall₂_same.2
  intro p _
  simp only [true_and, Bool.false_eq_true, false_and, if_false]
  split_ifs with h
  · left
    obtain ⟨t, rfl⟩ := (endsWith_iff _ _).1 h
    rw [take_suffix]
  · right
    exact ⟨rfl, fun hx => h ((endsWith_iff _ _).2 hx)⟩

/-- C131: with `chomp: true` and no separator each line loses `\r\n`, `\n` or `\r` at its end and
nothing else. -/
theorem C131_lines_chomp_default (s : List Nat) :
    List.Forall₂ (fun a b => b = a ++ [13, 10] ∨ (b = a ++ [10] ∧ ¬ [13] <:+ a) ∨ b = a ++ [13] ∨
        (b = a ∧ ¬ [10] <:+ b ∧ ¬ [13] <:+ b))
      (lines s true .dflt) (lines s false .dflt) := by
  simp only [lines, linesDefault]
  rw [List.forall₂_map_left_iff, List.forall₂_map_right_iff]
  apply List.forall₂_same.2
  intro p _
  simp only [if_true, Bool.false_eq_true, if_false]
  unfold chompLine
  by_cases h1 : endsWith p [13, 10] = true
  · rw [if_pos h1]
    left
    obtain ⟨t, rfl⟩ := (endsWith_iff _ _).1 h1
    rw [show 2 = ([13, 10] : List Nat).length from rfl, take_suffix]
  · rw [if_neg h1]
    by_cases h2 : endsWith p [10] = true
    · rw [if_pos (Or.inl h2)]
      right; left
      obtain ⟨t, rfl⟩ := (endsWith_iff _ _).1 h2
      rw [show 1 = ([10] : List Nat).length from rfl, take_suffix]
      refine ⟨rfl, ?_⟩
      rintro ⟨u, rfl⟩
      apply h1
      rw [endsWith_iff]
      exact ⟨u, by simp⟩
    · by_cases h3 : endsWith p [13] = true
      · rw [if_pos (Or.inr h3)]
        right; right; left
        obtain ⟨t, rfl⟩ := (endsWith_iff _ _).1 h3
        rw [show 1 = ([13] : List Nat).length from rfl, take_suffix]
      · rw [if_neg (by simp [h2, h3])]
        right; right; right
        exact ⟨rfl, fun h => h2 ((endsWith_iff _ _).2 h), fun h => h3 ((endsWith_iff _ _).2 h)⟩

/-- C131 fails for the separator `"\n"` given explicitly: `"a\r\n".lines("\n", chomp: true)` keeps the
`\r` that `"a\r\n".lines(chomp: true)` takes away (in CRuby the two are the same). -/
theorem C131_lines_explicit_newline_fails :
    lines [97, 13, 10] true (.str [10]) = [[97, 13]] ∧ lines [97, 13, 10] true .dflt = [[97]] ∧
    lines [97, 13, 10] false (.str [10]) = lines [97, 13, 10] false .dflt := by decide

theorem paraLoop_spec : ∀ fuel rest, rest.length < fuel →
    ((paraLoop false fuel rest).flatten.filter (· ≠ 10)) = rest.filter (· ≠ 10) ∧
    (∀ p ∈ (paraLoop false fuel rest).dropLast, ∃ f, p = f ++ [10, 10] ∧ Clean [10, 10] f) ∧
    (∀ p, (paraLoop false fuel rest).getLast? = some p →
      (∃ f, p = f ++ [10, 10] ∧ Clean [10, 10] f) ∨ ∀ j, ¬ [10, 10] <+: p.drop j) ∧
    List.Forall₂ (fun a b => b = a ++ [10, 10] ∨ (b = a ∧ ∀ j, ¬ [10, 10] <+: b.drop j))
      (paraLoop true fuel rest) (paraLoop false fuel rest) := by
  intro fuel
  induction fuel with
  | zero => intro rest h; omega
  | succ n ih =>
    intro rest hlen
    rw [paraLoop, paraLoop]
    by_cases hr : rest = []
    · subst hr; simp
    simp only [if_neg hr]
    cases hc : paraCut rest with
    | none =>
      have := paraCut_none rest hc
      simp only [List.flatten_cons, List.flatten_nil, List.append_nil, List.dropLast_singleton,
        List.not_mem_nil, false_imp_iff, implies_true, List.getLast?_singleton, Option.some.injEq,
        forall_eq', true_and]
      exact ⟨Or.inr this, List.Forall₂.cons (Or.inr ⟨rfl, this⟩) List.Forall₂.nil⟩
    | some ar =>
      obtain ⟨a, r⟩ := ar
      obtain ⟨m, e1, e2, e3⟩ := paraCut_some rest a r hc
      have hlt : r.length < n := by
        rw [e1] at hlen
        simp at hlen
        omega
      obtain ⟨a1, a2, a3, a4⟩ := ih r hlt
      simp only [Bool.false_eq_true, if_false, if_true]
      refine ⟨?_, ?_, ?_, List.Forall₂.cons (Or.inl rfl) a4⟩
      · rw [List.flatten_cons, List.filter_append, a1]
        conv_rhs => rw [e1]
        simp [List.filter_replicate]
      · intro p hpm
        cases hL : paraLoop false n r with
        | nil => rw [hL] at hpm; simp at hpm
        | cons y l =>
          rw [hL, List.dropLast_cons_cons, List.mem_cons] at hpm
          rcases hpm with rfl | hpm
          · exact ⟨_, rfl, e3⟩
          · exact a2 p (by rw [hL]; exact hpm)
      · intro p hpl
        cases hL : paraLoop false n r with
        | nil =>
          rw [hL] at hpl
          simp only [List.getLast?_singleton, Option.some.injEq] at hpl
          subst hpl
          exact Or.inl ⟨_, rfl, e3⟩
        | cons y l =>
          rw [hL, List.getLast?_cons_cons] at hpl
          exact a3 p (by rw [hL]; exact hpl)

/-- C131: `lines("")` gives paragraphs: nothing is lost but newlines; each paragraph but the last ends
with two newlines, which stand nowhere before its end; `chomp: true` takes those two away and nothing
else. -/
theorem C131_paragraphs (s : List Nat) :
    ((lines s false (.str [])).flatten.filter (· ≠ 10)) = s.filter (· ≠ 10) ∧
    (∀ p ∈ (lines s false (.str [])).dropLast, ∃ f, p = f ++ [10, 10] ∧ Clean [10, 10] f) ∧
    (∀ p, (lines s false (.str [])).getLast? = some p →
      (∃ f, p = f ++ [10, 10] ∧ Clean [10, 10] f) ∨ ∀ j, ¬ [10, 10] <+: p.drop j) ∧
    List.Forall₂ (fun a b => b = a ++ [10, 10] ∨ (b = a ∧ ∀ j, ¬ [10, 10] <+: b.drop j))
      (lines s true (.str [])) (lines s false (.str [])) :=
  paraLoop_spec _ s (by omega)

example : lines [97, 10, 98, 10, 10, 10, 99] false (.str []) = [[97, 10, 98, 10, 10], [99]] := by
  decide

/-! ## chomp -/

/-- C131: `chomp` takes one `\r\n`, `\n` or `\r` from the end and nothing else. -/
theorem C131_chomp (t : List Nat) :
    chomp (t ++ [13, 10]) [10] = t ∧
    (¬ [13] <:+ t → chomp (t ++ [10]) [10] = t) ∧
    chomp (t ++ [13]) [10] = t ∧
    (¬ [10] <:+ t → ¬ [13] <:+ t → chomp t [10] = t) := by
  refine ⟨?_, fun h => ?_, ?_, fun h1 h2 => ?_⟩
  · simp [chomp, chompOne]
  · rw [← List.reverse_prefix] at h
    simp only [chomp, List.reverse_append]
    rw [if_neg (by decide), if_pos trivial]
    cases hr : t.reverse with
    | nil => simp at hr; subst hr; rfl
    | cons x l =>
      rw [hr] at h
      have hx : x ≠ 13 := by
        rintro rfl
        exact h (by simp)
      have ht : t = (x :: l).reverse := by rw [← hr, List.reverse_reverse]
      simp only [List.reverse_cons, List.reverse_nil, List.nil_append, List.cons_append]
      unfold chompOne
      split
      · rename_i heq; simp at heq; exact absurd heq.1 hx
      · rename_i heq; simp at heq; rw [← heq, ht]
      · rename_i heq; simp at heq
      · rename_i h3 _; exact absurd rfl (h3 _)
  · simp [chomp, chompOne]
  · rw [← List.reverse_prefix] at h1 h2
    unfold chomp
    rw [if_neg (by decide), if_pos rfl]
    unfold chompOne
    split
    · rename_i heq; rw [heq] at h1; simp at h1
    · rename_i heq; rw [heq] at h1; simp at h1
    · rename_i heq; rw [heq] at h2; simp at h2
    · simp

theorem chompPara_spec (l : List Nat) : ∃ p, l = p ++ chompPara l ∧ (∀ c ∈ p, c = 10 ∨ c = 13) ∧
    (chompPara l).head? ≠ some 10 := by
  fun_induction chompPara l with
  | case1 t ih =>
    obtain ⟨p, e, h1, h2⟩ := ih
    refine ⟨10 :: 13 :: p, by rw [List.cons_append, List.cons_append, ← e], ?_, h2⟩
    intro c hc
    simp only [List.mem_cons] at hc
    rcases hc with rfl | rfl | hc
    · exact Or.inl rfl
    · exact Or.inr rfl
    · exact h1 c hc
  | case2 t _ ih =>
    obtain ⟨p, e, h1, h2⟩ := ih
    refine ⟨10 :: p, by rw [List.cons_append, ← e], ?_, h2⟩
    intro c hc
    simp only [List.mem_cons] at hc
    rcases hc with rfl | hc
    · exact Or.inl rfl
    · exact h1 c hc
  | case3 l h1 h2 =>
    refine ⟨[], rfl, by simp, ?_⟩
    cases l with
    | nil => simp
    | cons x t =>
      intro hx
      simp only [List.head?_cons, Option.some.injEq] at hx
      subst hx
      exact h2 t rfl

/-- C131: `chomp("")` takes newlines from the end until the string ends with none. -/
theorem C131_chomp_paragraph (s : List Nat) :
    ∃ p, s = chomp s [] ++ p ∧ (∀ c ∈ p, c = 10 ∨ c = 13) ∧ ¬ [10] <:+ chomp s [] := by
  obtain ⟨p, e, h1, h2⟩ := chompPara_spec s.reverse
  refine ⟨p.reverse, ?_, fun c hc => h1 c (by simpa using hc), ?_⟩
  · have := congrArg List.reverse e
    simpa [chomp] using this
  · rw [← List.reverse_prefix]
    simp only [chomp, if_true, List.reverse_reverse]
    intro hp
    cases hc : chompPara s.reverse with
    | nil => rw [hc] at hp; simp at hp
    | cons x t =>
      rw [hc] at hp h2
      simp only [List.reverse_cons, List.reverse_nil, List.nil_append, List.cons_prefix_cons] at hp
      simp [← hp.1] at h2

example : chomp [97, 13, 10, 10] [] = [97] := by decide

/-- C131, part: `chomp(rs)` leaves a string that does not end with `rs`, and takes `rs` from the end
of one that ends with it once.

Missing: a string that ends with `rs` more than once: see the next theorem. -/
theorem C131_chomp_separator_partial (t rs : List Nat) (h0 : rs ≠ []) (h1 : rs ≠ [10])
    (ht : ¬ rs <:+ t) : chomp t rs = t ∧ chomp (t ++ rs) rs = t := by
  have hp : ¬ rs.reverse.isPrefixOf t.reverse = true := by
    rw [List.isPrefixOf_iff_prefix, List.reverse_prefix]; exact ht
  have stop : ∀ f, chompAll rs.reverse f t.reverse = t.reverse := by
    intro f
    cases f with
    | zero => rfl
    | succ f => rw [chompAll, if_neg hp]
  unfold chomp
  rw [if_neg h0, if_neg h1, if_neg h0, if_neg h1, stop, chompAll, List.reverse_append,
    if_pos (by rw [List.isPrefixOf_iff_prefix]; exact List.prefix_append _ _), List.drop_left, stop]
  exact ⟨List.reverse_reverse t, List.reverse_reverse t⟩

example : chomp [104, 101, 108, 108, 111] [108, 111] = [104, 101, 108] := by decide

/-- C131 fails for a separator that stands at the end more than once: `"hellollo".chomp("llo")` takes
both away and gives `"he"`. -/
theorem C131_chomp_separator_fails :
    chomp [104, 101, 108, 108, 111, 108, 108, 111] [108, 108, 111] = [104, 101] := by decide

/-! ## strip -/

/-- C131: `strip` takes white characters and NUL from both ends and nothing else: what is left
neither begins nor ends with one. -/
theorem C131_strip (s : List Nat) :
    ∃ a b, s = a ++ strip s ++ b ∧ (∀ c ∈ a ++ b, c ∈ [0, 9, 10, 11, 12, 13, 32]) ∧
      (∀ c, (strip s).head? = some c → c ∉ [0, 9, 10, 11, 12, 13, 32]) ∧
      (∀ c, (strip s).getLast? = some c → c ∉ [0, 9, 10, 11, 12, 13, 32]) := by
  have hset : ∀ c, stripByte c = true ↔ c ∈ [0, 9, 10, 11, 12, 13, 32] := by
    intro c; simp only [stripByte, List.contains_iff_mem, List.mem_cons, List.not_mem_nil, or_false]; omega
  have hset' : ∀ c, stripByte c = false → c ∉ [0, 9, 10, 11, 12, 13, 32] := by
    intro c h hm
    rw [(hset c).2 hm] at h; cases h
  unfold strip
  obtain ⟨h1, h2, h3⟩ := stripEnd_spec s s.length
  generalize stripEnd s s.length = e at h1 h2 h3
  obtain ⟨g1, g2, g3, g4⟩ := stripStart_spec s e 0
  simp only
  generalize stripStart s e 0 = b at g1 g2 g3 g4
  have hb : b ≤ e := by omega
  refine ⟨s.take b, s.drop e, ?_, ?_, ?_, ?_⟩
  · have : (s.take e) = s.take b ++ (s.take e).drop b := by
      conv_lhs => rw [← List.take_append_drop b (s.take e)]
      rw [List.take_take, Nat.min_eq_left hb]
    rw [← this, List.take_append_drop]
  · intro c hc
    rw [← hset]
    rcases List.mem_append.1 hc with hc | hc
    · obtain ⟨j, hj, rfl⟩ := List.mem_iff_getElem.1 hc
      rw [List.length_take] at hj
      have := g3 j (Nat.zero_le _) (by omega)
      rw [List.getD_eq_getElem _ _ (by omega)] at this
      rw [List.getElem_take]
      exact this
    · obtain ⟨j, hj, rfl⟩ := List.mem_iff_getElem.1 hc
      rw [List.length_drop] at hj
      have := h2 (e + j) (by omega) (by omega)
      rw [List.getD_eq_getElem _ _ (by omega)] at this
      rw [List.getElem_drop]
      exact this
  · intro c hc
    apply hset'
    rw [List.head?_drop] at hc
    have hlt : b < e := by
      by_contra hx
      rw [List.getElem?_eq_none (by rw [List.length_take]; omega)] at hc
      cases hc
    rw [List.getElem?_eq_getElem (by rw [List.length_take]; omega), List.getElem_take] at hc
    cases hc
    have := g4 (by omega)
    rwa [List.getD_eq_getElem _ _ (by omega)] at this
  · intro c hc
    apply hset'
    have hlt : b < e := by
      by_contra hx
      rw [List.drop_eq_nil_of_le (by rw [List.length_take]; omega)] at hc
      cases hc
    rw [List.getLast?_eq_getElem?, List.getElem?_drop, List.length_drop, List.length_take] at hc
    have he : b + (min e s.length - b - 1) = e - 1 := by omega
    rw [he, List.getElem?_eq_getElem (by rw [List.length_take]; omega), List.getElem_take] at hc
    cases hc
    have := h3 (by omega)
    rwa [List.getD_eq_getElem _ _ (by omega)] at this

example : strip [32, 0, 97, 32, 98, 10, 32] = [97, 32, 98] ∧ strip [32, 9] = [] := by decide

/-- C131: `strip!` gives `nil` exactly when `strip` changes nothing. -/
theorem C131_strip_bang (s : List Nat) :
    (stripBang s = none ↔ strip s = s) ∧ ∀ r, stripBang s = some r → r = strip s := by
  unfold stripBang strip
  obtain ⟨h1, _, _⟩ := stripEnd_spec s s.length
  generalize stripEnd s s.length = e at h1
  obtain ⟨_, g2, _, _⟩ := stripStart_spec s e 0
  simp only
  generalize stripStart s e 0 = b at g2
  have hlen : ((s.take e).drop b).length = e - b := by
    rw [List.length_drop, List.length_take]; omega
  constructor
  · constructor
    · intro h
      split_ifs at h with hc
      have he : e = s.length := by omega
      by_cases hs : s = []
      · subst hs; simp
      · have : 0 < s.length := List.length_pos_iff.2 hs
        have hb : b = 0 := by omega
        rw [he, hb]; simp
    · intro h
      rw [if_pos (by rw [← hlen, h])]
  · intro r h
    split_ifs at h
    cases h
    rfl

end Verif.Text
