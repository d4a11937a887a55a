import Verif.Records.Lemmas
import Mathlib.Data.List.Forall2

/-!
# C148: File.readlines

The specification is what repeated `gets` gives: `lineSpec` (Verif/IoBuf/IoSpec.lean), which
`IO#gets` is proved to return in Verif/IoBuf/IoProps.lean and which `IO.readlines` and `IO.foreach`
call in a loop.
-/

namespace Verif.Records

open Verif.IoBuf

/-- `gets` until it returns nil gives these lines. -/
inductive Gets (sep : Option (List Byte)) (limit : Option Nat) (complete : Bool) :
    List Byte → List (List Byte) → Prop
  | done {rest : List Byte} : (lineSpec sep limit complete rest).1 = none → Gets sep limit complete rest []
  | line {rest rest' l : List Byte} {ls : List (List Byte)} :
      lineSpec sep limit complete rest = (some l, rest') → Gets sep limit complete rest' ls →
      Gets sep limit complete rest (l :: ls)

/-- There is one such list at most. -/
theorem Gets.unique {sep : Option (List Byte)} {limit : Option Nat} {complete : Bool}
    {rest : List Byte} {ls ms : List (List Byte)} (h : Gets sep limit complete rest ls)
    (h' : Gets sep limit complete rest ms) : ls = ms := by
  induction h generalizing ms with
  | done h =>
    cases h' with
    | done => rfl
    | line h1 => rw [h1] at h; cases h
  | line h1 _ ih =>
    cases h' with
    | done h => rw [h1] at h; cases h
    | line h2 h3 =>
      rw [h1] at h2
      cases h2
      rw [ih h3]

theorem Gets.congr {sep : Option (List Byte)} {limit : Option Nat} {complete : Bool}
    {a b : List Byte} (e : lineSpec sep limit complete a = lineSpec sep limit complete b)
    {ls : List (List Byte)} (h : Gets sep limit complete a ls) : Gets sep limit complete b ls := by
  cases h with
  | done h => exact .done (by rw [← e]; exact h)
  | line h h' => exact .line (by rw [← e]; exact h) h'

theorem dropWhile_twice (p : Byte → Bool) (l : List Byte) :
    (l.dropWhile p).dropWhile p = l.dropWhile p := by
  induction l with
  | nil => rfl
  | cons b t ih =>
    by_cases h : p b = true
    · rw [List.dropWhile_cons_of_pos h, ih]
    · rw [List.dropWhile_cons_of_neg h, List.dropWhile_cons_of_neg h]

theorem lineSpec_skip (limit : Option Nat) (hl : limit ≠ some 0) (complete : Bool) (x : List Byte) :
    lineSpec (some []) limit complete (x.dropWhile (· == nl)) =
      lineSpec (some []) limit complete x := by
  unfold lineSpec
  rw [if_neg hl, if_neg hl]
  simp only [dropWhile_twice]

theorem sepLoop_gets {s : List Byte} (hs : s ≠ []) {limit : Option Nat} (hl : limit ≠ some 0)
    {complete : Bool} (hlc : limit = none ∨ complete = false) :
    ∀ (k : Nat) (content : List Byte), content.length ≤ k →
      ∃ ls, sepLoop s limit k content = some ls ∧ Gets (some s) limit complete content ls := by
  have spec : ∀ content : List Byte, lineSpec (some s) limit complete content =
      (if content = [] then none else some (content.take (capEnd limit (recordEnd s content))),
        content.drop (capEnd limit (recordEnd s content))) := by
    intro content
    have h0 : 0 < recordEnd s content ∨ content = [] := by
      by_cases hc : content = []
      · exact Or.inr hc
      · exact Or.inl (first_pos hs hc (recordEnd_first hs content))
    have h := sepSpec_eq (s := s) hlc (recordEnd_first hs content) content [] rfl
      (fun k hk => Or.inr (Nat.le_zero.mp hk)) (fun l _ => Nat.zero_le _) (Nat.zero_le _) h0
    unfold lineSpec
    rw [if_neg hl]
    cases s with
    | nil => exact absurd rfl hs
    | cons b t =>
      simp only [h]
      by_cases hc : content = []
      · subst hc
        simp
      · have hp := capEnd_pos hl (first_pos hs hc (recordEnd_first hs content))
        have : content.take (capEnd limit (recordEnd (b :: t) content)) ≠ [] := by
          intro h
          rw [List.take_eq_nil_iff] at h
          rcases h with h | h
          · omega
          · exact hc h
        rw [if_neg this, if_neg hc]
  intro k
  induction k with
  | zero =>
    intro content h
    have : content = [] := List.length_eq_zero_iff.mp (by omega)
    subst this
    exact ⟨[], rfl, .done (by rw [spec]; rfl)⟩
  | succ k ih =>
    intro content h
    cases hc : content with
    | nil => exact ⟨[], rfl, .done (by rw [spec]; rfl)⟩
    | cons b t =>
      rw [← hc]
      have hne : content ≠ [] := by rw [hc]; simp
      have hp := capEnd_pos hl (first_pos hs hne (recordEnd_first hs content))
      obtain ⟨ls, h1, h2⟩ := ih (content.drop (capEnd limit (recordEnd s content))) (by
        rw [List.length_drop]
        have := List.length_pos_iff.mpr hne
        omega)
      refine ⟨content.take (capEnd limit (recordEnd s content)) :: ls, ?_, ?_⟩
      · rw [hc] at h1 ⊢
        simp only [sepLoop, h1, Option.map_some]
      · exact .line (by rw [spec, if_neg hne]) h2

theorem paraLoop_gets {complete : Bool} :
    ∀ (k : Nat) (content : List Byte), content.length ≤ k →
      ∃ ls, paraLoop k content = some ls ∧ Gets (some []) none complete content ls := by
  intro k
  induction k with
  | zero =>
    intro content h
    have : content = [] := List.length_eq_zero_iff.mp (by omega)
    subst this
    exact ⟨[], rfl, .done rfl⟩
  | succ k ih =>
    intro content h
    cases hc : content with
    | nil => exact ⟨[], rfl, .done rfl⟩
    | cons b0 t0 =>
      rw [← hc]
      cases hd : content.dropWhile (· == nl) with
      | nil =>
        refine ⟨[], ?_, .done ?_⟩
        · rw [hc] at hd ⊢
          simp only [paraLoop, hd]
        · unfold lineSpec
          rw [if_neg (by simp)]
          simp only [hd]
      | cons b r =>
        have hlen : (b :: r).length ≤ content.length := by
          rw [← hd]
          exact (List.dropWhile_sublist _).length_le
        have hb : b ≠ nl := by
          intro h
          have := dropWhile_twice (· == nl) content
          rw [hd, List.dropWhile_cons_of_pos (by simp [h])] at this
          have h2 := congrArg List.length this
          have h3 := (List.dropWhile_sublist (· == nl) (l := r)).length_le
          simp only [List.length_cons] at h2
          omega
        have hf := recordEnd_first (s := [nl, nl]) (by simp) (b :: r)
        have hp := first_pos (by simp) (by simp) hf
        have hE : ∀ k ≤ [b].length, ¬ Ends [nl, nl] (b :: r) k := by
          intro k hk hE
          rw [ends_iff] at hE
          obtain ⟨u, v, -, h2⟩ := hE
          simp only [List.length_cons, List.length_nil] at hk h2
          omega
        obtain ⟨e1, e2⟩ := paraSpec_eq (complete := complete) hf r [b] rfl hE hp
        obtain ⟨ls, h1, h2⟩ := ih ((b :: r).drop (recordEnd [nl, nl] (b :: r))) (by
          rw [List.length_drop]
          have : (b :: r).length = r.length + 1 := rfl
          omega)
        refine ⟨(b :: r).take (recordEnd [nl, nl] (b :: r)) :: ls, ?_, ?_⟩
        · rw [hc] at hd ⊢
          simp only [paraLoop, hd, h1, Option.map_some]
        · have hls : lineSpec (some []) none complete content =
              (some (paraSpec none complete [b] r).1,
                if (paraSpec none complete [b] r).2.1 then
                  (paraSpec none complete [b] r).2.2.dropWhile (· == nl)
                else (paraSpec none complete [b] r).2.2) := by
            unfold lineSpec
            rw [if_neg (by simp)]
            simp only [hd]
          rw [e1, e2] at hls
          refine .line hls ?_
          split
          · exact h2.congr (lineSpec_skip none (by simp) complete _).symm
          · exact h2

/-- **C148 (partial).** Without a limit — and with one if the separator is a non-empty String and the
encoding is a single-byte one — File.readlines gives the lines that `gets` gives one after another.
Missing: the other cases with a limit, see the `_fails` theorems. -/
theorem C148_gets_partial (content : List Byte) (sep : Option (List Byte)) (limit : Option Nat)
    (complete : Bool) (k : Nat) (hk : content.length ≤ k)
    (h : limit = none ∨
      (complete = false ∧ limit ≠ some 0 ∧ ∃ s, sep = some s ∧ s ≠ [])) :
    ∃ ls, splitRecords k content sep limit false = some ls ∧ Gets sep limit complete content ls := by
  cases sep with
  | none =>
    rcases h with rfl | ⟨-, -, s, hs, -⟩
    · by_cases hc : content = []
      · exact ⟨[], by simp [splitRecords, hc], .done (by simp [lineSpec, hc])⟩
      · refine ⟨[content], by simp [splitRecords, hc], .line (rest' := []) ?_ (.done rfl)⟩
        simp [lineSpec, hc]
    · cases hs
  | some s =>
    cases s with
    | nil =>
      rcases h with rfl | ⟨-, -, s, hs, hne⟩
      · obtain ⟨ls, h1, h2⟩ := paraLoop_gets (complete := complete) k content hk
        exact ⟨ls, by simp [splitRecords, h1], h2⟩
      · cases hs
        exact absurd rfl hne
    | cons b t =>
      have hl : limit ≠ some 0 := by
        rcases h with rfl | h
        · simp
        · exact h.2.1
      have hlc : limit = none ∨ complete = false := h.imp id (·.1)
      obtain ⟨ls, h1, h2⟩ := sepLoop_gets (s := b :: t) (by simp) hl hlc k content hk
      exact ⟨ls, by simp [splitRecords, h1], h2⟩

example : splitRecords 9 [97, 10, 98, 99, 10, 100] (some [10]) none false =
    some [[97, 10], [98, 99, 10], [100]] := by decide +kernel
example : splitRecords 9 [10, 97, 10, 10, 10, 98] (some []) none false =
    some [[97, 10, 10], [98]] := by decide +kernel
example : splitRecords 9 [97, 98, 99, 10, 100] (some [10]) (some 2) false =
    some [[97, 98], [99, 10], [100]] := by decide +kernel

theorem sepLoop_spec {s : List Byte} (hs : s ≠ []) {limit : Option Nat} :
    ∀ (k : Nat) (content : List Byte) (ls : List (List Byte)),
      sepLoop s limit k content = some ls →
      ls.flatten = content ∧ (∀ r ∈ ls, ∀ l, limit = some l → r.length ≤ l) ∧
      (limit ≠ some 0 → ∀ r ∈ ls, r ≠ []) ∧
      (∀ r ∈ ls, ∀ u v, r = u ++ s ++ v → v = []) ∧
      (limit = none → ∀ r ∈ ls.dropLast, s <:+ r) := by
  intro k
  induction k with
  | zero =>
    intro content ls h
    cases content with
    | nil => cases h; simp
    | cons b t => cases h
  | succ k ih =>
    intro content ls h
    cases hc : content with
    | nil => rw [hc] at h; cases h; simp
    | cons b t =>
      have hne : content ≠ [] := by rw [hc]; simp
      rw [← hc]
      have hu : sepLoop s limit (k + 1) content =
          (sepLoop s limit k (content.drop (capEnd limit (recordEnd s content)))).map
            (content.take (capEnd limit (recordEnd s content)) :: ·) := by
        rw [hc]
        rfl
      rw [hu] at h
      have hf := recordEnd_first hs content
      have hle := capEnd_le limit (recordEnd s content)
      generalize hE : capEnd limit (recordEnd s content) = E at *
      cases e : sepLoop s limit k (content.drop E) with
      | none => rw [e] at h; cases h
      | some ms =>
        rw [e] at h
        cases h
        obtain ⟨h1, h2, h3, h4, h5⟩ := ih _ _ e
        refine ⟨?_, ?_, ?_, ?_, ?_⟩
        · rw [List.flatten_cons, h1, List.take_append_drop]
        · intro r hr l hl
          rcases List.mem_cons.mp hr with rfl | hr
          · rw [List.length_take]
            subst hl
            unfold capEnd at hE
            simp only at hE
            split at hE <;> omega
          · exact h2 r hr l hl
        · intro hl r hr
          rcases List.mem_cons.mp hr with rfl | hr
          · have hp := capEnd_pos hl (first_pos hs hne hf)
            rw [hE] at hp
            intro h
            rw [List.take_eq_nil_iff] at h
            rcases h with h | h
            · omega
            · exact hne h
          · exact h3 hl r hr
        · intro r hr u v huv
          rcases List.mem_cons.mp hr with rfl | hr
          · have hlen := congrArg List.length huv
            rw [List.length_take] at hlen
            simp only [List.length_append] at hlen
            have hEn : Ends s content (u.length + s.length) := by
              rw [ends_iff]
              exact ⟨u, v ++ content.drop E, by
                rw [← List.append_assoc, ← huv, List.take_append_drop], rfl⟩
            have : recordEnd s content ≤ u.length + s.length := by
              rcases hf with ⟨-, h⟩ | ⟨-, h⟩
              · exact Nat.le_of_not_lt fun hlt => h _ hlt hEn
              · exact absurd hEn (h _)
            exact List.length_eq_zero_iff.mp (by omega)
          · exact h4 r hr u v huv
        · intro hl r hr
          subst hl
          have hEr : E = recordEnd s content := hE.symm
          cases ms with
          | nil => simp at hr
          | cons m ms =>
            rw [List.dropLast_cons_of_ne_nil (by simp)] at hr
            rcases List.mem_cons.mp hr with rfl | hr
            · rcases hf with ⟨h, -⟩ | ⟨h, -⟩
              · rw [hEr]
                exact h.2
              · rw [hEr, h, List.drop_length] at e
                have : sepLoop s none k [] = some [] := by cases k <;> rfl
                rw [this] at e
                cases e
            · exact h5 rfl r hr

/-- **C148** With a separator that is not empty the records joined are the file; none is longer than
the limit; the separator is in a record only at its end, and without a limit it ends every record but
the last. -/
theorem C148_records (content s : List Byte) (hs : s ≠ []) (limit : Option Nat) (k : Nat)
    (ls : List (List Byte)) (h : splitRecords k content (some s) limit false = some ls) :
    ls.flatten = content ∧ (∀ r ∈ ls, ∀ l, limit = some l → r.length ≤ l) ∧
    (∀ r ∈ ls, ∀ u v, r = u ++ s ++ v → v = []) ∧
    (limit = none → (∀ r ∈ ls, r ≠ []) ∧ ∀ r ∈ ls.dropLast, s <:+ r) := by
  cases s with
  | nil => exact absurd rfl hs
  | cons b t =>
    have h' : sepLoop (b :: t) limit k content = some ls := by simpa [splitRecords] using h
    obtain ⟨h1, h2, h3, h4, h5⟩ := sepLoop_spec hs k content ls h'
    exact ⟨h1, h2, h4, fun hl => ⟨h3 (by rw [hl]; simp), h5 hl⟩⟩

/-- **C148** `chomp: true` takes from every record what it would be without: the separator at its end,
and with the separator "\n" also a "\r" before that. -/
theorem C148_chomp (content s : List Byte) (hs : s ≠ []) (limit : Option Nat) (k : Nat)
    (ls : List (List Byte)) (h : splitRecords k content (some s) limit false = some ls) :
    ∃ ms, splitRecords k content (some s) limit true = some ms ∧
      List.Forall₂ (fun r m => (¬ s <:+ r ∧ m = r) ∨ (s ≠ [10] ∧ r = m ++ s) ∨
        (s = [10] ∧ ((r = m ++ [10] ∧ ¬ [13] <:+ m) ∨ r = m ++ [13, 10]))) ls ms := by
  cases s with
  | nil => exact absurd rfl hs
  | cons b t =>
    have h' : sepLoop (b :: t) limit k content = some ls := by simpa [splitRecords] using h
    refine ⟨ls.map (chompLine (some (b :: t))), by simp [splitRecords, h'], ?_⟩
    clear h h'
    induction ls with
    | nil => exact .nil
    | cons r ls ih =>
      refine .cons ?_ ih
      unfold chompLine
      by_cases hsuf : (b :: t).isSuffixOf r = true
      · simp only [hsuf, if_true]
        obtain ⟨u, hu⟩ := List.isSuffixOf_iff_suffix.mp hsuf
        have htk : r.take (r.length - (b :: t).length) = u := by
          rw [← hu, List.length_append, Nat.add_sub_cancel, List.take_left]
        rw [htk]
        right
        by_cases hn : b :: t = [nl]
        · right
          refine ⟨hn, ?_⟩
          rw [hn] at hu
          by_cases h13 : [13].isSuffixOf u = true
          · right
            rw [if_pos ⟨hn, h13⟩]
            obtain ⟨w, hw⟩ := List.isSuffixOf_iff_suffix.mp h13
            rw [← hu, ← hw, List.dropLast_concat, List.append_assoc]
            rfl
          · left
            rw [if_neg (fun h => h13 h.2)]
            exact ⟨hu.symm, fun h => h13 (List.isSuffixOf_iff_suffix.mpr h)⟩
        · left
          rw [if_neg (fun h => hn h.1)]
          exact ⟨hn, hu.symm⟩
      · left
        simp only [hsuf, Bool.false_eq_true, if_false, and_true]
        exact (fun h => hsuf (List.isSuffixOf_iff_suffix.mpr h))

example : splitRecords 9 [97, 13, 10, 98, 10, 99] (some [10]) none true = some [[97], [98], [99]] := by
  decide +kernel

/-- **C148** In paragraph mode `chomp: true` takes the blank line from the end of a record, and with a
nil separator nothing. -/
theorem C148_chomp_paragraph (content : List Byte) (limit : Option Nat) (k : Nat)
    (ls : List (List Byte)) (h : splitRecords k content (some []) limit false = some ls) :
    (∃ ms, splitRecords k content (some []) limit true = some ms ∧
      List.Forall₂ (fun r m => (¬ [10, 10] <:+ r ∧ m = r) ∨ r = m ++ [10, 10]) ls ms) ∧
    splitRecords k content none limit true = splitRecords k content none limit false := by
  constructor
  · have h' : paraLoop k content = some ls := by simpa [splitRecords] using h
    refine ⟨ls.map (chompLine (some [])), by simp [splitRecords, h'], ?_⟩
    clear h h'
    induction ls with
    | nil => exact .nil
    | cons r ls ih =>
      refine .cons ?_ ih
      unfold chompLine
      by_cases hsuf : [nl, nl].isSuffixOf r = true
      · right
        simp only [hsuf, if_true]
        obtain ⟨u, hu⟩ := List.isSuffixOf_iff_suffix.mp hsuf
        rw [← hu, List.length_append, List.take_left' (by simp)]
        rfl
      · left
        simp only [hsuf, Bool.false_eq_true, if_false, and_true]
        exact fun h => hsuf (List.isSuffixOf_iff_suffix.mpr h)
  · by_cases hc : content = [] <;> simp [splitRecords, hc, chompLine]

example : splitRecords 9 [97, 10, 10, 98, 10] (some []) none true = some [[97], [98, 10]] := by
  decide +kernel

/-- **C148 fails.** With the limit 0, for which IO.readlines raises ArgumentError, File.readlines of a
file that is not empty never returns: however many rounds the loop is given, they do not suffice. -/
theorem C148_limit_zero_fails (content s : List Byte) (hc : content ≠ []) (hs : s ≠ []) (chomp : Bool)
    (k : Nat) : splitRecords k content (some s) (some 0) chomp = none := by
  have key : ∀ k, sepLoop s (some 0) k content = none := by
    intro k
    cases content with
    | nil => exact absurd rfl hc
    | cons b t =>
      induction k with
      | zero => rfl
      | succ k ih =>
        have : capEnd (some 0) (recordEnd s (b :: t)) = 0 := by
          unfold capEnd
          simp only
          split <;> omega
        simp only [sepLoop, this, List.drop_zero, ih, Option.map_none]
  cases s with
  | nil => exact absurd rfl hs
  | cons b t => cases chomp <;> simp [splitRecords, key]

/-- **C148 fails.** The limit is ignored when the separator is nil and in paragraph mode: `gets(nil, 2)`
reads "ab" and then "c", `gets("", 2)` likewise. -/
theorem C148_limit_ignored_fails :
    splitRecords 9 [97, 98, 99] none (some 2) false = some [[97, 98, 99]] ∧
    Gets none (some 2) true [97, 98, 99] [[97, 98], [99]] ∧
    splitRecords 9 [97, 98, 99] (some []) (some 2) false = some [[97, 98, 99]] ∧
    Gets (some []) (some 2) true [97, 98, 99] [[97, 98], [99]] := by
  refine ⟨by decide +kernel, .line (rest' := [99]) (by decide +kernel) (.line (rest' := []) (by decide +kernel) (.done (by decide +kernel))),
    by decide +kernel, .line (rest' := [99]) (by decide +kernel) (.line (rest' := []) (by decide +kernel) (.done (by decide +kernel)))⟩

/-- **C148 fails.** A limit cuts a UTF-8 character in two, which `gets` does not: "é" with the limit
1. -/
theorem C148_limit_char_fails :
    splitRecords 9 [0xc3, 0xa9] (some [10]) (some 1) false = some [[0xc3], [0xa9]] ∧
    Gets (some [10]) (some 1) true [0xc3, 0xa9] [[0xc3, 0xa9]] := by
  exact ⟨by decide +kernel, .line (rest' := []) (by decide +kernel) (.done (by decide +kernel))⟩

end Verif.Records
