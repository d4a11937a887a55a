import Verif.Text.SearchModel
import Mathlib.Tactic.SplitIfs
import Mathlib.Tactic.Linarith

/-!
# C130: searching a string for a string

An occurrence at character `k` is said with `<+:` (is a prefix of) on what follows the first `k`
characters.
-/

namespace Verif.Text

/-! ## Lemmas on the loops -/

theorem findUp_some {p : Nat → Bool} {n lo k : Nat} (h : findUp p lo n = some k) :
    lo ≤ k ∧ k < lo + n ∧ p k = true ∧ ∀ j, lo ≤ j → j < k → p j = false := by
  induction n generalizing lo with
  | zero => cases h
  | succ n ih =>
    rw [findUp] at h
    split_ifs at h with hp
    · cases h
      exact ⟨Nat.le_refl _, by omega, hp, fun j h1 h2 => by omega⟩
    · obtain ⟨h1, h2, h3, h4⟩ := ih h
      refine ⟨by omega, by omega, h3, fun j hj1 hj2 => ?_⟩
      by_cases hj : j = lo
      · subst hj; simpa using hp
      · exact h4 j (by omega) hj2

theorem findUp_none {p : Nat → Bool} {n lo : Nat} (h : findUp p lo n = none) :
    ∀ j, lo ≤ j → j < lo + n → p j = false := by
  induction n generalizing lo with
  | zero => intro j h1 h2; omega
  | succ n ih =>
    rw [findUp] at h
    split_ifs at h with hp
    intro j h1 h2
    by_cases hj : j = lo
    · subst hj; simpa using hp
    · exact ih h j (by omega) (by omega)

theorem findDown_some {p : Nat → Bool} {n k : Nat} (h : findDown p n = some k) :
    k < n ∧ p k = true ∧ ∀ j, k < j → j < n → p j = false := by
  induction n with
  | zero => cases h
  | succ n ih =>
    rw [findDown] at h
    split_ifs at h with hp
    · cases h
      exact ⟨by omega, hp, fun j h1 h2 => by omega⟩
    · obtain ⟨h1, h2, h3⟩ := ih h
      refine ⟨by omega, h2, fun j hj1 hj2 => ?_⟩
      by_cases hj : j = n
      · subst hj; simpa using hp
      · exact h3 j hj1 (by omega)

theorem findDown_none {p : Nat → Bool} {n : Nat} (h : findDown p n = none) :
    ∀ j, j < n → p j = false := by
  induction n with
  | zero => intro j hj; omega
  | succ n ih =>
    rw [findDown] at h
    split_ifs at h with hp
    intro j hj
    by_cases hjn : j = n
    · subst hjn; simpa using hp
    · exact ih h j (by omega)

theorem bounds_length (off : Nat) (cs : List (List Nat)) : (bounds off cs).length = cs.length := by
  induction cs generalizing off with
  | nil => rfl
  | cons c t ih => simp [bounds, ih]

theorem bounds_getD (cs : List (List Nat)) (off k : Nat) (h : k < cs.length) :
    (bounds off cs).getD k 0 = off + (cs.take k).flatten.length := by
  induction cs generalizing off k with
  | nil => simp at h
  | cons c t ih =>
    cases k with
    | zero => simp [bounds]
    | succ k =>
      rw [bounds, List.getD_cons_succ, ih _ k (by simpa using h)]
      simp; omega

theorem flatten_drop (cs : List (List Nat)) (k : Nat) :
    cs.flatten.drop (cs.take k).flatten.length = (cs.drop k).flatten := by
  conv_lhs => rw [← List.take_append_drop k cs, List.flatten_append]
  simp

theorem hit_iff (cs : List (List Nat)) (needle : List Nat) (k : Nat) (h : k < cs.length) :
    hit cs needle k = true ↔ needle <+: (cs.drop k).flatten := by
  unfold hit
  rw [bounds_getD cs 0 k h, Nat.zero_add, flatten_drop, List.isPrefixOf_iff_prefix]

theorem hit_false (cs : List (List Nat)) (needle : List Nat) (k : Nat) (h : k < cs.length)
    (hh : hit cs needle k = false) : ¬ needle <+: (cs.drop k).flatten := by
  intro hp
  rw [(hit_iff cs needle k h).2 hp] at hh
  cases hh

/-- past the end only the empty string is found -/
theorem not_prefix_end (cs : List (List Nat)) (needle : List Nat) (hn : needle ≠ []) (k : Nat)
    (h : cs.length ≤ k) : ¬ needle <+: (cs.drop k).flatten := by
  rw [List.drop_eq_nil_of_le h]
  intro hp
  exact hn (List.prefix_nil.1 hp)

/-! ## `index` and `rindex` on bytes -/

/-- C130: `index(needle, pos)` gives the first place at or after `pos` where the needle occurs, and
`nil` exactly when there is none (a `pos` below zero counts from the end; one outside the string
gives `nil`).  For every receiver: any encoding, valid or broken. -/
theorem C130_index (cs : List (List Nat)) (needle : List Nat) (pos : Int) :
    (∀ k, index cs needle pos = some k →
      ∃ p : Nat, (p : Int) = (if pos < 0 then cs.length + pos else pos) ∧ p ≤ k ∧ k ≤ cs.length ∧
        needle <+: (cs.drop k).flatten ∧ ∀ j, p ≤ j → j < k → ¬ needle <+: (cs.drop j).flatten) ∧
    (index cs needle pos = none → ∀ k : Nat, k ≤ cs.length →
      0 ≤ (if pos < 0 then cs.length + pos else pos) →
      (if pos < 0 then cs.length + pos else pos) ≤ k → ¬ needle <+: (cs.drop k).flatten) := by
  have hconv : ∀ p, Verif.Str.convCharIndex cs.length pos = some p →
      (p : Int) = (if pos < 0 then cs.length + pos else pos) ∧ p ≤ cs.length := by
    intro p hp
    unfold Verif.Str.convCharIndex at hp
    split_ifs at hp ⊢ <;> first | (cases hp; omega) | omega
  constructor
  · intro k hk
    unfold index at hk
    cases hc : Verif.Str.convCharIndex cs.length pos with
    | none => rw [hc] at hk; cases hk
    | some p =>
      rw [hc, Option.bind_some] at hk
      obtain ⟨e1, e2⟩ := hconv p hc
      refine ⟨p, e1, ?_⟩
      unfold substringIndex at hk
      simp only [bounds_length, Bool.false_eq_true, if_false] at hk
      split_ifs at hk with h1 h2
      · cases hk
        subst h1
        exact ⟨Nat.le_refl _, e2, List.nil_prefix, fun j h1 h2 => by omega⟩
      · obtain ⟨h2, h3, h4, h5⟩ := findUp_some hk
        refine ⟨h2, by omega, (hit_iff cs needle k (by omega)).1 h4, fun j hj1 hj2 => ?_⟩
        exact hit_false cs needle j (by omega) (h5 j hj1 hj2)
  · intro hk k hkl h0 hle
    unfold index at hk
    cases hc : Verif.Str.convCharIndex cs.length pos with
    | none =>
      exfalso
      unfold Verif.Str.convCharIndex at hc
      split_ifs at hc h0 hle <;> omega
    | some p =>
      rw [hc, Option.bind_some] at hk
      obtain ⟨e1, e2⟩ := hconv p hc
      unfold substringIndex at hk
      simp only [bounds_length, Bool.false_eq_true, if_false] at hk
      split_ifs at hk with h1
      · by_cases hlt : k < cs.length
        · exact hit_false cs needle k hlt (findUp_none hk k (by omega) (by omega))
        · exact not_prefix_end cs needle h1 k (by omega)

-- "\xFFabcab".index("ab", 2) = 4
example : index [[255], [97], [98], [99], [97], [98]] [97, 98] 2 = some 4 := by decide
example : index [[97]] [97] 2 = none := by decide

/-- C130: `rindex` on a receiver that is not valid UTF-8 gives the last place at or before the
position where the needle occurs. -/
theorem C130_rindex_bytes (cs : List (List Nat)) (needle : List Nat) (pos : Option Int) (cap : Nat)
    (hcap : rindexCap cs.length pos = some cap) :
    (∀ k, rindexBytes cs needle pos = some k → k ≤ cap ∧ k ≤ cs.length ∧
      needle <+: (cs.drop k).flatten ∧
      ∀ j, k < j → j ≤ cap → j ≤ cs.length → ¬ needle <+: (cs.drop j).flatten) ∧
    (rindexBytes cs needle pos = none → ∀ j, j ≤ cap → ¬ needle <+: (cs.drop j).flatten) := by
  have hle : cap ≤ cs.length := by
    unfold rindexCap at hcap
    cases pos with
    | none => simp at hcap; omega
    | some i =>
      simp only [Option.map_eq_some_iff] at hcap
      obtain ⟨a, _, rfl⟩ := hcap
      omega
  unfold rindexBytes
  rw [hcap, Option.bind_some]
  by_cases hn : needle = []
  · rw [if_pos hn]
    subst hn
    refine ⟨fun k hk => ?_, fun h => by cases h⟩
    cases hk
    exact ⟨Nat.le_refl _, hle, List.nil_prefix, fun j h1 h2 => by omega⟩
  · rw [if_neg hn]
    unfold substringIndex
    simp only [hn, if_false, if_true, bounds_length]
    constructor
    · intro k hk
      obtain ⟨h1, h2, h3⟩ := findDown_some hk
      refine ⟨by omega, by omega, (hit_iff cs needle k (by omega)).1 h2, fun j hj1 hj2 hj3 => ?_⟩
      by_cases hj : j < cs.length
      · exact hit_false cs needle j hj (h3 j hj1 (by omega))
      · exact not_prefix_end cs needle hn j (by omega)
    · intro hk j hj
      by_cases hjl : j < cs.length
      · exact hit_false cs needle j hjl (findDown_none hk j (by omega))
      · exact not_prefix_end cs needle hn j (by omega)

-- a broken receiver finds the overlapping match: "aaa\xFF".rindex("aa", 0) = 0
example : rindexBytes [[97], [97], [97], [255]] [97, 97] (some 0) = some 0 := by decide

/-! ## `rindex` on valid UTF-8 -/

section
variable {α : Type} [DecidableEq α]

theorem isPrefixOf_iff (a b : List α) : a.isPrefixOf b = true ↔ a <+: b := List.isPrefixOf_iff_prefix

theorem rmatch_sound (s n : List α) : ∀ k lim x, x ∈ rmatch s n k lim →
    x < k ∧ x + n.length ≤ lim ∧ n <+: s.drop x := by
  intro k
  induction k with
  | zero => intro lim x h; cases h
  | succ k ih =>
    intro lim x h
    rw [rmatch] at h
    split_ifs at h with hc
    · rcases List.mem_cons.1 h with rfl | h
      · exact ⟨by omega, hc.1, (isPrefixOf_iff _ _).1 hc.2⟩
      · obtain ⟨h1, h2, h3⟩ := ih k x h
        exact ⟨by omega, by omega, h3⟩
    · obtain ⟨h1, h2, h3⟩ := ih lim x h
      exact ⟨by omega, h2, h3⟩

/-- the first match is the last occurrence -/
theorem rmatch_head (s n : List α) : ∀ k lim,
    (∀ x t, rmatch s n k lim = x :: t → ∀ j, x < j → j < k → j + n.length ≤ lim → ¬ n <+: s.drop j) ∧
    (rmatch s n k lim = [] → ∀ j, j < k → j + n.length ≤ lim → ¬ n <+: s.drop j) := by
  intro k
  induction k with
  | zero => intro lim; exact ⟨fun x t h => (by cases h), fun _ j hj => (by omega)⟩
  | succ k ih =>
    intro lim
    rw [rmatch]
    obtain ⟨i1, i2⟩ := ih lim
    split_ifs with hc
    · refine ⟨fun x t h j h1 h2 => ?_, fun h => by cases h⟩
      simp only [List.cons.injEq] at h
      omega
    · refine ⟨fun x t h j h1 h2 h3 hp => ?_, fun h j h1 h2 hp => ?_⟩
      · by_cases hj : j = k
        · subst hj; exact hc ⟨h3, (isPrefixOf_iff _ _).2 hp⟩
        · exact i1 x t h j h1 (by omega) h3 hp
      · by_cases hj : j = k
        · subst hj; exact hc ⟨h2, (isPrefixOf_iff _ _).2 hp⟩
        · exact i2 h j (by omega) h2 hp

theorem prefix_fits (s n : List α) (j : Nat) (h : n <+: s.drop j) (hn : n ≠ []) :
    j + n.length ≤ s.length := by
  have h1 := h.length_le
  rw [List.length_drop] at h1
  have : 0 < n.length := List.length_pos_iff.2 hn
  omega

/-- C130: without a position `rindex` gives the last place where the needle occurs, and `nil` exactly
when it does not occur. -/
theorem C130_rindex_last (s n : List α) :
    (∀ k, rindex s n none = some k → k ≤ s.length ∧ n <+: s.drop k ∧
      ∀ j, k < j → j ≤ s.length → ¬ n <+: s.drop j) ∧
    (rindex s n none = none → ∀ j, ¬ n <+: s.drop j) := by
  unfold rindex rindexCap
  simp only [Option.bind_some]
  by_cases hn : n = []
  · rw [if_pos hn]
    subst hn
    refine ⟨fun k hk => ?_, fun h => by cases h⟩
    cases hk
    exact ⟨Nat.le_refl _, List.nil_prefix, fun j h1 h2 => by omega⟩
  · rw [if_neg hn]
    obtain ⟨i1, i2⟩ := rmatch_head s n (s.length + 1) s.length
    cases hr : rmatch s n (s.length + 1) s.length with
    | nil =>
      refine ⟨fun k hk => by simp at hk, fun _ j hp => ?_⟩
      have := prefix_fits s n j hp hn
      exact i2 hr j (by omega) this hp
    | cons x t =>
      obtain ⟨h1, h2, h3⟩ := rmatch_sound s n _ _ x (by rw [hr]; exact List.mem_cons_self)
      have hx : x ≤ s.length := by omega
      simp only [List.find?_cons, hx, decide_true]
      refine ⟨fun k hk => ?_, fun h => by cases h⟩
      cases hk
      refine ⟨hx, h3, fun j hj1 hj2 hp => ?_⟩
      exact i1 x t hr j hj1 (by omega) (prefix_fits s n j hp hn) hp

/-- C130: what `rindex` with a position gives is a place at or before the position where the needle
occurs. -/
theorem C130_rindex_sound (s n : List α) (i : Int) (k : Nat) (h : rindex s n (some i) = some k) :
    k ≤ s.length ∧ (k : Int) ≤ (if i < 0 then max 0 (s.length + i) else i) ∧ n <+: s.drop k := by
  unfold rindex rindexCap at h
  simp only at h
  cases hc : convCharIndex2 s.length i with
  | none => rw [hc] at h; simp at h
  | some c =>
    have hcle : (c : Int) ≤ (if i < 0 then max 0 (s.length + i) else i) := by
      unfold convCharIndex2 at hc
      split_ifs at hc ⊢ <;> first | (cases hc; omega) | omega
    rw [hc] at h
    simp only [Option.map_some, Option.bind_some] at h
    split_ifs at h with hn
    · cases h
      subst hn
      exact ⟨by omega, by omega, List.nil_prefix⟩
    · have h1 := List.find?_some h
      have h2 := rmatch_sound s n _ _ k (List.mem_of_find?_eq_some h)
      simp only [decide_eq_true_eq] at h1
      exact ⟨by omega, by omega, h2.2.2⟩

/-- C130: a negative position counts from the end, down to the beginning; before the beginning
there is nothing. -/
theorem C130_rindex_negative (s n : List α) (i : Int) (hi : i < 0) (hs : s ≠ []) :
    (-(s.length : Int) ≤ i → rindex s n (some i) = rindex s n (some (s.length + i))) ∧
      (i < -(s.length : Int) → rindex s n (some i) = none) := by
  have hl : 0 < s.length := List.length_pos_iff.2 hs
  constructor
  · intro h
    unfold rindex rindexCap convCharIndex2
    simp only
    rw [if_neg (by omega), if_neg (by omega), if_neg (by omega), if_neg (by omega), if_pos (by omega)]
  · intro h
    unfold rindex rindexCap convCharIndex2
    simp only
    rw [if_neg (by omega), if_neg (by omega), if_pos (by omega)]
    rfl

example : rindex [1, 2, 1] [1] (some (-3)) = some 0 := by decide

/-- a needle that cannot overlap itself: no proper beginning of it is also an end of it -/
def Unbordered (n : List α) : Prop :=
  ∀ k, 0 < k → k < n.length → ¬ n.drop k <+: n

theorem unbordered_apart (s n : List α) (h : Unbordered n) (hn : n ≠ []) (j x : Nat)
    (hj : n <+: s.drop j) (hx : n <+: s.drop x) (hlt : j < x) : j + n.length ≤ x := by
  by_contra hc
  have hk : x - j < n.length := by omega
  refine h (x - j) (by omega) hk ?_
  obtain ⟨r, hr⟩ := hj
  obtain ⟨q, hq⟩ := hx
  have e1 : s.drop x = n.drop (x - j) ++ r := by
    have : s.drop x = (s.drop j).drop (x - j) := by
      rw [List.drop_drop]; congr 1; omega
    rw [this, ← hr, List.drop_append_of_le_length (by omega)]
  have e2 : n ++ q = n.drop (x - j) ++ r := hq.trans e1
  have p1 : n.drop (x - j) <+: n ++ q := by rw [e2]; exact List.prefix_append _ _
  exact List.prefix_of_prefix_length_le p1 (List.prefix_append _ _)
    (by rw [List.length_drop]; omega)

theorem rmatch_complete (s n : List α) (hu : Unbordered n) (hn : n ≠ []) : ∀ k lim,
    (lim = s.length ∨ n <+: s.drop lim) → ∀ j, j < k → j < lim → n <+: s.drop j →
      j ∈ rmatch s n k lim := by
  intro k
  induction k with
  | zero => intro lim _ j hj; omega
  | succ k ih =>
    intro lim hlim j hj hjl hp
    rw [rmatch]
    have fits : ∀ i, i < lim → n <+: s.drop i → i + n.length ≤ lim := by
      intro i hi hpi
      rcases hlim with rfl | hlim
      · exact prefix_fits s n i hpi hn
      · exact unbordered_apart s n hu hn i lim hpi hlim hi
    split_ifs with hc
    · by_cases hjk : j = k
      · subst hjk; exact List.mem_cons_self
      · exact List.mem_cons_of_mem _ (ih k (Or.inr ((isPrefixOf_iff _ _).1 hc.2)) j (by omega) (by omega) hp)
    · have hjk : j ≠ k := by
        rintro rfl
        exact hc ⟨fits j hjl hp, (isPrefixOf_iff _ _).2 hp⟩
      exact ih lim hlim j (by omega) hjl hp

theorem rmatch_desc (s n : List α) : ∀ k lim, (rmatch s n k lim).Pairwise (· > ·) := by
  intro k
  induction k with
  | zero => intro lim; exact List.Pairwise.nil
  | succ k ih =>
    intro lim
    rw [rmatch]
    split_ifs
    · exact List.pairwise_cons.2 ⟨fun x hx => (rmatch_sound s n k k x hx).1, ih k⟩
    · exact ih lim

theorem find_desc {l : List Nat} (h : l.Pairwise (· > ·)) {cap k : Nat}
    (hf : l.find? (· ≤ cap) = some k) : ∀ j ∈ l, j ≤ cap → j ≤ k := by
  induction l with
  | nil => cases hf
  | cons a t ih =>
    rw [List.pairwise_cons] at h
    rw [List.find?_cons] at hf
    intro j hj hc
    by_cases ha : a ≤ cap
    · simp only [ha, decide_true, Option.some.injEq] at hf
      subst hf
      rcases List.mem_cons.1 hj with rfl | hj
      · exact Nat.le_refl _
      · exact Nat.le_of_lt (h.1 j hj)
    · simp only [ha, decide_false] at hf
      rcases List.mem_cons.1 hj with rfl | hj
      · exact absurd hc ha
      · exact ih h.2 hf j hj hc

/-- C130, part: `rindex` with a position gives the last place at or before it where the needle
occurs, for a needle that cannot overlap itself.

Missing: a needle that can overlap itself, where it is false: see the next theorem. -/
theorem C130_rindex_partial (s n : List α) (hu : Unbordered n) (hn : n ≠ []) (i : Int) (cap : Nat)
    (hcap : rindexCap s.length (some i) = some cap) :
    (∀ k, rindex s n (some i) = some k → k ≤ cap ∧ n <+: s.drop k ∧
      ∀ j, k < j → j ≤ cap → ¬ n <+: s.drop j) ∧
    (rindex s n (some i) = none → ∀ j, j ≤ cap → ¬ n <+: s.drop j) := by
  unfold rindex
  rw [hcap, Option.bind_some, if_neg hn]
  have hmem : ∀ j, n <+: s.drop j → j ∈ rmatch s n (s.length + 1) s.length := by
    intro j hp
    have h1 := prefix_fits s n j hp hn
    have h2 : 0 < n.length := List.length_pos_iff.2 hn
    exact rmatch_complete s n hu hn _ _ (Or.inl rfl) j (by omega) (by omega) hp
  constructor
  · intro k hk
    have h1 := List.find?_some hk
    have h2 := rmatch_sound s n _ _ k (List.mem_of_find?_eq_some hk)
    simp only [decide_eq_true_eq] at h1
    refine ⟨h1, h2.2.2, fun j hj1 hj2 hp => ?_⟩
    have := find_desc (rmatch_desc s n _ _) hk j (hmem j hp) hj2
    omega
  · intro hk j hj hp
    rw [List.find?_eq_none] at hk
    exact hk j (hmem j hp) (by simpa using hj)

-- "abcabc".rindex("ab", 2) = 0; "ab" cannot overlap itself
example : rindex [97, 98, 99, 97, 98, 99] [97, 98] (some 2) = some 0 ∧
    rindexCap 6 (some 2) = some 2 := by decide
example : Unbordered [97, 98] := by
  intro k h1 h2
  have : k = 1 := by simp at h2; omega
  subst this
  decide

end

/-- C130 fails for `rindex` with a position and a needle that overlaps itself: `"aaa".rindex("aa", 0)`
is `nil` although "aa" stands at 0, and so is `"ababa".rindex("aba", 1)`; the same search on a
receiver with a broken byte at its end finds it. -/
theorem C130_rindex_fails :
    rindex [97, 97, 97] [97, 97] (some 0) = none ∧ [97, 97] <+: [97, 97, 97].drop 0 ∧
    rindex [97, 98, 97, 98, 97] [97, 98, 97] (some 1) = none ∧
    rindexBytes [[97], [97], [97], [255]] [97, 97] (some 0) = some 0 := by decide

/-! ## Bytes and characters -/

theorem encode_ne (c : Nat) : Verif.Str.encode c ≠ [] := by
  unfold Verif.Str.encode; split_ifs <;> simp

theorem encode_inj {a b : Nat} {x y : List Nat} (ha : a < 0x110000) (hb : b < 0x110000)
    (h : Verif.Str.encode a ++ x = Verif.Str.encode b ++ y) : a = b ∧ x = y := by
  unfold Verif.Str.encode at h
  split_ifs at h <;> simp only [List.cons_append, List.nil_append, List.cons.injEq] at h <;>
    first
      | (obtain ⟨h1, rfl⟩ := h; exact ⟨h1, rfl⟩)
      | (obtain ⟨h1, h2, rfl⟩ := h; exact ⟨by omega, rfl⟩)
      | (obtain ⟨h1, h2, h3, rfl⟩ := h; exact ⟨by omega, rfl⟩)
      | (obtain ⟨h1, h2, h3, h4, rfl⟩ := h; exact ⟨by omega, rfl⟩)
      | (exfalso; have := h.1; omega)

/-- the bytes of characters in UTF-8, one list for each -/
def utf8 (s : List Nat) : List (List Nat) := s.map Verif.Str.encode

theorem utf8_prefix (n s : List Nat) (hn : ∀ c ∈ n, c < 0x110000) (hs : ∀ c ∈ s, c < 0x110000) :
    (utf8 n).flatten <+: (utf8 s).flatten ↔ n <+: s := by
  induction n generalizing s with
  | nil => simp [utf8]
  | cons a n ih =>
    cases s with
    | nil =>
      simp only [utf8, List.map_cons, List.flatten_cons, List.map_nil, List.flatten_nil,
        List.prefix_nil, List.append_eq_nil_iff, encode_ne, false_and, reduceCtorEq]
    | cons b s =>
      have hn' : ∀ c ∈ n, c < 0x110000 := fun c hc => hn c (List.mem_cons_of_mem _ hc)
      have hs' : ∀ c ∈ s, c < 0x110000 := fun c hc => hs c (List.mem_cons_of_mem _ hc)
      simp only [utf8, List.map_cons, List.flatten_cons, List.cons_prefix_cons]
      constructor
      · rintro ⟨r, hr⟩
        rw [List.append_assoc] at hr
        obtain ⟨h1, h2⟩ := encode_inj (hn a List.mem_cons_self) (hs b List.mem_cons_self) hr
        exact ⟨h1, (ih s hn' hs').1 ⟨r, h2⟩⟩
      · rintro ⟨rfl, h2⟩
        obtain ⟨r, hr⟩ := (ih s hn' hs').2 h2
        exact ⟨r, by rw [List.append_assoc]; congr 1⟩

/-- C130: on valid UTF-8 the occurrences found by bytes are the occurrences by characters, so
`index` answers for characters. -/
theorem C130_index_chars (s n : List Nat) (hs : ∀ c ∈ s, c < 0x110000) (hn : ∀ c ∈ n, c < 0x110000)
    (k : Nat) (p : Nat) (h : index (utf8 s) (utf8 n).flatten p = some k) :
    p ≤ k ∧ n <+: s.drop k ∧ ∀ j, p ≤ j → j < k → ¬ n <+: s.drop j := by
  obtain ⟨p', e, h1, h2, h3, h4⟩ := (C130_index _ _ _).1 k h
  have hpp : p' = p := by
    rw [if_neg (by omega)] at e; omega
  subst hpp
  have key : ∀ j, (utf8 n).flatten <+: ((utf8 s).drop j).flatten ↔ n <+: s.drop j := by
    intro j
    have : (utf8 s).drop j = utf8 (s.drop j) := by unfold utf8; rw [List.map_drop]
    rw [this]
    exact utf8_prefix n _ hn fun c hc => hs c (List.mem_of_mem_drop hc)
  exact ⟨h1, (key k).1 h3, fun j hj1 hj2 hp => h4 j hj1 hj2 ((key j).2 hp)⟩

example : index (utf8 [0x3042, 0x3044, 0x3046]) (utf8 [0x3044]).flatten 0 = some 1 := by decide

/-- a continuation byte -/
def Cont (b : Nat) : Prop := 0x80 ≤ b ∧ b < 0xC0

theorem encode_shape (c : Nat) (h : c < 0x110000) :
    ∃ b t, Verif.Str.encode c = b :: t ∧ ¬ Cont b ∧ ∀ x ∈ t, Cont x := by
  unfold Verif.Str.encode Cont
  split_ifs
  · exact ⟨_, _, rfl, by omega, by simp⟩
  · exact ⟨_, _, rfl, by omega, by simp; omega⟩
  · exact ⟨_, _, rfl, by omega, by simp; omega⟩
  · exact ⟨_, _, rfl, by omega, by simp; omega⟩

theorem occ_boundary (s n : List Nat) (hs : ∀ c ∈ s, c < 0x110000) (hn : ∀ c ∈ n, c < 0x110000)
    (hne : n ≠ []) (i : Nat) (h : (utf8 n).flatten <+: (utf8 s).flatten.drop i) :
    ∃ k, i = (utf8 (s.take k)).flatten.length ∧ k < s.length ∧ n <+: s.drop k := by
  induction s generalizing i with
  | nil =>
    simp only [utf8, List.map_nil, List.flatten_nil, List.drop_nil, List.prefix_nil] at h
    cases n with
    | nil => exact absurd rfl hne
    | cons a n => simp [encode_ne] at h
  | cons c s ih =>
    by_cases hi : (Verif.Str.encode c).length ≤ i
    · have e : (utf8 (c :: s)).flatten.drop i = (utf8 s).flatten.drop (i - (Verif.Str.encode c).length) := by
        simp only [utf8, List.map_cons, List.flatten_cons]
        rw [List.drop_append, List.drop_eq_nil_of_le hi, List.nil_append]
      rw [e] at h
      obtain ⟨k, h1, h2, h3⟩ := ih (fun x hx => hs x (List.mem_cons_of_mem _ hx)) _ h
      refine ⟨k + 1, ?_, by simp; omega, by simpa using h3⟩
      simp only [utf8, List.take_succ_cons, List.map_cons, List.flatten_cons, List.length_append]
      simp only [utf8] at h1
      omega
    · cases i with
      | zero =>
        refine ⟨0, by simp [utf8], by simp, ?_⟩
        rw [List.drop_zero] at h ⊢
        exact (utf8_prefix n _ hn hs).1 h
      | succ i =>
        exfalso
        cases n with
        | nil => exact hne rfl
        | cons a n =>
          obtain ⟨b, t, e1, e2, e3⟩ := encode_shape c (hs c List.mem_cons_self)
          obtain ⟨b', t', e1', e2', e3'⟩ := encode_shape a (hn a List.mem_cons_self)
          have hil : i < t.length := by rw [e1] at hi; simp at hi; omega
          simp only [utf8, List.map_cons, List.flatten_cons, e1, e1', List.cons_append,
            List.drop_succ_cons] at h
          rw [List.drop_append_of_le_length (by omega), List.drop_eq_getElem_cons hil,
            List.cons_append, List.cons_prefix_cons] at h
          rw [h.1] at e2'
          exact e2' (e3 _ (List.getElem_mem hil))

/-- C130: `byteindex` gives the byte place of the first occurrence at or after the offset; on valid
UTF-8 every byte place it gives is the beginning of a character. -/
theorem C130_byteindex (cs : List (List Nat)) (needle : List Nat) (off : Nat) (hb : isBoundary cs off)
    (hoff : off ≤ cs.flatten.length) :
    ∃ r, byteindex cs needle off = .val r ∧
      (∀ k, r = some k → off ≤ k ∧ k ≤ cs.flatten.length ∧ needle <+: cs.flatten.drop k ∧
        ∀ j, off ≤ j → j < k → ¬ needle <+: cs.flatten.drop j) ∧
      (r = none → ∀ j, off ≤ j → j ≤ cs.flatten.length → ¬ needle <+: cs.flatten.drop j) := by
  refine ⟨byteFwd cs.flatten needle off, ?_, ?_, ?_⟩
  · unfold byteindex
    simp only [Int.not_lt.2 (Int.natCast_nonneg off), if_false, Int.toNat_natCast, hb, Bool.not_true,
      Bool.false_eq_true, Nat.not_lt.2 hoff, gt_iff_lt]
  · intro k hk
    unfold byteFwd at hk
    split_ifs at hk with h1 h2
    · cases hk
      subst h1
      exact ⟨Nat.le_refl _, hoff, List.nil_prefix, fun j h1 h2 => by omega⟩
    · obtain ⟨a1, a2, a3, a4⟩ := findUp_some hk
      refine ⟨a1, by omega, List.isPrefixOf_iff_prefix.1 a3, fun j hj1 hj2 hp => ?_⟩
      have := a4 j hj1 hj2
      rw [List.isPrefixOf_iff_prefix.2 hp] at this
      cases this
  · intro hk j hj1 hj2 hp
    unfold byteFwd at hk
    split_ifs at hk with h1 h2
    · have := hp.length_le; rw [List.length_drop] at this; omega
    · have hl := prefix_fits cs.flatten needle j hp h1
      have := findUp_none hk j hj1 (by omega)
      rw [List.isPrefixOf_iff_prefix.2 hp] at this
      cases this

/-- C130: on valid UTF-8 `byteindex` is the byte place of a character where the needle occurs. -/
theorem C130_byteindex_chars (s n : List Nat) (hs : ∀ c ∈ s, c < 0x110000)
    (hn : ∀ c ∈ n, c < 0x110000) (hne : n ≠ []) (off : Int) (i : Nat)
    (h : byteindex (utf8 s) (utf8 n).flatten off = .val (some i)) :
    ∃ k, i = (utf8 (s.take k)).flatten.length ∧ k < s.length ∧ n <+: s.drop k := by
  apply occ_boundary s n hs hn hne
  unfold byteindex at h
  simp only at h
  generalize (if off < 0 then ((utf8 s).flatten.length : Int) + off else off) = o at h
  by_cases c1 : o < 0
  · rw [if_pos c1] at h; cases h
  rw [if_neg c1] at h
  by_cases c2 : o.toNat > (utf8 s).flatten.length
  · rw [if_pos c2] at h; cases h
  rw [if_neg c2] at h
  by_cases c3 : (!isBoundary (utf8 s) o.toNat) = true
  · rw [if_pos c3] at h; cases h
  rw [if_neg c3] at h
  simp only [Ans.val.injEq] at h
  unfold byteFwd at h
  by_cases h1 : (utf8 n).flatten = []
  · exfalso
    cases n with
    | nil => exact hne rfl
    | cons a n => simp [utf8, encode_ne] at h1
  rw [if_neg h1] at h
  by_cases h2 : (utf8 s).flatten.length < (utf8 n).flatten.length
  · rw [if_pos h2] at h; cases h
  rw [if_neg h2] at h
  exact List.isPrefixOf_iff_prefix.1 (findUp_some h).2.2.1

theorem boundaryLoop_iff (cs : List (List Nat)) (hc : ∀ c ∈ cs, c ≠ []) (pos off : Nat)
    (h : off ≤ pos) : boundaryLoop pos off cs = true ↔
      ∃ k, k ≤ cs.length ∧ pos = off + (cs.take k).flatten.length := by
  induction cs generalizing off with
  | nil =>
    simp only [boundaryLoop, decide_eq_true_eq]
    exact ⟨fun h => ⟨0, by simp, by simp [h]⟩, fun ⟨k, _, hk⟩ => by simp at hk; omega⟩
  | cons c t ih =>
    rw [boundaryLoop]
    have hcl : 0 < c.length := List.length_pos_iff.2 (hc c List.mem_cons_self)
    by_cases h1 : off ≥ pos
    · rw [if_pos h1]
      simp only [decide_eq_true_eq]
      refine ⟨fun e => ⟨0, by simp, by simp [e]⟩, fun _ => by omega⟩
    · rw [if_neg h1]
      by_cases h2 : off + c.length ≤ pos
      · rw [ih (fun x hx => hc x (List.mem_cons_of_mem _ hx)) _ h2]
        constructor
        · rintro ⟨k, hk, e⟩
          exact ⟨k + 1, by simp; omega, by
            rw [List.take_succ_cons, List.flatten_cons, List.length_append]; omega⟩
        · rintro ⟨k, hk, e⟩
          cases k with
          | zero => simp at e; omega
          | succ k =>
            simp only [List.length_cons] at hk
            simp only [List.take_succ_cons, List.flatten_cons, List.length_append] at e
            exact ⟨k, by omega, by omega⟩
      · have hf : boundaryLoop pos (off + c.length) t = false := by
          cases t with
          | nil => simp only [boundaryLoop, decide_eq_false_iff_not]; omega
          | cons d t =>
            rw [boundaryLoop, if_pos (by omega)]
            simp only [decide_eq_false_iff_not]; omega
        rw [hf]
        simp only [Bool.false_eq_true, false_iff]
        rintro ⟨k, hk, e⟩
        cases k with
        | zero => simp at e; omega
        | succ k =>
          simp only [List.take_succ_cons, List.flatten_cons, List.length_append] at e
          omega

/-- C130: the byte searches raise `IndexError` exactly for an offset inside a character. -/
theorem C130_byte_offset_error (cs : List (List Nat)) (hc : ∀ c ∈ cs, c ≠ []) (needle : List Nat)
    (off : Nat) (h : off ≤ cs.flatten.length) :
    (byteindex cs needle off = .indexError ↔ ¬ ∃ k ≤ cs.length, off = (cs.take k).flatten.length) ∧
    (byterindex cs needle (some off) = .indexError ↔
      ¬ ∃ k ≤ cs.length, off = (cs.take k).flatten.length) := by
  have hb : isBoundary cs off = true ↔ ∃ k ≤ cs.length, off = (cs.take k).flatten.length := by
    unfold isBoundary
    simp only [Bool.or_eq_true, decide_eq_true_eq, boundaryLoop_iff cs hc off 0 (Nat.zero_le _),
      Nat.zero_add]
    constructor
    · rintro ((rfl | rfl) | h)
      · exact ⟨0, by simp, by simp⟩
      · exact ⟨cs.length, Nat.le_refl _, by simp⟩
      · exact h
    · exact fun h => Or.inr h
  constructor
  · unfold byteindex
    simp only [Int.not_lt.2 (Int.natCast_nonneg off), if_false, Int.toNat_natCast,
      Nat.not_lt.2 h, gt_iff_lt, ← hb]
    cases isBoundary cs off <;> simp
  · unfold byterindex
    simp only [Int.not_lt.2 (Int.natCast_nonneg off), if_false, Int.toNat_natCast,
      Nat.not_lt.2 h, gt_iff_lt, ← hb]
    cases isBoundary cs off <;> simp

example : byteindex [[0xE3, 0x81, 0x82], [97]] [97] 1 = .indexError ∧
    byteindex [[0xE3, 0x81, 0x82], [97]] [97] 3 = .val (some 3) := by decide

/-- C130: `byterindex` gives the last byte place at or before the offset where the needle occurs, and
overlapping occurrences count. -/
theorem C130_byterindex (cs : List (List Nat)) (needle : List Nat) (off : Nat) (hb : isBoundary cs off)
    (hoff : off ≤ cs.flatten.length) :
    ∃ r, byterindex cs needle (some off) = .val r ∧
      (∀ k, r = some k → k ≤ off ∧ needle <+: cs.flatten.drop k ∧
        ∀ j, k < j → j ≤ off → ¬ needle <+: cs.flatten.drop j) ∧
      (r = none → ∀ j, j ≤ off → ¬ needle <+: cs.flatten.drop j) := by
  refine ⟨byteRev cs.flatten needle off, ?_, ?_, ?_⟩
  · unfold byterindex
    simp only [Int.not_lt.2 (Int.natCast_nonneg off), if_false, Int.toNat_natCast, hb, Bool.not_true,
      Bool.false_eq_true, Nat.not_lt.2 hoff, gt_iff_lt]
  · intro k hk
    unfold byteRev at hk
    split_ifs at hk with h1 h2
    · cases hk
      subst h1
      exact ⟨by omega, List.nil_prefix, fun j h1 h2 => by omega⟩
    · obtain ⟨a1, a2, a3⟩ := findDown_some hk
      refine ⟨by omega, List.isPrefixOf_iff_prefix.1 a2, fun j hj1 hj2 hp => ?_⟩
      have hl := prefix_fits cs.flatten needle j hp h1
      have := a3 j hj1 (by omega)
      rw [List.isPrefixOf_iff_prefix.2 hp] at this
      cases this
  · intro hk j hj hp
    unfold byteRev at hk
    split_ifs at hk with h1 h2
    · have := hp.length_le; rw [List.length_drop] at this; omega
    · have hl := prefix_fits cs.flatten needle j hp h1
      have := findDown_none hk j (by omega)
      rw [List.isPrefixOf_iff_prefix.2 hp] at this
      cases this

example : byterindex [[97], [97], [97]] [97, 97] (some 0) = .val (some 0) := by decide

/-! ## partition -/

/-- C130: `partition` of a valid UTF-8 string by another cuts at the first occurrence: the three
pieces in order are the string, the middle one is the separator and does not occur earlier; without
an occurrence the first piece is the whole string. -/
theorem C130_partition_partial (s n : List Nat) (hs : ∀ c ∈ s, c < 0x110000)
    (hn : ∀ c ∈ n, c < 0x110000) :
    (∃ a b, s = a ++ n ++ b ∧ partition (utf8 s) (utf8 n) = (utf8 a, utf8 n, utf8 b) ∧
      ∀ j, j < a.length → ¬ n <+: s.drop j) ∨
    ((∀ j, ¬ n <+: s.drop j) ∧ partition (utf8 s) (utf8 n) = (utf8 s, [], [])) := by
  have hlen : (utf8 s).length = s.length := by simp [utf8]
  unfold partition
  cases hi : index (utf8 s) (utf8 n).flatten 0 with
  | some i =>
    left
    obtain ⟨_, h2, h3⟩ := C130_index_chars s n hs hn i 0 hi
    have hil : i ≤ s.length := by
      obtain ⟨_, _, _, h, _⟩ := (C130_index _ _ _).1 i hi
      omega
    obtain ⟨r, hr⟩ := h2
    refine ⟨s.take i, r, ?_, ?_, fun j hj => h3 j (Nat.zero_le _) (by simp at hj; omega)⟩
    · rw [List.append_assoc, hr, List.take_append_drop]
    · simp only [Prod.mk.injEq, true_and]
      refine ⟨by simp [utf8], ?_⟩
      have : (utf8 s).drop (i + (utf8 n).length) = utf8 ((s.drop i).drop n.length) := by
        simp [utf8, List.drop_drop]
      rw [this, ← hr]
      simp
  | none =>
    right
    refine ⟨fun j hp => ?_, rfl⟩
    by_cases hj : j ≤ s.length
    · have := (C130_index _ _ _).2 hi j (by omega) (by simp) (by simp)
      apply this
      have e : (utf8 s).drop j = utf8 (s.drop j) := by unfold utf8; rw [List.map_drop]
      rw [e]
      exact (utf8_prefix n _ hn fun c hc => hs c (List.mem_of_mem_drop hc)).2 hp
    · rw [List.drop_eq_nil_of_le (by omega)] at hp
      have := List.prefix_nil.1 hp
      subst this
      have := (C130_index _ _ _).2 hi s.length (by omega) (by simp) (by simp)
      exact this (by simp [utf8])

example : partition (utf8 [97, 45, 98, 45, 99]) (utf8 [45]) =
    (utf8 [97], utf8 [45], utf8 [98, 45, 99]) := by decide

/-- C130 fails for a separator that is not a valid string: `"あ".partition("\xE3")` finds the
first byte of the character and then drops all of it: the three pieces do not make up the string
(CRuby does not find a broken separator). -/
theorem C130_partition_fails :
    partition [[0xE3, 0x81, 0x82]] [[0xE3]] = ([], [[0xE3]], []) ∧
    ([] ++ [[0xE3]] ++ [] : List (List Nat)).flatten ≠ [[0xE3, 0x81, 0x82]].flatten := by decide

/-- C130: `rpartition` of a valid UTF-8 string cuts at the last occurrence. -/
theorem C130_rpartition {α : Type} [DecidableEq α] (s n : List α) :
    (∃ a b, s = a ++ n ++ b ∧ rpartition s n = (a, n, b) ∧
      ∀ j, a.length < j → j ≤ s.length → ¬ n <+: s.drop j) ∨
    ((∀ j, ¬ n <+: s.drop j) ∧ rpartition s n = ([], [], s)) := by
  unfold rpartition
  obtain ⟨h1, h2⟩ := C130_rindex_last s n
  cases hr : rindex s n none with
  | some i =>
    left
    obtain ⟨a1, a2, a3⟩ := h1 i hr
    obtain ⟨r, hr'⟩ := a2
    refine ⟨s.take i, r, ?_, ?_, fun j hj => a3 j (by simp at hj; omega)⟩
    · rw [List.append_assoc, hr', List.take_append_drop]
    · simp only [Prod.mk.injEq, true_and]
      rw [← List.drop_drop, ← hr']
      simp
  | none =>
    right
    exact ⟨h2 hr, rfl⟩

example : rpartition [97, 97, 97, 98] [97, 97] = ([97], [97, 97], [98]) := by decide

end Verif.Text
