import Verif.StrEdit.Model
import Mathlib.Tactic.SplitIfs

/-!
# C153: editing a String
-/

namespace Verif.StrEdit

variable {α : Type}

/-- What an index, a start and an end of a Range mean in Ruby, for `n` elements: the start and the length,
or nothing if the start is outside. -/
def rubyRange (n : Nat) (first last : Int) (excl : Bool) : Option (Nat × Nat) :=
  let b := if first < 0 then first + n else first
  let e := (if last < 0 then last + n else last) + (if excl then 0 else 1)
  if b < 0 ∨ b > n then none else some (b.toNat, (min e n - b).toNat)

/-- The place an index means, 0 up to and including `n`. -/
def rubyPlace (n : Nat) (i : Int) : Option Nat :=
  let b := if i < 0 then i + n else i
  if b < 0 ∨ b > n then none else some b.toNat

theorem convIndex_eq (i : Int) (n : Nat) : convIndex i n = rubyPlace n i := by
  unfold convIndex rubyPlace
  simp only
  split_ifs <;> first | rfl | (exfalso; omega) | (congr 1; omega)

theorem byteStart_eq (i : Int) (n : Nat) : byteStart i n = rubyPlace n i := by
  unfold byteStart rubyPlace
  simp only
  split_ifs <;> first | rfl | (exfalso; omega) | (congr 1; omega)

theorem rubyPlace_le {n : Nat} {i : Int} {k : Nat} (h : rubyPlace n i = some k) : k ≤ n := by
  unfold rubyPlace at h
  simp only at h
  split_ifs at h <;> simp at h <;> omega

theorem take_min (s : List α) (k : Nat) : s.take (min k s.length) = s.take k := by
  by_cases h : k ≤ s.length
  · rw [Nat.min_eq_left h]
  · rw [Nat.min_eq_right (by omega), List.take_of_length_le (by omega), List.take_of_length_le (by omega)]

theorem drop_min (s : List α) (k : Nat) : s.drop (min k s.length) = s.drop k := by
  by_cases h : k ≤ s.length
  · rw [Nat.min_eq_left h]
  · rw [Nat.min_eq_right (by omega), List.drop_of_length_le (by omega), List.drop_of_length_le (by omega)]

theorem take_drop_min (s : List α) (k l : Nat) :
    (s.take (min (k + l) s.length)).drop (min k s.length) = (s.drop k).take l := by
  rw [take_min]
  by_cases hk : k ≤ s.length
  · rw [Nat.min_eq_left hk, List.drop_take]
    congr 1
    omega
  · rw [List.drop_of_length_le (l := s) (by omega), List.drop_of_length_le]
    · simp
    · simp; omega

theorem rubyRange_eq (n : Nat) (a b : Int) (excl : Bool) :
    rubyRange n a b excl = (rubyPlace n a).map fun k : Nat =>
      (k, (min ((if b < 0 then b + n else b) + (if excl then 0 else 1)) (n : Int) - (k : Int)).toNat) := by
  unfold rubyRange rubyPlace
  simp only
  by_cases h : (if a < 0 then a + (n : Int) else a) < 0 ∨ (if a < 0 then a + (n : Int) else a) > n
  · rw [if_pos h, if_pos h]; rfl
  · rw [if_neg h, if_neg h]
    simp only [Option.map_some]
    congr 3
    omega

theorem cut_eq (s : List α) (k l : Nat) :
    cut s (getRange s k l) = ((s.drop k).take l, s.take k ++ s.drop (k + l)) := by
  simp only [cut, getRange, take_drop_min]
  rw [take_min, drop_min]

/-! ### insert, concat, prepend -/

/-- `insert(k, t)` puts `t` before the character `k`, `insert(-1-k, t)` behind the `k`-th from the end;
it raises exactly outside. -/
theorem C153_insert (s t : List α) (k : Nat) :
    (k ≤ s.length → insert s k t = .ok (s.take k ++ t ++ s.drop k)) ∧
    (k ≤ s.length → insert s (-1 - k) t = .ok (s.take (s.length - k) ++ t ++ s.drop (s.length - k))) ∧
    (s.length < k → insert s k t = .error .index ∧ insert s (-1 - k) t = .error .index) := by
  refine ⟨fun h => ?_, fun h => ?_, fun h => ⟨?_, ?_⟩⟩
  · have h1 : ¬ (k : Int) < 0 := by omega
    have h2 : ¬ ((k : Int) < 0 ∨ (k : Int) > s.length) := by omega
    simp only [insert]
    rw [if_neg h1, if_neg h2]
    simp
  · have h1 : (-1 - (k : Int)) < 0 := by omega
    have h3 : (s.length : Int) + 1 + (-1 - (k : Int)) = ((s.length - k : Nat) : Int) := by omega
    simp only [insert, h1, if_true, h3]
    rw [if_neg (by omega)]
    simp
  · simp [insert]
    omega
  · have h1 : (-1 - (k : Int)) < 0 := by omega
    simp only [insert, h1, if_true]
    rw [if_pos (by omega)]

/-- `concat` appends what its arguments hold, in their order; so does the receiver as the only
argument. -/
theorem C153_concat_partial (s : List α) (ts : List (List α)) :
    concat false s (ts.map .other) = .self (s ++ ts.flatten) ∧
    concat false s (.self :: ts.map .other) = .self (s ++ s ++ ts.flatten) := by
  have key : ∀ (ts : List (List α)) (s : List α), (ts.map Arg.other).foldl push s = s ++ ts.flatten := by
    intro ts
    induction ts with
    | nil => simp
    | cons t ts ih => intro s; simp [push, Arg.now, ih]
  constructor
  · simp [concat, key]
  · simp [concat, key, push, Arg.now]

/-- `prepend` puts what its arguments hold in front, in their order. -/
theorem C153_prepend_partial (s : List α) (ts : List (List α)) :
    prepend false s (ts.map .other) = .self (ts.flatten ++ s) ∧
    prepend false s (ts.map .other ++ [.self]) = .self (ts.flatten ++ s ++ s) := by
  have key : ∀ (ts : List (List α)) (s : List α),
      (ts.map Arg.other).reverse.foldl unshift s = ts.flatten ++ s := by
    intro ts
    induction ts with
    | nil => simp
    | cons t ts ih => intro s; simp [unshift, Arg.now, List.foldl_append] at ih ⊢; simp [ih]
  constructor
  · simp only [prepend, key]; simp
  · simp only [prepend]
    rw [List.reverse_append]
    simp only [List.reverse_singleton, List.singleton_append, List.foldl_cons, unshift, Arg.now, key]
    simp

/-- The receiver given twice is read again after it was changed: `s.concat(s, s)` is four times `s`. -/
theorem C153_concat_fails (s : List α) (h : s ≠ []) :
    concat false s [.self, .self] = .self (s ++ s ++ (s ++ s)) ∧
    concat false s [.self, .self] ≠ .self (s ++ s ++ s) ∧
    prepend false s [.self, .self] ≠ .self (s ++ s ++ s) := by
  have hl : 0 < s.length := List.length_pos_iff.2 h
  refine ⟨by simp [concat, push, Arg.now], ?_, ?_⟩
  · intro he
    simp [concat, push, Arg.now] at he
    exact h he
  · intro he
    simp [prepend, unshift, Arg.now] at he
    exact h he

/-- A frozen String is not changed by `concat` and `prepend` with arguments. -/
theorem C153_frozen_partial (s : List α) (args : List (Arg α)) (h : args ≠ []) :
    concat true s args = .raised .frozen ∧ prepend true s args = .raised .frozen := by
  cases args with
  | nil => exact absurd rfl h
  | cons a args => simp [concat, prepend]

/-- Without arguments, and for the methods that find nothing to remove, a frozen String raises nothing. -/
theorem C153_frozen_fails [DecidableEq α] (cr lf : α) (s t : List α) (h : ¬ t <:+ s) :
    concat true s [] ≠ .raised .frozen ∧ prepend true s [] ≠ .raised .frozen ∧
    chopBang cr lf true [] ≠ .raised .frozen ∧ deleteSuffixBang true s t ≠ .raised .frozen := by
  have h' : endWith s t = false := by
    rw [endWith, ← Bool.not_eq_true, List.isSuffixOf_iff_suffix]; exact h
  refine ⟨by simp [concat], by simp [prepend], by simp [chopBang], by simp [deleteSuffixBang, h']⟩

/-! ### chop, delete_suffix, delete_prefix -/

/-- `chop` takes the last character away, or a `\r\n`. -/
theorem C153_chop [DecidableEq α] (cr lf : α) :
    chop cr lf [] = [] ∧ (∀ t : List α, chop cr lf (t ++ [cr, lf]) = t) ∧
    ∀ (t : List α) (c : α), ¬ (c = lf ∧ t.getLast? = some cr) → chop cr lf (t ++ [c]) = t := by
  refine ⟨by simp [chop], fun t => ?_, fun t c h => ?_⟩
  · have h1 : (t ++ [cr, lf])[(t ++ [cr, lf]).length - 1]? = some lf := by
      simp [List.getElem?_append_right]
    have h2 : (t ++ [cr, lf])[(t ++ [cr, lf]).length - 2]? = some cr := by
      simp [List.getElem?_append_right]
    have h3 : (t ++ [cr, lf]).isEmpty = false := by simp
    rw [chop, if_neg (by simp [h3]), if_pos ⟨h1, by simp, h2⟩]
    simp
  · have h3 : (t ++ [c]).isEmpty = false := by simp
    have h1 : (t ++ [c])[(t ++ [c]).length - 1]? = some c := by simp
    rw [chop, if_neg (by simp [h3]), if_neg]
    · simp
    · rintro ⟨ha, hb, hc⟩
      rw [h1] at ha
      simp only [Option.some.injEq] at ha
      refine h ⟨ha, ?_⟩
      rw [List.getLast?_eq_getElem?]
      rw [List.getElem?_append_left (by simp at hb ⊢; omega)] at hc
      simpa using hc

/-- `chop!` changes the String to what `chop` returns, and is nil exactly for the empty one; a frozen
String that is not empty raises. -/
theorem C153_chop_bang_partial [DecidableEq α] (cr lf : α) (s : List α) :
    (s = [] → chopBang cr lf false s = .nil) ∧
    (s ≠ [] → chopBang cr lf false s = .self (chop cr lf s) ∧ chopBang cr lf true s = .raised .frozen) := by
  cases s <;> simp [chopBang]

/-- `delete_suffix` and `delete_prefix` remove the suffix and the prefix once, or nothing. -/
theorem C153_delete_affix [DecidableEq α] (r s t : List α) :
    deleteSuffix (r ++ t) t = r ∧ deletePrefix (t ++ r) t = r ∧
    (¬ t <:+ s → deleteSuffix s t = s) ∧ (¬ t <+: s → deletePrefix s t = s) := by
  refine ⟨?_, ?_, fun h => ?_, fun h => ?_⟩
  · have h : endWith (r ++ t) t = true := by
      rw [endWith, List.isSuffixOf_iff_suffix]; exact List.suffix_append r t
    simp [deleteSuffix, h]
  · have h : t.isPrefixOf (t ++ r) = true := by
      rw [List.isPrefixOf_iff_prefix]; exact List.prefix_append t r
    simp [deletePrefix, stripPrefix]
  · have h' : endWith s t = false := by
      rw [endWith, ← Bool.not_eq_true, List.isSuffixOf_iff_suffix]; exact h
    simp [deleteSuffix, h']
  · have h' : t.isPrefixOf s = false := by
      rw [← Bool.not_eq_true, List.isPrefixOf_iff_prefix]; exact h
    simp [deletePrefix, stripPrefix, h']

/-- With `!` the String becomes that, and nil is returned exactly if there was nothing to remove; for
the empty suffix and prefix see below. -/
theorem C153_delete_affix_bang_partial [DecidableEq α] (r s t : List α) :
    deleteSuffixBang false (r ++ t) t = .self r ∧ deletePrefixBang false (t ++ r) t = .self r ∧
    (¬ t <:+ s → deleteSuffixBang false s t = .nil) ∧ (¬ t <+: s → deletePrefixBang false s t = .nil) ∧
    deletePrefixBang true s t = .raised .frozen ∧ deleteSuffixBang true (r ++ t) t = .raised .frozen := by
  have h : endWith (r ++ t) t = true := by
    rw [endWith, List.isSuffixOf_iff_suffix]; exact List.suffix_append r t
  refine ⟨by simp [deleteSuffixBang, h], by simp [deletePrefixBang, stripPrefix], fun h => ?_, fun h => ?_,
    by simp [deletePrefixBang], by simp [deleteSuffixBang, h]⟩
  · have h' : endWith s t = false := by
      rw [endWith, ← Bool.not_eq_true, List.isSuffixOf_iff_suffix]; exact h
    simp [deleteSuffixBang, h']
  · have h' : t.isPrefixOf s = false := by
      rw [← Bool.not_eq_true, List.isPrefixOf_iff_prefix]; exact h
    simp [deletePrefixBang, stripPrefix, h']

/-- The empty suffix and prefix change nothing, and yet nil is not returned. -/
theorem C153_delete_empty_fails [DecidableEq α] (s : List α) :
    deleteSuffixBang false s [] = .self s ∧ deletePrefixBang false s [] = .self s := by
  constructor
  · simp [deleteSuffixBang, endWith]
  · simp [deletePrefixBang, stripPrefix]

/-! ### slice! -/

/-- `slice!(i)` removes the character `self[i]`, and is nil exactly if there is none. -/
theorem C153_slice_at (s : List α) (i : Int) (k : Nat) (hk : (k : Int) = if i < 0 then i + s.length else i) :
    sliceAt s i = s[k]?.map fun c => ([c], s.eraseIdx k) := by
  have hp : convIndex i s.length = if k ≤ s.length then some k else none := by
    rw [convIndex_eq, rubyPlace]
    simp only [← hk]
    split_ifs <;> first | rfl | omega | simp
  simp only [sliceAt, hp]
  by_cases h : k < s.length
  · rw [if_pos (by omega)]
    have h1 : (getRange s k 1).1 < (getRange s k 1).2 := by simp only [getRange]; omega
    simp only [h1, if_true, cut_eq]
    rw [List.getElem?_eq_getElem h]
    simp only [Option.map_some, List.eraseIdx_eq_take_drop_succ]
    rw [List.drop_eq_getElem_cons h, List.take_succ_cons, List.take_zero]
  · rw [List.getElem?_eq_none (by omega)]
    by_cases h2 : k ≤ s.length
    · have h1 : ¬ (getRange s k 1).1 < (getRange s k 1).2 := by simp only [getRange]; omega
      simp [h2, h1]
    · simp [h2]

/-- An index before the beginning: nil. -/
theorem C153_slice_at_before (s : List α) (i : Int) (h : i + s.length < 0) : sliceAt s i = none := by
  have hp : convIndex i s.length = none := by
    unfold convIndex
    rw [if_neg (by omega), if_pos (by omega)]
  simp [sliceAt, hp]

/-- `slice!(i, len)` removes what `self[i, len]` is. -/
theorem C153_slice_len (s : List α) (i len : Int) :
    sliceLen s i len = if len < 0 then none
      else (rubyPlace s.length i).map fun k =>
        ((s.drop k).take len.toNat, s.take k ++ s.drop (k + len.toNat)) := by
  simp only [sliceLen, convIndex_eq]
  cases rubyPlace s.length i with
  | none => simp
  | some k =>
    simp only [cut_eq, Option.map_some]

/-- `slice!` with a Range removes what the Range means, if both ends are Integers, the end is not before
the beginning of the String, and it is not `...0`. -/
theorem C153_slice_range_partial (s : List α) (a b : Int) (excl : Bool)
    (h0 : ¬ (excl = true ∧ b = 0)) (hneg : 0 ≤ b + s.length - (if excl then 1 else 0)) :
    sliceRange s (some a) (some b) excl =
      .ok ((rubyRange s.length a b excl).map fun r =>
        ((s.drop r.1).take r.2, s.take r.1 ++ s.drop (r.1 + r.2))) := by
  simp only [sliceRange, intEnd, convIndex_eq]
  rw [rubyRange_eq]
  cases hp : rubyPlace s.length a with
  | none => simp
  | some k =>
    have hk := rubyPlace_le hp
    have he : ∃ e : Nat, (if b - (if excl then 1 else 0) ≥ 0 then some (b - (if excl then 1 else 0)).toNat
        else if (s.length : Int) + (b - (if excl then 1 else 0)) ≥ 0 then
          some ((s.length : Int) + (b - (if excl then 1 else 0))).toNat else none) = some e ∧
        (e : Int) + 1 = (if b < 0 then b + s.length else b) + (if excl then 0 else 1) := by
      cases excl
      · simp only [Bool.false_eq_true, if_false] at hneg ⊢
        split_ifs <;> first | exact ⟨_, rfl, by omega⟩ | (exfalso; omega)
      · simp only [true_and, if_true] at hneg h0 ⊢
        split_ifs <;> first | exact ⟨_, rfl, by omega⟩ | (exfalso; omega)
    obtain ⟨e, he, hv⟩ := he
    simp only [he, cut_eq, Option.map_some, ← hv]
    have hl : ∀ x y : Nat, (min x (s.length - k) = min y (s.length - k)) →
        ((s.drop k).take x, s.take k ++ s.drop (k + x)) = ((s.drop k).take y, s.take k ++ s.drop (k + y)) := by
      intro x y hxy
      have h1 : ∀ z : Nat, (s.drop k).take z = (s.drop k).take (min z (s.length - k)) := by
        intro z
        have := take_min (s.drop k) z
        rw [List.length_drop] at this
        exact this.symm
      have h2 : ∀ z : Nat, s.drop (k + z) = s.drop (k + min z (s.length - k)) := by
        intro z
        rw [← drop_min s (k + z), ← drop_min s (k + min z (s.length - k))]
        congr 1
        omega
      rw [h1 x, h2 x, hxy, ← h1 y, ← h2 y]
    congr 2
    apply hl
    split_ifs <;> omega

/-- Whatever the Range, nothing is lost: the removed part and the rest make up the String. -/
theorem C153_slice_range_parts (s : List α) (a b : Option Int) (excl : Bool) (r rest : List α)
    (h : sliceRange s a b excl = .ok (some (r, rest))) :
    ∃ x y, s = x ++ r ++ y ∧ rest = x ++ y := by
  unfold sliceRange at h
  split at h
  · simp at h
  · split at h
    · simp at h
    · simp only at h
      split at h
      · rw [cut_eq] at h
        simp only [Except.ok.injEq, Option.some.injEq, Prod.mk.injEq] at h
        obtain ⟨rfl, rfl⟩ := h
        refine ⟨_, _, ?_, rfl⟩
        rw [← List.drop_drop, List.append_assoc, List.take_append_drop, List.take_append_drop]
      · simp at h

/-- `slice!(0...0)` removes the whole String: the end 0, one before it, is taken for the last place.
An endless Range is refused, an end before the beginning gives nil. -/
theorem C153_slice_range_fails (s : List α) (h : s ≠ []) :
    (sliceRange s (some 0) (some 0) true = .ok (some (s, [])) ∧
      rubyRange s.length 0 0 true = some (0, 0)) ∧
    (sliceRange s (some 0) none false = .error .type) ∧
    (sliceRange s (some 0) (some (-1 - s.length)) false = .ok none ∧
      rubyRange s.length 0 (-1 - s.length) false = some (0, 0)) := by
  have hl : 0 < s.length := List.length_pos_iff.2 h
  refine ⟨⟨?_, ?_⟩, ?_, ?_, ?_⟩
  · have h1 : ((s.length : Int) + -1) ≥ 0 := by omega
    have h2 : ((s.length : Int) + -1).toNat = s.length - 1 := by omega
    have h3 : convIndex 0 s.length = some 0 := by simp [convIndex]
    have h4 : s.length - 1 + 1 = s.length := by omega
    simp only [sliceRange, intEnd, h3, cut_eq]
    simp [h1, h2, h4]
  · simp only [rubyRange]
    rw [if_neg (by omega)]
    simp
    omega
  · simp [sliceRange, intEnd]
  · have h3 : convIndex 0 s.length = some 0 := by simp [convIndex]
    have h1 : ¬ ((-1 - (s.length : Int)) ≥ 0) := by omega
    have h2 : ¬ ((s.length : Int) + (-1 - (s.length : Int)) ≥ 0) := by omega
    simp only [sliceRange, intEnd, h3, Bool.false_eq_true, if_false, Int.sub_zero, h1, h2]
  · simp only [rubyRange]
    rw [if_neg (by omega)]
    simp
    split_ifs <;> omega

/-! ### byteslice -/

/-- `byteslice(i)`: the byte, or nil. -/
theorem C153_byteslice_at (s : List α) (i : Int) (k : Nat)
    (hk : (k : Int) = if i < 0 then i + s.length else i) : byteAt s i = s[k]?.map fun c => [c] := by
  have h1 : (if i ≥ 0 then (if i.toNat < s.length then some i.toNat else none)
      else if s.length + i < 0 then none else some (s.length + i).toNat) =
      if k < s.length then some k else none := by
    split_ifs at hk ⊢ <;> first | rfl | omega | (congr 1; omega)
  simp only [byteAt, h1]
  by_cases h : k < s.length
  · simp only [if_pos h]
    rw [List.getElem?_eq_getElem h, List.drop_take, List.drop_eq_getElem_cons h,
      Nat.add_sub_cancel_left, List.take_succ_cons, List.take_zero]
    rfl
  · simp only [if_neg h]
    rw [List.getElem?_eq_none (by omega)]
    rfl

/-- `byteslice(i, len)` -/
theorem C153_byteslice_len (s : List α) (i len : Int) :
    byteLen s i len = if len < 0 then none
      else (rubyPlace s.length i).map fun k => (s.drop k).take len.toNat := by
  simp only [byteLen, byteStart_eq]
  split_ifs
  · rfl
  · cases hp : rubyPlace s.length i with
    | none => rfl
    | some k =>
      have := take_drop_min s k len.toNat
      rw [Nat.min_eq_left (rubyPlace_le hp)] at this
      simp [this]

/-- `byteslice` with a Range whose end is not before the beginning; an open beginning is 0, an open end
the last byte. -/
theorem C153_byteslice_range_partial (s : List α) (a b : Int) (excl : Bool) (hneg : 0 ≤ b + s.length) :
    byteRange s (some a) (some b) excl =
      (rubyRange s.length a b excl).map (fun r => (s.drop r.1).take r.2) ∧
    byteRange s (some a) none excl = (rubyPlace s.length a).map (fun k => s.drop k) ∧
    byteRange s none (some b) excl = byteRange s (some 0) (some b) excl := by
  refine ⟨?_, ?_, rfl⟩
  · rw [rubyRange_eq]
    simp only [byteRange, Option.getD_some, byteStart_eq]
    cases hp : rubyPlace s.length a with
    | none => simp
    | some k =>
      have hk := rubyPlace_le hp
      have he : ∃ e : Nat, byteEnd s.length b excl = some e ∧
          (e : Int) = min ((if b < 0 then b + s.length else b) + (if excl then 0 else 1)) (s.length : Int) := by
        unfold byteEnd
        cases excl
        · simp only [Bool.false_eq_true, if_false]
          split_ifs <;> first | exact ⟨_, rfl, by omega⟩ | (exfalso; omega)
        · simp only [if_true]
          split_ifs <;> first | exact ⟨_, rfl, by omega⟩ | (exfalso; omega)
      obtain ⟨e, he, hv⟩ := he
      simp only [he, Option.map_some, ← hv]
      split_ifs with h
      · have : ((e : Int) - k).toNat = 0 := by omega
        simp [this]
      · have : ((e : Int) - k).toNat = e - k := by omega
        rw [this, List.drop_take]
  · simp only [byteRange, Option.getD_some, byteStart_eq]
    cases hp : rubyPlace s.length a with
    | none => rfl
    | some k =>
      have hk := rubyPlace_le hp
      simp only [Option.map_some]
      rw [if_neg (by omega)]
      simp

/-- An end before the beginning gives nil instead of the empty String. -/
theorem C153_byteslice_range_fails (s : List α) :
    byteRange s (some 0) (some (-1 - s.length)) false = none ∧
    rubyRange s.length 0 (-1 - s.length) false = some (0, 0) := by
  constructor
  · have h : ¬ ((-1 - (s.length : Int)) ≥ 0) := by omega
    have h2 : (s.length : Int) + (-1 - (s.length : Int)) < 0 := by omega
    have h3 : byteStart 0 s.length = some 0 := by simp [byteStart]
    simp only [byteRange, Option.getD_some, h3, byteEnd, h, h2, if_true, if_false]
  · simp only [rubyRange]
    rw [if_neg (by omega)]
    simp
    split_ifs <;> omega

/-! ### bytesplice -/

/-- `bytesplice(i, len, t)` replaces exactly what `byteslice(i, len)` is, and keeps the bytes around
it. -/
theorem C153_bytesplice_len (bnd : Nat → Bool) (s t : List α) (i len : Int) (r : List α)
    (h : bytesplice bnd s (placeLen s.length i len) t = .ok r) :
    ∃ x old y, s = x ++ old ++ y ∧ r = x ++ t ++ y ∧ byteLen s i len = some old ∧
      rubyPlace s.length i = some x.length ∧ bnd x.length = true ∧ bnd (x.length + old.length) = true := by
  unfold bytesplice placeLen at h
  by_cases hn : len < 0
  · simp [hn] at h
  · rw [if_neg hn, byteStart_eq] at h
    cases hp : rubyPlace s.length i with
    | none => simp [hp] at h
    | some k =>
      have hk := rubyPlace_le hp
      simp only [hp] at h
      split_ifs at h with h1 h2
      simp only [Except.ok.injEq] at h
      subst h
      have hold : byteLen s i len = some ((s.drop k).take (min len.toNat (s.length - k))) := by
        rw [C153_byteslice_len, if_neg hn, hp]
        have := take_min (s.drop k) len.toNat
        rw [List.length_drop] at this
        simp [this]
      refine ⟨s.take k, (s.drop k).take (min len.toNat (s.length - k)),
        s.drop (k + min len.toNat (s.length - k)), ?_, rfl, hold, ?_, ?_, ?_⟩
      · rw [← List.drop_drop, List.append_assoc, List.take_append_drop, List.take_append_drop]
      · simp [Nat.min_eq_left hk]
      · simpa [Nat.min_eq_left hk] using h1
      · have e1 : (s.take k).length = k := by simp [Nat.min_eq_left hk]
        have e2 : ((s.drop k).take (min len.toNat (s.length - k))).length =
            min len.toNat (s.length - k) := by simp
        rw [e1, e2]
        simpa using h2

/-- It raises exactly for a negative length, a start outside and offsets within a character. -/
theorem C153_bytesplice_raises (bnd : Nat → Bool) (s t : List α) (i len : Int) :
    (∃ e, bytesplice bnd s (placeLen s.length i len) t = .error e) ↔
      len < 0 ∨ rubyPlace s.length i = none ∨
      ∃ k, rubyPlace s.length i = some k ∧ (bnd k = false ∨ bnd (min (k + len.toNat) s.length) = false) := by
  unfold bytesplice placeLen
  rw [byteStart_eq]
  by_cases hn : len < 0
  · simp [hn]
  · cases hp : rubyPlace s.length i with
    | none => simp [hn]
    | some k =>
      have hk := rubyPlace_le hp
      have hm : k + min len.toNat (s.length - k) = min (k + len.toNat) s.length := by omega
      simp only [hn, if_false, hm]
      cases h1 : bnd k <;> cases h2 : bnd (min (k + len.toNat) s.length) <;> simp [h1, h2]

/-- With a Range of Integers the place is what the Range means. -/
theorem C153_bytesplice_range_partial (n : Nat) (a b : Int) (excl : Bool) :
    placeRange n (some a) (some b) excl =
      match rubyRange n a b excl with
      | none => .error .index
      | some r => .ok r := by
  rw [rubyRange_eq]
  simp only [placeRange, intEnd, byteStart_eq]
  cases hp : rubyPlace n a with
  | none => rfl
  | some k =>
    simp only [Option.map_some]
    congr 2
    unfold byteEnd
    cases excl
    · simp only [Bool.false_eq_true, if_false]
      split_ifs <;> simp at * <;> omega
    · simp only [if_true]
      split_ifs <;> simp at * <;> omega

/-- An endless Range is refused, though it has a meaning. -/
theorem C153_bytesplice_range_fails (n : Nat) (a : Int) :
    placeRange n (some a) none false = .error .type := by simp [placeRange, intEnd]

/-- An offset within a character of the source is accepted if nothing is taken from there. -/
theorem C153_bytesplice_source_fails : ∃ (tbnd : Nat → Bool) (s t : List Nat), tbnd 1 = false ∧
    bytespliceFrom (fun _ => true) s (placeLen s.length 0 0) tbnd t (placeLen t.length 1 0) = .ok s := by
  refine ⟨fun k => k != 1, [1], [195, 169], rfl, ?_⟩
  simp [bytespliceFrom, placeLen, byteStart, splice]

/-- With part of a source: what `byteslice` of the source gives is put in. -/
theorem C153_bytesplice_source (bnd tbnd : Nat → Bool) (s t : List α) (i len ti tlen : Int) (r : List α)
    (h : bytespliceFrom bnd s (placeLen s.length i len) tbnd t (placeLen t.length ti tlen) = .ok r) :
    ∃ x old y new, s = x ++ old ++ y ∧ r = x ++ new ++ y ∧ byteLen s i len = some old ∧
      byteLen t ti tlen = some new ∧ rubyPlace s.length i = some x.length ∧
      bnd x.length = true ∧ bnd (x.length + old.length) = true ∧
      (new ≠ [] → ∃ u v, t = u ++ new ++ v ∧ rubyPlace t.length ti = some u.length ∧
        tbnd u.length = true ∧ tbnd (u.length + new.length) = true) := by
  unfold bytespliceFrom at h
  cases hpl : placeLen s.length i len with
  | error e => simp [hpl] at h
  | ok p =>
    cases htp : placeLen t.length ti tlen with
    | error e => simp [hpl, htp] at h
    | ok q =>
      simp only [hpl, htp] at h
      generalize hrs : (if ((t.drop q.1).take q.2).isEmpty = true then 0 else q.1) = rs at h
      split_ifs at h with h1 h2 h3 h4
      all_goals
        simp only [Except.ok.injEq] at h
        have hs : bytesplice bnd s (placeLen s.length i len) ((t.drop q.1).take q.2) = .ok r := by
          rw [hpl]
          simp only [bytesplice]
          rw [if_neg h1, if_neg h2, h]
        obtain ⟨x, old, y, e1, e2, e3, e4, e5, e6⟩ := C153_bytesplice_len bnd s _ i len r hs
        refine ⟨x, old, y, _, e1, e2, e3, ?_, e4, e5, e6, ?_⟩
        rotate_left
        · intro hne
          unfold placeLen at htp
          split_ifs at htp with hn
          rw [byteStart_eq] at htp
          cases hp : rubyPlace t.length ti with
          | none => simp [hp] at htp
          | some k =>
            simp only [hp, Except.ok.injEq] at htp
            subst htp
            have hemp : ((t.drop k).take (min tlen.toNat (t.length - k))).isEmpty = false := by
              simpa [List.isEmpty_iff] using hne
            have hk : k ≤ t.length := by
              apply Nat.le_of_not_lt
              intro hlt
              apply hne
              simp [List.drop_eq_nil_of_le (Nat.le_of_lt hlt)]
            simp only [hemp, Bool.false_eq_true, if_false] at hrs
            subst hrs
            refine ⟨t.take k, (t.drop k).drop (min tlen.toNat (t.length - k)), ?_, ?_, ?_, ?_⟩
            · rw [List.append_assoc, List.take_append_drop, List.take_append_drop]
            · rw [List.length_take, Nat.min_eq_left hk]
            · rw [List.length_take, Nat.min_eq_left hk]; simpa using h3
            · rw [List.length_take, Nat.min_eq_left hk]; simpa using h4
        unfold placeLen at htp
        split_ifs at htp with hn
        rw [byteStart_eq] at htp
        rw [C153_byteslice_len, if_neg hn]
        cases hp : rubyPlace t.length ti with
        | none => simp [hp] at htp
        | some k =>
          simp only [hp, Except.ok.injEq] at htp
          subst htp
          have := take_min (t.drop k) tlen.toNat
          rw [List.length_drop] at this
          simp [this]

/-! ### Cases -/

example : insert ['a', 'b', 'c'] (-2) ['x'] = .ok ['a', 'b', 'x', 'c'] := by simp [insert]
example : sliceLen ['a', 'b', 'c', 'd'] (-3) 2 = some (['b', 'c'], ['a', 'd']) := by decide
example : (match sliceRange ['a', 'b', 'c', 'd'] (some 1) (some (-2)) false with
    | .ok r => r | .error _ => none) = some (['b', 'c'], ['a', 'd']) := by decide
example : byteRange [1, 2, 3] (some 1) none false = some [2, 3] := by decide
example : (match bytesplice (fun _ => true) [1, 2, 3] (placeLen 3 1 5) [9] with
    | .ok r => r | .error _ => []) = [1, 9] := by decide
example : ¬ ['x'] <:+ ['a', 'b'] := by decide
example : chop '\r' '\n' ['a', '\r', '\n'] = ['a'] := by decide

end Verif.StrEdit
