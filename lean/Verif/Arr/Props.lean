import Verif.Arr.Lemmas

/-!
# C98–C100: reading, assigning, inserting, removing, rotating and filling arrays
-/

namespace Verif.Arr

variable {α : Type} [Inhabited α]

/-! ## C98 -/

/-- C98, `a[i]`: the element at the place `i` means, `nil` where there is none. -/
theorem C98_element (a : List α) (i : Int) :
    (∀ p, Place a.length i p → get a i = a.getD p default) ∧
    ((a.length : Int) ≤ i ∨ i < -(a.length : Int) → get a i = default) := by
  constructor
  · intro p h
    rw [get, resolve_eq.2 h]; rfl
  · intro h
    unfold get
    cases hr : resolve a.length i with
    | none => simp
    | some p =>
      have := resolve_eq.1 hr
      have hp : a.length ≤ p := by
        rcases this with h' | h' <;> omega
      simp [List.getElem?_eq_none hp]

/-- C98, `a[i, n]`: `nil` exactly when `n` is negative or `i` is no place in or directly behind the array;
otherwise the up to `n` elements from there on. -/
theorem C98_slice (a : List α) (i n : Int) (l : List α) :
    get2 a i n = some l ↔ 0 ≤ n ∧ ∃ p, Place a.length i p ∧ p ≤ a.length ∧ l = (a.drop p).take n.toNat := by
  unfold get2
  cases hr : resolve a.length i with
  | none =>
    simp only [reduceCtorEq, false_iff]
    rintro ⟨-, p, hp, -⟩
    rw [resolve_eq.2 hp] at hr
    exact absurd hr (by simp)
  | some s =>
    have hs := resolve_eq.1 hr
    simp only
    split
    · rename_i h
      simp only [reduceCtorEq, false_iff]
      rintro ⟨hn, p, hp, hle, -⟩
      have := Place.unique hs hp
      omega
    · rename_i h
      have key : l = (a.drop s).take n.toNat ↔
          (0 ≤ n ∧ ∃ p, Place a.length i p ∧ p ≤ a.length ∧ l = (a.drop p).take n.toNat) := by
        constructor
        · intro hl; exact ⟨by omega, s, hs, by omega, hl⟩
        · rintro ⟨-, p, hp, -, hl⟩
          rw [Place.unique hs hp]; exact hl
      rw [← key]
      split
      · rename_i he
        subst he
        simp [eq_comm]
      · rw [take_drop_span, Option.some.injEq, eq_comm]

/-- The place where a range starts. -/
def Rng.Starts (r : Rng) (len p : Nat) : Prop :=
  match r.first with
  | none => p = 0
  | some i => Place len i p

theorem Rng.Starts.unique {r : Rng} {len p q : Nat} (h : r.Starts len p) (h' : r.Starts len q) : p = q := by
  unfold Rng.Starts at h h'
  cases hf : r.first with
  | none => rw [hf] at h h'; simp only at h h'; omega
  | some i => rw [hf] at h h'; exact Place.unique h h'

theorem starts_iff {r : Rng} {len p : Nat} : r.Starts len p ↔ startOf len r = (p : Int) := by
  unfold Rng.Starts Place startOf
  cases r.first with
  | none => simp; omega
  | some i => simp only; split <;> omega

/-- C98, `a[range]`: `nil` exactly when the range starts at no place in or directly behind the array; otherwise
the elements from there up to the end of the range. -/
theorem C98_range (a : List α) (r : Rng) (l : List α) :
    getR a r = some l ↔
      ∃ p, r.Starts a.length p ∧ p ≤ a.length ∧ l = (a.drop p).take (r.stop a.length - p).toNat := by
  unfold getR
  simp only
  generalize hs : startOf a.length r = s
  have hst : ∀ p, r.Starts a.length p ↔ s = (p : Int) := by
    intro p; rw [starts_iff, hs]
  simp only [hst]
  split
  · rename_i h
    simp only [reduceCtorEq, false_iff]
    rintro ⟨p, hp, -⟩; omega
  · rename_i h
    obtain ⟨q, hq⟩ : ∃ q : Nat, s = (q : Int) := ⟨s.toNat, by omega⟩
    subst hq
    have key : (∃ p : Nat, (q : Int) = p ∧ p ≤ a.length ∧ l = (a.drop p).take (r.stop a.length - p).toNat) ↔
        (q ≤ a.length ∧ l = (a.drop q).take (r.stop a.length - q).toNat) := by
      constructor
      · rintro ⟨p, hp, h1, h2⟩
        have : q = p := by omega
        subst this; exact ⟨h1, h2⟩
      · rintro ⟨h1, h2⟩; exact ⟨q, rfl, h1, h2⟩
    rw [key]
    split
    · rename_i h'
      have : a.length = q := by omega
      simp [← this, eq_comm]
    · split
      · rename_i h1 h2
        simp only [reduceCtorEq, false_iff]
        rintro ⟨h3, -⟩; omega
      · rename_i h1 h2
        have hlt : q < a.length := by omega
        have hstop := getR_stop a.length r q
        have hfin : (a.drop q).take (r.stop a.length - q).toNat =
            (a.drop q).take (min a.length (r.stop a.length).toNat - q) := by
          rcases Nat.le_total a.length (r.stop a.length).toNat with hc | hc
          · rw [List.take_of_length_le (by simp; omega), List.take_of_length_le (by simp; omega)]
          · congr 1; omega
        rw [hfin, ← hstop]
        cases hg : getEnd a.length r with
        | none => simp [eq_comm]; omega
        | some e =>
          simp only [Int.toNat_natCast, Option.getD_some]
          split
          · rename_i hge
            rw [show e - q = 0 by omega]; simp [eq_comm]; omega
          · rw [List.drop_take]
            simp only [Option.some.injEq]
            constructor
            · intro hl; exact ⟨by omega, hl.symm⟩
            · intro hl; exact hl.2.symm

/-! ## C99 -/

/-- The elements that are to be put in. -/
def Src.elems : Src α → List α
  | .arr v => v
  | .conv _ v => v
  | .one x => [x]

theorem toAry_raw (v : Src α) : (toAry v).raw = v.elems := by cases v <;> rfl

/-- C99, `a[i] = x`: the place gets `x`, nothing else changes; beyond the end `nil`s are filled in; an index
before the beginning raises IndexError. -/
theorem C99_element_partial (a : List α) (i : Int) (x : α) :
    (∀ p, Place a.length i p → max p a.length + 1 ≤ maxLen →
      set a i x = .ok ((pad a p).take p ++ x :: a.drop (p + 1))) ∧
    (i < -(a.length : Int) → set a i x = .raise .index) := by
  have hset : ∀ p, p < a.length → a.set p x = (pad a p).take p ++ x :: a.drop (p + 1) := by
    intro p hp
    rw [pad_le a (by omega), List.set_eq_take_append_cons_drop, if_pos hp]
  constructor
  · intro p hp hm
    unfold set
    split
    · rename_i hi
      have : i.toNat = p := by rcases hp with h | h <;> omega
      rw [this]
      split
      · rename_i hlt; rw [hset p hlt]
      · rename_i hlt
        rw [if_neg (by omega), resize_eq, List.drop_eq_nil_of_le (by omega)]
    · rw [resolve_eq.2 hp]
      simp only
      rw [hset p (by rcases hp with h | h <;> omega)]
  · intro h
    unfold set
    rw [if_neg (by omega), resolve_none.2 h]

/-- C99, `a[i, n] = v`: the `n` elements from the place `i` means are replaced by those of `v` (by `v` itself, when it
is not an array and does not convert to one); in front, `nil`s are filled in if needed; a negative length or an index
before the beginning raises IndexError. -/
theorem C99_slice_partial (a : List α) (i n : Int) (v : Src α) :
    (∀ p, 0 ≤ n → Place a.length i p → max p a.length + v.elems.length ≤ maxLen →
      set2 a i n v = .ok ((pad a p).take p ++ (v.elems ++ a.drop (p + n.toNat)))) ∧
    (n < 0 ∨ i < -(a.length : Int) → set2 a i n v = .raise .index) := by
  constructor
  · intro p hn hp hm
    unfold set2
    rw [if_neg (by omega)]
    simp only
    have hs : (if i < 0 then i + (a.length : Int) else i) = p := by
      rcases hp with h | h <;> split <;> omega
    rw [hs, if_neg (by omega), Int.toNat_natCast, splice_ok _ _ _ _ (by rw [toAry_raw]; exact hm), toAry_raw]
  · intro h
    unfold set2
    split
    · rfl
    · simp only
      rw [if_pos (by split <;> omega)]

/-- C99, `a[range] = v`: the elements that `a[range]` returns are replaced; a range that starts before the
beginning raises RangeError.  Missing: an object that converts to an array is put in as it is. -/
theorem C99_range_partial (a : List α) (r : Rng) (v : Src α) (hv : ∀ x l, v ≠ .conv x l) :
    (∀ p, r.Starts a.length p → max p a.length + v.elems.length ≤ maxLen →
      setR a r v = .ok ((pad a p).take p ++ (v.elems ++ a.drop (p + (r.stop a.length - p).toNat)))) ∧
    ((∃ i, r.first = some i ∧ i < -(a.length : Int)) → setR a r v = .raise .range) := by
  have hraw : v.raw = v.elems := by
    cases v with
    | conv x l => exact absurd rfl (hv x l)
    | _ => rfl
  constructor
  · intro p hp hm
    unfold setR
    rw [starts_iff.1 hp]
    simp only
    rw [if_neg (by omega), Int.toNat_natCast, splice_ok _ _ _ _ (by rw [hraw]; exact hm), hraw, setLen_eq]
  · rintro ⟨i, hi, hlt⟩
    unfold setR startOf
    rw [hi]
    simp only
    rw [if_pos (by split <;> omega)]

/-- C99: an assignment replaces exactly what the same index reads. -/
theorem C99_replaces_what_is_read (a : List α) (r : Rng) (v : Src α) (hv : ∀ x l, v ≠ .conv x l) (old : List α)
    (h : getR a r = some old) (hm : a.length + v.elems.length ≤ maxLen) :
    ∃ l₁ l₂, a = l₁ ++ (old ++ l₂) ∧ setR a r v = .ok (l₁ ++ (v.elems ++ l₂)) ∧
      (∀ p, r.Starts a.length p → l₁.length = p) := by
  obtain ⟨p, hp, hle, hold⟩ := (C98_range a r old).1 h
  refine ⟨a.take p, a.drop (p + (r.stop a.length - p).toNat), ?_, ?_, ?_⟩
  · rw [hold, ← List.drop_drop, List.take_append_drop, List.take_append_drop]
  · rw [(C99_range_partial a r v hv).1 p hp (by omega), pad_le a hle]
  · intro q hq
    rw [Rng.Starts.unique hq hp]; simp; omega

/-- C99: what was assigned is read back. -/
theorem C99_read_back (a : List α) (i n : Int) (v : Src α) (p : Nat) (hn : 0 ≤ n) (hp : Place a.length i p)
    (hm : max p a.length + v.elems.length ≤ maxLen) :
    ∃ b, set2 a i n v = .ok b ∧ get2 b p v.elems.length = some v.elems := by
  refine ⟨_, (C99_slice_partial a i n v).1 p hn hp hm, ?_⟩
  rw [C98_slice]
  have hl : ((pad a p).take p).length = p := by simp [pad_length]; omega
  refine ⟨by omega, p, Or.inl rfl, by simp [hl], ?_⟩
  rw [Int.toNat_natCast, List.drop_append_of_le_length (by omega), List.drop_eq_nil_of_le (by omega)]
  simp

/-- C99 fails: `a[0..0] = x` with an `x` that has `to_ary` puts in `x`, `a[0, 1] = x` the elements. -/
theorem C99_range_to_ary_fails :
    setR [1, 2] ⟨some 0, some 0, false⟩ (.conv 9 [5, 6]) = .ok [9, 2] ∧
    set2 [1, 2] 0 1 (.conv 9 [5, 6]) = .ok [5, 6, 2] := by decide

/-- C99 fails: an index that is too big ends the process (`IndexError` in Ruby). -/
theorem C99_huge_index_fails (x : α) : set ([] : List α) (2 ^ 61) x = .panic := by
  have h : ((2 : Int) ^ 61).toNat = 2 ^ 61 := by decide
  unfold set
  rw [if_pos (by decide), h, if_neg (by simp), if_pos (by decide)]

/-! ## C100 -/

/-- C100, `insert(i, *v)`: `v` comes before the place `i`, behind it for a negative `i`. -/
theorem C100_insert (a : List α) (i : Int) (v : List α) :
    (∀ p : Nat, (i = p ∨ (i = (p : Int) - (a.length + 1) ∧ p ≤ a.length)) → v ≠ [] →
      max p a.length + v.length ≤ maxLen →
      insert a i v = .ok ((pad a p).take p ++ (v ++ a.drop p))) ∧
    (v ≠ [] → i < -(a.length : Int) - 1 → insert a i v = .raise .index) ∧ insert a i [] = .ok a := by
  refine ⟨?_, ?_, by simp [insert]⟩
  · intro p hp hv hm
    unfold insert
    rw [if_neg hv]
    simp only
    have : (if i < 0 then i + (a.length : Int) + 1 else i) = p := by
      rcases hp with h | h <;> split <;> omega
    rw [this, if_neg (by omega), Int.toNat_natCast, if_neg (by omega)]
    split
    · rename_i hge
      rw [resize_eq, List.take_take, Nat.min_self, List.drop_eq_nil_of_le (by simp; omega),
        List.drop_eq_nil_of_le hge]
    · rename_i hlt
      rw [pad_le a (by omega)]
  · intro hv hi
    unfold insert
    rw [if_neg hv]
    simp only
    rw [if_pos (by split <;> omega)]

/-- C100, `delete_at(i)` and `slice!(i)` return what `a[i]` returns and remove it. -/
theorem C100_delete_at (a : List α) (i : Int) :
    deleteAt a i = slice1 a i ∧ (slice1 a i).1 = get a i ∧
    (∀ p, Place a.length i p → (slice1 a i).2 = a.take p ++ a.drop (p + 1)) ∧
    ((a.length : Int) ≤ i ∨ i < -(a.length : Int) → (slice1 a i).2 = a) := by
  refine ⟨?_, ?_, ?_, ?_⟩
  · unfold deleteAt slice1 resolve
    simp only
    split
    · split
      · rw [if_pos (by omega)]
      · rename_i h1 h2
        rw [if_neg (by omega)]
        simp only
        rw [show (a.length : Int) + i = i + a.length by omega, if_pos (by omega)]
    · split
      · simp only; rw [if_neg (by omega)]
      · simp only; rw [if_pos (by omega)]
  · unfold slice1 get
    cases resolve a.length i with
    | none => simp
    | some p =>
      simp only [Option.getD_some]
      split
      · rfl
      · rename_i h; simp [List.getElem?_eq_none (Nat.le_of_not_lt h)]
  · intro p hp
    unfold slice1
    rw [resolve_eq.2 hp]
    simp only
    split
    · simp [List.eraseIdx_eq_take_drop_succ]
    · rename_i h
      simp [List.take_of_length_le (Nat.le_of_not_lt h),
        List.drop_eq_nil_of_le (Nat.le_succ_of_le (Nat.le_of_not_lt h))]
  · intro h
    unfold slice1
    cases hr : resolve a.length i with
    | none => rfl
    | some p =>
      have := resolve_eq.1 hr
      simp only
      rw [if_neg (by rcases this with h' | h' <;> omega)]

theorem sliceInner_eq (a : List α) (s n : Nat) :
    sliceInner a s n = if a.length < s then (none, a) else (some ((a.drop s).take n), a.take s ++ a.drop (s + n)) := by
  unfold sliceInner
  split
  · rfl
  · rename_i h
    split
    · rename_i h'
      rcases h' with h' | h'
      · have : s = a.length := by omega
        subst this
        simp
      · subst h'; simp
    · rename_i h'
      simp only
      have : (if a.length < s + n then a.length else s + n) = min a.length (s + n) := by
        rw [Nat.min_def]; split <;> split <;> omega
      rw [this, take_drop_span]
      congr 2
      rcases Nat.le_total a.length (s + n) with hc | hc
      · rw [Nat.min_eq_left hc, List.drop_eq_nil_of_le hc, List.drop_length]
      · rw [Nat.min_eq_right hc]

/-- C100, `slice!(i, n)` returns what `a[i, n]` returns and removes it. -/
theorem C100_slice (a : List α) (i n : Int) :
    (slice2 a i n).1 = get2 a i n ∧
    (∀ l, get2 a i n = some l → ∃ l₁ l₂, a = l₁ ++ (l ++ l₂) ∧ (slice2 a i n).2 = l₁ ++ l₂ ∧
      Place a.length i l₁.length) ∧
    (get2 a i n = none → (slice2 a i n).2 = a) := by
  have hval : ∀ s, resolve a.length i = some s → ¬ n < 0 → s ≤ a.length →
      slice2 a i n = (some ((a.drop s).take n.toNat), a.take s ++ a.drop (s + n.toNat)) := by
    intro s hs hn hle
    unfold slice2
    rw [hs]
    simp only
    rw [if_neg hn, sliceInner_eq, if_neg (by omega)]
  have hnone : (∀ p, Place a.length i p → p ≤ a.length → n < 0) → slice2 a i n = (none, a) := by
    intro h
    unfold slice2
    cases hr : resolve a.length i with
    | none => rfl
    | some s =>
      simp only
      split
      · rfl
      · rename_i hn
        rw [sliceInner_eq, if_pos]
        have := h s (resolve_eq.1 hr)
        omega
  have hfst : (slice2 a i n).1 = get2 a i n := by
    cases hg : get2 a i n with
    | some l =>
      obtain ⟨hn, p, hp, hle, hl⟩ := (C98_slice a i n l).1 hg
      rw [hval p (resolve_eq.2 hp) (by omega) hle, hl]
    | none =>
      rw [hnone]
      intro p hp hle
      rcases Int.lt_or_le n 0 with h | h
      · exact h
      · have := (C98_slice a i n _).2 ⟨h, p, hp, hle, rfl⟩
        rw [hg] at this; exact absurd this (by simp)
  refine ⟨hfst, ?_, ?_⟩
  · intro l hl
    obtain ⟨hn, p, hp, hle, hl⟩ := (C98_slice a i n l).1 hl
    refine ⟨a.take p, a.drop (p + n.toNat), ?_, ?_, ?_⟩
    · rw [hl, ← List.drop_drop, List.take_append_drop, List.take_append_drop]
    · rw [hval p (resolve_eq.2 hp) (by omega) hle]
    · rw [List.length_take, Nat.min_eq_left hle]; exact hp
  · intro hg
    rw [hnone]
    intro p hp hle
    rcases Int.lt_or_le n 0 with h | h
    · exact h
    · have := (C98_slice a i n _).2 ⟨h, p, hp, hle, rfl⟩
      rw [hg] at this; exact absurd this (by simp)

/-- C100, `slice!(range)` returns what `a[range]` returns, and removes it, unless the range starts behind the
array. -/
theorem C100_slice_range_partial (a : List α) (r : Rng) (l : List α) (hl : getR a r = some l) :
    (sliceR a r).1 = some l ∧
    ∃ l₁ l₂, a = l₁ ++ (l ++ l₂) ∧ (sliceR a r).2 = l₁ ++ l₂ ∧ r.Starts a.length l₁.length := by
  obtain ⟨p, hp, hle, hlv⟩ := (C98_range a r l).1 hl
  have hs : sliceFirst a.length r = some p := by
    unfold Rng.Starts at hp
    unfold sliceFirst
    cases hf : r.first with
    | none => rw [hf] at hp; simp only at hp ⊢; rw [hp]
    | some i => rw [hf] at hp; exact resolve_eq.2 hp
  have main : sliceR a r = (some ((a.drop p).take (r.stop a.length - p).toNat),
      a.take p ++ a.drop (p + (r.stop a.length - p).toNat)) := by
    unfold sliceR sliceLast sliceLen
    rw [hs]
    simp only
    have hzero : (some ([] : List α), a) = (some ((a.drop p).take 0), a.take p ++ a.drop (p + 0)) := by simp
    cases hlast : r.last with
    | none =>
      simp only
      have hstop : r.stop a.length = a.length := by unfold Rng.stop; rw [hlast]
      rw [hstop]
      split
      · rw [show ((a.length : Int) - p).toNat = a.length - p by omega]
        rw [show a.length - p = 0 by omega]; exact hzero
      · rw [sliceInner_eq, if_neg (by omega), show ((a.length : Int) - p).toNat = a.length - p by omega]
    | some e =>
      simp only
      have hstop : r.stop a.length = (if e < 0 then e + a.length else e) + if r.excl then 0 else 1 := by
        unfold Rng.stop; rw [hlast]
      rw [hstop]
      cases hr : resolve a.length e with
      | none =>
        have := resolve_none.1 hr
        simp only
        rw [show ((if e < 0 then e + (a.length : Int) else e) + (if r.excl = true then 0 else 1) - (p : Int)).toNat = 0
          by split <;> split <;> omega]
        exact hzero
      | some q =>
        have hq := resolve_eq.1 hr
        simp only
        have hq' : (if e < 0 then e + (a.length : Int) else e) = q := by
          rcases hq with h | h <;> split <;> omega
        rw [hq']
        split
        · rw [show ((q : Int) + (if r.excl = true then 0 else 1) - (p : Int)).toNat = 0 by split <;> omega]
          exact hzero
        · rw [sliceInner_eq, if_neg (by omega)]
          rw [show ((q : Int) + (if r.excl = true then 0 else 1) - (p : Int)).toNat =
            q - p + (if r.excl = true then 0 else 1) by split <;> omega]
  rw [main]
  refine ⟨by rw [hlv], a.take p, a.drop (p + (r.stop a.length - p).toNat), ?_, rfl, ?_⟩
  · rw [hlv, ← List.drop_drop, List.take_append_drop, List.take_append_drop]
  · rw [List.length_take, Nat.min_eq_left hle]; exact hp

/-- C100 fails: `[1].slice!(5..2)` and `[1].slice!(5..)` return `[]`, `[1][5..2]` and `[1][5..]` are `nil`. -/
theorem C100_slice_range_fails :
    (sliceR [1] ⟨some 5, some 2, false⟩).1 = some [] ∧ getR [1] ⟨some 5, some 2, false⟩ = none ∧
    (sliceR [1] ⟨some 5, none, false⟩).1 = some [] ∧ getR [1] ⟨some 5, none, false⟩ = none := by decide

/-- C100: `shift(n)` and `pop(n)` cut the array in two. -/
theorem C100_shift_pop (a : List α) (n : Int) :
    (n < 0 → shiftN a n = .raise .argument ∧ popN a n = .raise .argument) ∧
    (0 ≤ n → ∃ l₁ l₂, shiftN a n = .ok (l₁, l₂) ∧ a = l₁ ++ l₂ ∧ l₁.length = min n.toNat a.length) ∧
    (0 ≤ n → ∃ l₁ l₂, popN a n = .ok (l₂, l₁) ∧ a = l₁ ++ l₂ ∧ l₂.length = min n.toNat a.length) := by
  refine ⟨?_, ?_, ?_⟩
  · intro h; simp [shiftN, popN, h]
  · intro h
    refine ⟨a.take (min n.toNat a.length), a.drop (min n.toNat a.length), ?_, by rw [List.take_append_drop], by simp⟩
    simp only [shiftN]
    rw [if_neg (by omega)]
  · intro h
    refine ⟨_, _, ?_, (List.take_append_drop (if n.toNat ≥ a.length then 0 else a.length - n.toNat) a).symm, ?_⟩
    · simp only [popN]
      rw [if_neg (by omega)]
    · rw [List.length_drop]; split <;> omega

theorem rotl_get (a : List α) (k j : Nat) (hk : k ≤ a.length) (hj : j < a.length) :
    (rotl a k)[j]? = a[(j + k) % a.length]? := by
  unfold rotl
  rw [List.getElem?_append]
  simp only [List.length_drop, List.getElem?_drop]
  split
  · rw [Nat.mod_eq_of_lt (by omega)]; congr 1; omega
  · have e : (j + k) % a.length = j + k - a.length := by
      rw [Nat.mod_eq_sub_mod (by omega), Nat.mod_eq_of_lt (by omega)]
    rw [e, List.getElem?_take]
    rw [if_pos (by omega)]; congr 1; omega

/-- C100, `rotate(n)`: the element at `j` is the one that was `n` places further on, round the end. -/
theorem C100_rotate (a : List α) (n : Int) (j : Nat) (hj : j < a.length) :
    (rotate a n).length = a.length ∧ (rotate a n)[j]? = a[((j + n) % a.length).toNat]? := by
  have hlen : (0 : Int) < a.length := by omega
  unfold rotate
  rw [if_neg (by omega)]
  split
  · rename_i h
    have hw : (wrapCount n a.length : Int) = n % a.length := by
      unfold wrapCount
      rw [if_pos (by omega)]
      split
      · rw [Int.emod_eq_of_lt (by omega) (by omega)]; omega
      · rw [Int.tmod_eq_emod_of_nonneg (by omega)]
        have := Int.emod_nonneg n (show (a.length : Int) ≠ 0 by omega)
        omega
    have hlt : (wrapCount n a.length : Int) < a.length := by rw [hw]; exact Int.emod_lt_of_pos _ hlen
    refine ⟨by simp [rotl]; omega, ?_⟩
    rw [rotl_get a _ j (by omega) hj]
    congr 1
    have : (((j + wrapCount n a.length) % a.length : Nat) : Int) = (j + n) % a.length := by
      push_cast; rw [hw, Int.add_emod_emod]
    omega
  · rename_i h
    have hw : (wrapCount n a.length : Int) = (-n) % a.length := by
      unfold wrapCount
      split
      · have : n = 0 := by omega
        subst this
        rw [if_pos hlen]; simp
      · split
        · rw [Int.emod_eq_of_lt (by omega) (by omega)]; omega
        · rw [← Int.neg_tmod, Int.tmod_eq_emod_of_nonneg (by omega)]
          have := Int.emod_nonneg (-n) (show (a.length : Int) ≠ 0 by omega)
          omega
    have hlt : (wrapCount n a.length : Int) < a.length := by rw [hw]; exact Int.emod_lt_of_pos _ hlen
    refine ⟨by simp [rotr], ?_⟩
    change (rotl a (a.length - wrapCount n a.length))[j]? = _
    rw [rotl_get a _ j (by omega) hj]
    congr 1
    have : (((j + (a.length - wrapCount n a.length)) % a.length : Nat) : Int) = (j + n) % a.length := by
      rw [Int.natCast_emod, Int.natCast_add, Int.natCast_sub (by omega), hw]
      rw [show (j : Int) + ((a.length : Int) - (-n) % a.length) = (j - (-n) % a.length) + a.length by omega,
        Int.add_emod_right, Int.sub_emod_emod]
      congr 1; omega
    omega

theorem fillFrom_get (x : α) (n : Nat) : ∀ (a : List α) (s j : Nat),
    ((List.range' s n).foldl (fun a i => a.set i x) a).length = a.length ∧
    ((List.range' s n).foldl (fun a i => a.set i x) a)[j]? =
      if s ≤ j ∧ j < s + n ∧ j < a.length then some x else a[j]? := by
  induction n with
  | zero => intro a s j; simp; omega
  | succ n ih =>
    intro a s j
    rw [List.range'_succ, List.foldl_cons]
    obtain ⟨h1, h2⟩ := ih (a.set s x) (s + 1) j
    refine ⟨by rw [h1]; simp, ?_⟩
    rw [h2, List.length_set, List.getElem?_set]
    by_cases hs : s = j
    · subst hs
      by_cases hl : s < a.length
      · simp [hl]
      · simp [hl]
    · simp only [hs, ↓reduceIte]
      have : (s + 1 ≤ j ∧ j < s + 1 + n ∧ j < a.length) ↔ (s ≤ j ∧ j < s + (n + 1) ∧ j < a.length) := by omega
      simp only [this]

theorem fillSpan_get (a : List α) (s e : Nat) (x : α) (b : List α) (h : fillSpan a s e x = .ok b) (j : Nat) :
    b.length = max e a.length ∧ b[j]? = if s ≤ j ∧ j < e then some x else (pad a e)[j]? := by
  have key : ∀ c : List α, c.length = max e a.length → fillFrom c s e x = b →
      c = pad a e → b.length = max e a.length ∧ b[j]? = if s ≤ j ∧ j < e then some x else (pad a e)[j]? := by
    intro c hc hb hp
    obtain ⟨h1, h2⟩ := fillFrom_get x (e - s) c s j
    change (fillFrom c s e x).length = _ at h1
    change (fillFrom c s e x)[j]? = _ at h2
    rw [hb] at h1 h2
    refine ⟨by omega, ?_⟩
    rw [h2, hp]
    have : (s ≤ j ∧ j < s + (e - s) ∧ j < (pad a e).length) ↔ (s ≤ j ∧ j < e) := by
      rw [← hp]; omega
    simp only [this]
  unfold fillSpan at h
  split at h
  · rename_i hgt
    unfold fillResize at h
    split at h
    · rename_i heq; split at heq
      · exact absurd heq (by simp)
      · simp only [Out.ok.injEq] at heq h
        rename_i c _
        refine key c ?_ h ?_
        · rw [← heq, resize_eq]; simp [pad_length]; omega
        · rw [← heq, resize_eq, List.take_of_length_le (by simp [pad_length]; omega)]
    · rename_i hno
      exact absurd h (hno _)
  · simp only [Out.ok.injEq] at h
    exact key a (by omega) h (by rw [pad_le a (by omega)])

/-- C100, `fill(x, i, n)`: `n` places from the one `i` means get `x`, and nothing else changes; the array grows when
needed. -/
theorem C100_fill (a : List α) (x : α) (i : Int) (n : Int) (hn : 0 < n) (b : List α)
    (h : fill a x i (some n) = .ok b) (p : Nat)
    (hp : Place a.length i p ∨ (i < -(a.length : Int) ∧ p = 0)) (j : Nat) :
    b.length = max (p + n.toNat) a.length ∧
    b[j]? = if p ≤ j ∧ j < p + n.toNat then some x else (pad a (p + n.toNat))[j]? := by
  simp only [fill, show ¬ n ≤ 0 by omega, ↓reduceIte] at h
  have : fillStart a.length i = p := by
    unfold fillStart
    rcases hp with (h | h) | h <;> split <;> (try split) <;> omega
  rw [this] at h
  exact fillSpan_get a _ _ x b h j

/-- C100 fails: an empty range behind the array makes `fill` lengthen it. -/
theorem C100_fill_range_fails :
    fillR [1] 7 ⟨some 3, some 2, false⟩ = .ok [1, 0, 0] ∧ getR [1] ⟨some 3, some 2, false⟩ = none ∧
    fillR [1] 7 ⟨some 3, none, false⟩ = .ok [1, 0, 0] := by decide

/-- C100, `fill(x, range)` for a range that is not empty: its places get `x`. -/
theorem C100_fill_range_partial (a : List α) (x : α) (r : Rng) (p : Nat) (b : List α)
    (hp : r.Starts a.length p) (hlt : (p : Int) < r.stop a.length) (h : fillR a x r = .ok b) (j : Nat) :
    b.length = max (r.stop a.length).toNat a.length ∧
    b[j]? = if p ≤ j ∧ (j : Int) < r.stop a.length then some x else (pad a (r.stop a.length).toNat)[j]? := by
  unfold fillR at h
  simp only at h
  rw [starts_iff.1 hp, fillEnd_eq, if_neg (by omega), if_neg (by omega), Int.toNat_natCast] at h
  have := fillSpan_get a _ _ x b h j
  refine ⟨this.1, ?_⟩
  rw [this.2]
  have : (p ≤ j ∧ j < (r.stop a.length).toNat) ↔ (p ≤ j ∧ (j : Int) < r.stop a.length) := by omega
  simp only [this]

/-! ## Examples -/

example : get [10, 20, 30] (-1) = 30 ∧ get [10, 20, 30] 3 = 0 ∧ get [10, 20, 30] (-4) = 0 := by decide
example : Place 3 (-1) 2 := by unfold Place; omega
example : get2 [10, 20, 30] (-2) 5 = some [20, 30] ∧ get2 [10, 20, 30] 3 1 = some [] ∧
    get2 [10, 20, 30] 4 1 = none := by decide
example : getR [10, 20, 30] ⟨some (-2), some (-1), true⟩ = some [20] ∧
    getR [10, 20, 30] ⟨none, some (-9), false⟩ = some [] := by decide
example : set2 [1, 2, 3, 4] 1 2 (.arr [7, 8, 9]) = .ok [1, 7, 8, 9, 4] ∧
    set2 [1, 2] 4 0 (.one 5) = .ok [1, 2, 0, 0, 5] ∧ set2 [1, 2, 3] 0 2 (.one 5) = .ok [5, 3] := by decide
example : setR [1, 2, 3] ⟨some 1, none, false⟩ (.arr []) = .ok [1] ∧
    setR [1, 2, 3] ⟨some (-9), none, false⟩ (.arr []) = .raise .range := by decide
example : insert [1, 2] (-2) [8, 9] = .ok [1, 8, 9, 2] := by decide
example : rotate [1, 2, 3, 4] (-5) = [4, 1, 2, 3] := by decide
example : sliceR [1, 2, 3, 4] ⟨some 1, some (-2), false⟩ = (some [2, 3], [1, 4]) := by decide
example : fill [1, 2] 9 3 (some 2) = .ok [1, 2, 0, 9, 9] := by decide

end Verif.Arr
