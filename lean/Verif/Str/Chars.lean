import Verif.Str.Utf8

/-! # Characters of strings -/

namespace Verif.Str

variable {iso : List Nat → Bool}

/-- byte position of the `k`-th character -/
def pos (cs : List (List Nat)) (k : Nat) : Nat := ((cs.take k).flatten).length

theorem take_pos (cs : List (List Nat)) (k : Nat) : cs.flatten.take (pos cs k) = (cs.take k).flatten := by
  have h : cs.flatten = (cs.take k).flatten ++ (cs.drop k).flatten := by
    rw [← List.flatten_append, List.take_append_drop]
  rw [h]
  exact List.take_left' rfl

theorem drop_pos (cs : List (List Nat)) (k : Nat) : cs.flatten.drop (pos cs k) = (cs.drop k).flatten := by
  have h : cs.flatten = (cs.take k).flatten ++ (cs.drop k).flatten := by
    rw [← List.flatten_append, List.take_append_drop]
  rw [h]
  exact List.drop_left' rfl

theorem pos_add (cs : List (List Nat)) (k n : Nat) : pos cs (k + n) = pos cs k + pos (cs.drop k) n := by
  unfold pos
  rw [List.take_add, List.flatten_append, List.length_append]

theorem slice_pos (cs : List (List Nat)) (k n : Nat) :
    slice cs.flatten (pos cs k) (pos cs (k + n)) = ((cs.drop k).take n).flatten := by
  unfold slice
  rw [drop_pos, pos_add, Nat.add_sub_cancel_left, take_pos]

theorem pos_le (cs : List (List Nat)) (k : Nat) : pos cs k ≤ cs.flatten.length := by
  have := congrArg List.length (take_pos cs k)
  rw [List.length_take] at this
  unfold pos at *
  omega

theorem pos_all {cs : List (List Nat)} {k : Nat} (h : cs.length ≤ k) : pos cs k = cs.flatten.length := by
  unfold pos
  rw [List.take_of_length_le h]

theorem pos_mono (cs : List (List Nat)) {k n : Nat} (h : k ≤ n) : pos cs k ≤ pos cs n := by
  obtain ⟨d, rfl⟩ := Nat.exists_eq_add_of_le h
  rw [pos_add]; omega

theorem pos_succ (c : List Nat) (cs : List (List Nat)) (k) : pos (c :: cs) (k + 1) = c.length + pos cs k := by
  simp [pos]

theorem pos_zero (cs : List (List Nat)) : pos cs 0 = 0 := by simp [pos]

theorem chars_flatten (e : Enc) (bs : List Nat) : (chars e bs).flatten = bs :=
  iter_flatten e _ _ (Nat.le_refl _)

theorem iter_ne {e : Enc} : ∀ n bs, ∀ c ∈ iter e n bs, c ≠ [] := by
  intro n
  induction n with
  | zero => intro bs c hc; cases bs <;> simp [iter] at hc
  | succ n ih =>
    intro bs c hc
    cases bs with
    | nil => simp [iter] at hc
    | cons b t =>
      simp only [iter, List.mem_cons] at hc
      rcases hc with rfl | hc
      · have := iterW_pos e (b :: t)
        intro h
        have hl := congrArg List.length h
        rw [List.length_take] at hl
        simp at hl
        omega
      · exact ih _ c hc

theorem iter_fuel {e : Enc} : ∀ n m bs, bs.length ≤ n → bs.length ≤ m → iter e n bs = iter e m bs := by
  intro n
  induction n with
  | zero =>
    intro m bs h1 _
    have : bs = [] := List.length_eq_zero_iff.mp (by omega)
    subst this
    cases m <;> rfl
  | succ n ih =>
    intro m bs h1 h2
    cases bs with
    | nil => cases m <;> rfl
    | cons b t =>
      cases m with
      | zero => simp at h2
      | succ m =>
        simp only [iter]
        have := iterW_pos e (b :: t)
        rw [ih m _ (by rw [List.length_drop]; simp only [List.length_cons] at *; omega)
          (by rw [List.length_drop]; simp only [List.length_cons] at *; omega)]

theorem chars_cons {e : Enc} {bs : List Nat} (h : bs ≠ []) :
    chars e bs = bs.take (iterW e bs) :: chars e (bs.drop (iterW e bs)) := by
  cases bs with
  | nil => exact absurd rfl h
  | cons b t =>
    unfold chars
    simp only [List.length_cons, iter]
    have := iterW_pos e (b :: t)
    rw [iter_fuel t.length _ _ (by rw [List.length_drop]; simp only [List.length_cons]; omega) (Nat.le_refl _)]

/-- the characters of valid text are the ones it was put together from -/
theorem chars_of {e : Enc} (he : e ≠ .iso2022Jp) : ∀ {cs : List (List Nat)},
    (∀ c ∈ cs, c ≠ [] ∧ code e c = some c.length) → chars e cs.flatten = cs
  | [], _ => rfl
  | c :: cs, h => by
    have h1 := h c (by simp)
    have hk := (code_code e).app h1.2 cs.flatten
    rw [List.flatten_cons, chars_cons (by simp [h1.1]), iterW_code he hk, List.take_left' rfl,
      List.drop_left' rfl, chars_of he (fun d hd => h d (by simp [hd]))]

theorem chars_wf {e : Enc} (he : e ≠ .iso2022Jp) {bs} (h : Wf (code e) bs) :
    ∀ c ∈ chars e bs, c ≠ [] ∧ code e c = some c.length :=
  iter_wf he _ _ (Nat.le_refl _) h

theorem chars_append {e : Enc} (he : e ≠ .iso2022Jp) {a b} (ha : Wf (code e) a) (hb : Wf (code e) b) :
    chars e (a ++ b) = chars e a ++ chars e b := by
  conv_lhs => rw [← chars_flatten e a, ← chars_flatten e b, ← List.flatten_append]
  refine chars_of he (fun c hc => ?_)
  rcases List.mem_append.mp hc with hc | hc
  exacts [chars_wf he ha c hc, chars_wf he hb c hc]

/-- every ASCII byte is a character in an ASCII-compatible encoding -/
theorem chars_ascii {e : Enc} (he : e.asciiCompat = true) {bs} (h : Ascii bs) :
    chars e bs = bs.map (fun b => [b]) := by
  have hne : e ≠ .iso2022Jp := by intro hh; rw [hh] at he; simp [Enc.asciiCompat] at he
  have : bs = (bs.map (fun b => [b])).flatten := by
    induction bs with
    | nil => rfl
    | cons b t ih => simp; exact ih (h.sub (by simp +contextual))
  conv_lhs => rw [this]
  refine chars_of hne (fun c hc => ?_)
  obtain ⟨b, hb, rfl⟩ := List.mem_map.mp hc
  exact ⟨by simp, by simpa using code_ascii1 he (h b hb)⟩

theorem pos_singles : ∀ (bs : List Nat) k, pos (bs.map (fun b => [b])) k = min k bs.length
  | [], k => by simp [pos]
  | b :: t, 0 => by simp [pos]
  | b :: t, k + 1 => by
    rw [List.map_cons, pos_succ, pos_singles t k]
    simp only [List.length_cons, List.length_nil]
    omega

/-- encodings of a fixed width -/
def fixed (e : Enc) (u : Nat) : Prop := ∀ b t, iterW e (b :: t) = u

theorem pos_fixed {e : Enc} {u} (hu : 0 < u) (h : fixed e u) : ∀ k bs, pos (chars e bs) k = min (k * u) bs.length := by
  intro k
  induction k with
  | zero => intro bs; simp [pos_zero]
  | succ k ih =>
    intro bs
    cases bs with
    | nil => simp [chars, iter, pos]
    | cons b t =>
      rw [chars_cons (by simp), h, pos_succ, ih, List.length_take, List.length_drop, Nat.succ_mul]
      omega

theorem length_fixed {e : Enc} {u} (hu : 0 < u) (h : fixed e u) : ∀ n bs, bs.length ≤ n →
    (chars e bs).length = (bs.length + (u - 1)) / u := by
  intro n
  induction n with
  | zero =>
    intro bs hb
    have : bs = [] := List.length_eq_zero_iff.mp (by omega)
    subst this
    simp only [chars, iter, List.length_nil]
    rw [Nat.div_eq_of_lt (by omega)]
  | succ n ih =>
    intro bs hb
    cases bs with
    | nil =>
      simp only [chars, iter, List.length_nil]
      rw [Nat.div_eq_of_lt (by omega)]
    | cons b t =>
      rw [chars_cons (by simp), h, List.length_cons, ih _ (by
        rw [List.length_drop]; simp only [List.length_cons] at *; omega), List.length_drop]
      simp only [List.length_cons]
      by_cases hlt : t.length + 1 ≤ u
      · have : t.length + 1 - u = 0 := by omega
        rw [this, Nat.zero_add, Nat.div_eq_of_lt (by omega : u - 1 < u)]
        rw [show t.length + 1 + (u - 1) = t.length + u by omega, Nat.add_div_right _ hu,
          Nat.div_eq_of_lt (by omega)]
      · rw [show t.length + 1 + (u - 1) = (t.length + 1 - u + (u - 1)) + u by omega, Nat.add_div_right _ hu]

/-- in UTF-8 the characters are as many as the bytes that are no continuation bytes -/
theorem length_u8 {bs : List Nat} (h : Wf u8w bs) :
    (chars .utf8 bs).length = (bs.filter (fun b => !cont b)).length := by
  have hw := chars_wf (e := .utf8) (by simp) h
  conv_rhs => rw [← chars_flatten .utf8 bs]
  generalize chars .utf8 bs = cs at hw
  induction cs with
  | nil => rfl
  | cons c cs ih =>
    rw [List.flatten_cons, List.filter_append, List.length_append, List.length_cons,
      ih (fun d hd => hw d (by simp [hd]))]
    obtain ⟨b, t, rfl, h1, h2⟩ := u8w_char (hw c (by simp)).2
    have : (b :: t).filter (fun b => !cont b) = [b] := by
      rw [List.filter_cons_of_pos (by simp [h1]), List.filter_eq_nil_iff.mpr (by simp +contextual [h2])]
    rw [this]
    simp only [List.length_cons, List.length_nil]
    omega

theorem fixed1 {e : Enc} (h : e = .ascii8 ∨ e = .usAscii ∨ (∃ n, e = .iso8859 n) ∨ (∃ n, e = .other n) ∨
    (∃ n, e = .namedByte n)) : fixed e 1 := by
  intro b t
  rcases h with rfl | rfl | ⟨n, rfl⟩ | ⟨n, rfl⟩ | ⟨n, rfl⟩ <;> rfl

theorem charLength_eq {s : S} (hs : Safe s) (he : s.enc ≠ .iso2022Jp) :
    s.charLength iso = some (chars s.enc s.bytes).length := by
  have f1 : ∀ e, fixed e 1 → some s.bytes.length = some (chars e s.bytes).length := by
    intro e hf
    rw [length_fixed (by omega) hf _ _ (Nat.le_refl _)]
    simp
  have f2 : ∀ e, fixed e 2 → some (s.bytes.length / 2 + s.bytes.length % 2) = some (chars e s.bytes).length := by
    intro e hf
    rw [length_fixed (by omega) hf _ _ (Nat.le_refl _)]
    congr 1; omega
  have f4 : ∀ e, fixed e 4 → some (s.bytes.length / 4 + if s.bytes.length % 4 > 0 then 1 else 0) =
      some (chars e s.bytes).length := by
    intro e hf
    rw [length_fixed (by omega) hf _ _ (Nat.le_refl _)]
    congr 1; split_ifs <;> omega
  have fa : ∀ e : Enc, e.asciiCompat = true → s.codeRange iso = .sevenBit →
      some s.bytes.length = some (chars e s.bytes).length := by
    intro e ha hc
    rw [chars_ascii ha (hs.seven hc), List.length_map]
  unfold S.charLength
  cases hE : s.enc <;> simp only
  case utf8 =>
    cases hc : s.codeRange iso <;> simp only
    · exact fa _ rfl hc
    · rw [length_u8 (hs.valid hc hE)]
  case eucJp =>
    cases hc : s.codeRange iso <;> simp only
    exact fa _ rfl hc
  case sjis =>
    cases hc : s.codeRange iso <;> simp only
    exact fa _ rfl hc
  case iso2022Jp => exact absurd hE he
  case utf16le => exact f2 _ (fun _ _ => rfl)
  case utf16be => exact f2 _ (fun _ _ => rfl)
  case utf32le => exact f4 _ (fun _ _ => rfl)
  case utf32be => exact f4 _ (fun _ _ => rfl)
  all_goals exact f1 _ (fun _ _ => rfl)

/-- the loop finds the two positions -/
theorem rangeLoop_found {total index len : Nat} : ∀ (cs : List (List Nat)) (i p : Nat) (st : Option Nat),
    i + cs.length ≥ index → total = p + cs.flatten.length →
    (i ≤ index → st = none) → (index < i → ∃ q, st = some q ∧ i < index + len) → len ≠ 0 → 
    (i ≤ index → index < i + cs.length →
      rangeLoop total index len i p st cs = (some (p + pos cs (index - i)), p + pos cs (index + len - i))) ∧
    (index < i → rangeLoop total index len i p st cs = (st, p + pos cs (index + len - i))) ∧
    (index = i + cs.length → rangeLoop total index len i p st cs = (none, total))
  | [], i, p, st, h1, h2, h3, h4, h5 => by
    refine ⟨fun a b => by simp at b; omega, fun a => ?_, fun a => ?_⟩
    · simp [rangeLoop, pos, h2]
    · simp only [List.length_nil, Nat.add_zero] at a
      simp [rangeLoop, h3 (by omega)]
  | c :: cs, i, p, st, h1, h2, h3, h4, h5 => by
    simp only [List.length_cons, List.flatten_cons, List.length_append] at h1 h2
    simp only [rangeLoop]
    have hl0 : ¬ (i = index ∧ len = 0) := fun h => h5 h.2
    rw [if_neg hl0]
    rcases Nat.lt_trichotomy i index with hlt | heq | hgt
    · -- not there yet
      have hst := h3 (by omega)
      subst hst
      have hne : ¬ i = index := by omega
      simp only [hne, if_false, Option.isSome_none, Bool.false_eq_true, false_and]
      have ih := rangeLoop_found cs (i + 1) (p + c.length) none (by omega) (by omega) (fun _ => rfl)
        (fun h => by omega) h5 (index := index) (total := total) (len := len)
      refine ⟨fun _ hb => ?_, fun h => by omega, fun h => ih.2.2 (by simp only [List.length_cons] at h; omega)⟩
      simp only [List.length_cons] at hb
      rw [ih.1 (by omega) (by omega)]
      obtain ⟨d, hd⟩ : ∃ d, index - i = d + 1 := ⟨index - i - 1, by omega⟩
      rw [hd, pos_succ, show index + len - i = (index + len - (i + 1)) + 1 by omega, pos_succ,
        show index - (i + 1) = d by omega]
      simp only [Prod.mk.injEq, Option.some.injEq]
      omega
    · subst heq
      have hst := h3 (Nat.le_refl _)
      subst hst
      simp only [if_true, Option.isSome_some, true_and]
      refine ⟨fun _ _ => ?_, fun h => by omega, fun h => by simp only [List.length_cons] at h; omega⟩
      rw [Nat.sub_self, pos_zero, Nat.add_zero, Nat.add_sub_cancel_left]
      by_cases hone : len = 1
      · subst hone
        rw [if_pos rfl, show (1 : Nat) = 0 + 1 from rfl, pos_succ, pos_zero]
        rfl
      · rw [if_neg (by omega)]
        have ih := rangeLoop_found cs (i + 1) (p + c.length) (some p) (by omega) (by omega)
          (fun h => by omega) (fun _ => ⟨p, rfl, by omega⟩) h5 (index := i) (total := total) (len := len)
        rw [ih.2.1 (by omega)]
        obtain ⟨d, hd⟩ : ∃ d, len = d + 1 := ⟨len - 1, by omega⟩
        subst hd
        rw [pos_succ, show i + (d + 1) - (i + 1) = d by omega]
        simp only [Prod.mk.injEq, Option.some.injEq, true_and]
        omega
    · obtain ⟨q, hq, hlt⟩ := h4 hgt
      subst hq
      have hne : ¬ i = index := by omega
      simp only [hne, if_false, Option.isSome_some, true_and]
      refine ⟨fun h => by omega, fun _ => ?_, fun h => by simp only [List.length_cons] at h; omega⟩
      by_cases hone : i + 1 = index + len
      · rw [if_pos hone, show index + len - i = 0 + 1 by omega, pos_succ, pos_zero]
        rfl
      · rw [if_neg hone]
        have ih := rangeLoop_found cs (i + 1) (p + c.length) (some q) (by omega) (by omega)
          (fun h => by omega) (fun _ => ⟨q, rfl, by omega⟩) h5 (index := index) (total := total) (len := len)
        rw [ih.2.1 (by omega)]
        obtain ⟨d, hd⟩ : ∃ d, index + len - i = d + 1 := ⟨index + len - i - 1, by omega⟩
        rw [hd, pos_succ, show index + len - (i + 1) = d by omega]
        simp only [Prod.mk.injEq, true_and]
        omega

theorem wrap_small {n : Nat} (h : n < 2 ^ 64) : wrap n = n := Nat.mod_eq_of_lt h

/-- `get_range` answers the byte positions of two characters -/
theorem getRange_eq {s : S} (hs : Safe s) (he : s.enc ≠ .iso2022Jp) {k len : Nat} (hlen : len ≠ 0)
    (hk : k ≤ (chars s.enc s.bytes).length) (hw : (k + len) * 4 < 2 ^ 64) :
    getRange iso s k len = (pos (chars s.enc s.bytes) k, pos (chars s.enc s.bytes) (k + len)) := by
  have fx : ∀ u, (u = 1 ∨ u = 2 ∨ u = 4) → s.unit iso = some u →
      (∀ j, pos (chars s.enc s.bytes) j = min (j * u) s.bytes.length) →
      getRange iso s k len = (pos (chars s.enc s.bytes) k, pos (chars s.enc s.bytes) (k + len)) := by
    intro u hu hun hp
    have h1 : wrap (k * u) = k * u := wrap_small (by rcases hu with rfl | rfl | rfl <;> omega)
    have h2 : wrap (k + len) = k + len := wrap_small (by omega)
    have h3 : wrap ((k + len) * u) = (k + len) * u :=
      wrap_small (by rcases hu with rfl | rfl | rfl <;> omega)
    unfold getRange
    rw [hun]
    simp only [h1, h2, h3, hp]
  have lp : s.unit iso = none →
      getRange iso s k len = (pos (chars s.enc s.bytes) k, pos (chars s.enc s.bytes) (k + len)) := by
    intro hun
    unfold getRange
    rw [hun]
    simp only
    have hl := rangeLoop_found (total := s.bytes.length) (index := k) (len := len) (chars s.enc s.bytes) 0 0 none
      (by omega) (by rw [chars_flatten]; omega) (fun _ => rfl) (fun h => by omega) hlen
    rcases Nat.lt_or_ge k (chars s.enc s.bytes).length with h | h
    · rw [hl.1 (by omega) (by omega)]
      simp
    · have hke : k = (chars s.enc s.bytes).length := by omega
      rw [hl.2.2 (by omega)]
      simp only
      rw [charLength_eq hs he, if_pos (by rw [hke]), pos_all (by omega), pos_all (by omega), chars_flatten]
  have sv : ∀ e : Enc, s.enc = e → e.asciiCompat = true → s.codeRange iso = .sevenBit →
      ∀ j, pos (chars s.enc s.bytes) j = min (j * 1) s.bytes.length := by
    intro e hE ha hc j
    rw [hE, chars_ascii ha (hs.seven hc), pos_singles, Nat.mul_one]
  cases hE : s.enc <;> rw [← hE]
  case utf8 =>
    by_cases hc : s.codeRange iso = .sevenBit
    · exact fx 1 (by simp) (by simp [S.unit, hE, hc]) (sv _ hE rfl hc)
    · exact lp (by simp [S.unit, hE, hc])
  case eucJp => exact lp (by simp [S.unit, hE])
  case sjis => exact lp (by simp [S.unit, hE])
  case iso2022Jp => exact absurd hE he
  case utf16le => exact fx 2 (by simp) (by simp [S.unit, hE]) (fun j => pos_fixed (by omega) (by rw [hE]; exact fun _ _ => rfl) _ _)
  case utf16be => exact fx 2 (by simp) (by simp [S.unit, hE]) (fun j => pos_fixed (by omega) (by rw [hE]; exact fun _ _ => rfl) _ _)
  case utf32le => exact fx 4 (by simp) (by simp [S.unit, hE]) (fun j => pos_fixed (by omega) (by rw [hE]; exact fun _ _ => rfl) _ _)
  case utf32be => exact fx 4 (by simp) (by simp [S.unit, hE]) (fun j => pos_fixed (by omega) (by rw [hE]; exact fun _ _ => rfl) _ _)
  all_goals exact fx 1 (by simp) (by simp [S.unit, hE]) (fun j => pos_fixed (by omega) (by rw [hE]; exact fun _ _ => rfl) _ _)

end Verif.Str
