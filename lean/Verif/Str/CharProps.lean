import Verif.Str.Chars
import Verif.Str.CrProps

/-!
# Strings as sequences of characters

`s` below is any string of any program (`run`), except that the character count of ISO-2022-JP is not
modelled.
-/

namespace Verif.Str

/-! ## C118: length, indexing, reversal -/

/-- `chars` loses nothing: the characters joined are the string, and none is empty. -/
theorem C118_chars (e : Enc) (bs : List Nat) :
    (chars e bs).flatten = bs ∧ ∀ c ∈ chars e bs, c ≠ [] :=
  ⟨chars_flatten e bs, iter_ne _ _⟩

/-- The characters of valid text are the ones it was put together from; in UTF-8 the encoded scalar
values. -/
theorem C118_chars_utf8 (cs : List Nat) (h : ∀ c ∈ cs, c < 0xD800 ∨ (0xE000 ≤ c ∧ c < 0x110000)) :
    chars .utf8 (cs.map encode).flatten = cs.map encode := by
  refine chars_of (by simp) (fun c hc => ?_)
  obtain ⟨p, hp, rfl⟩ := List.mem_map.mp hc
  exact encode_one (by simpa [scalar] using h p hp)

example : chars .utf8 [0x61, 0xC3, 0xA9, 0xE3, 0x81] = [[0x61], [0xC3, 0xA9], [0xE3], [0x81]] := by
  decide +kernel

/-- `length` is the number of `chars`. -/
theorem C118_length (iso : List Nat → Bool) (ops : List Op) (k : Nat)
    (he : (run iso ops k).enc ≠ .iso2022Jp) :
    (run iso ops k).charLength iso =
      some (chars (run iso ops k).enc (run iso ops k).bytes).length :=
  charLength_eq (run_safe ops k) he

/-- the bytes of an answer -/
def Idx.bytes : Idx → Option (List Nat)
  | .nil => none
  | .str s => some s.bytes

/-- every String answered has this encoding -/
def Idx.hasEnc (e : Enc) : Idx → Prop
  | .nil => True
  | .str s => s.enc = e

theorem rangeLoop_zero {total index : Nat} : ∀ (cs : List (List Nat)) (i p : Nat),
    i ≤ index → total = p + cs.flatten.length →
    (index < i + cs.length →
      rangeLoop total index 0 i p none cs = (some (p + pos cs (index - i)), p + pos cs (index - i))) ∧
    (index = i + cs.length → rangeLoop total index 0 i p none cs = (none, total))
  | [], i, p, h1, h2 => by
    refine ⟨fun h => by simp at h; omega, fun h => by simp [rangeLoop]⟩
  | c :: cs, i, p, h1, h2 => by
    simp only [List.flatten_cons, List.length_append] at h2
    simp only [rangeLoop]
    by_cases heq : i = index
    · subst heq
      simp only [and_self, if_true, Nat.sub_self, pos_zero, Nat.add_zero]
      exact ⟨fun _ => trivial, fun h => by simp only [List.length_cons] at h; omega⟩
    · have ih := rangeLoop_zero (total := total) (index := index) cs (i + 1) (p + c.length) (by omega) (by omega)
      simp only [heq, false_and, if_false, Option.isSome_none, Bool.false_eq_true, List.length_cons]
      refine ⟨fun h => ?_, fun h => ih.2 (by omega)⟩
      rw [ih.1 (by omega)]
      obtain ⟨d, hd⟩ : ∃ d, index - i = d + 1 := ⟨index - i - 1, by omega⟩
      rw [hd, pos_succ, show index - (i + 1) = d by omega]
      simp only [Prod.mk.injEq, Option.some.injEq]
      omega

theorem getRange_zero {iso : List Nat → Bool} {s : S} (hs : Safe s) (he : s.enc ≠ .iso2022Jp) {k : Nat}
    (hk : k ≤ (chars s.enc s.bytes).length) (hw : k * 4 < 2 ^ 64) :
    ∃ p, getRange iso s k 0 = (p, p) ∧ p ≤ s.bytes.length := by
  unfold getRange
  cases hun : s.unit iso with
  | some u =>
    simp only [Nat.add_zero]
    rw [wrap_small (by omega : k < 2 ^ 64)]
    exact ⟨_, rfl, by omega⟩
  | none =>
    simp only
    have hl := rangeLoop_zero (total := s.bytes.length) (index := k) (chars s.enc s.bytes) 0 0 (by omega)
      (by rw [chars_flatten]; omega)
    rcases Nat.lt_or_ge k (chars s.enc s.bytes).length with h | h
    · rw [hl.1 (by omega)]
      refine ⟨_, rfl, ?_⟩
      have := pos_le (chars s.enc s.bytes) (k - 0)
      rw [chars_flatten] at this
      omega
    · rw [hl.2 (by omega)]
      simp only
      rw [charLength_eq hs he, if_pos (by congr 1; omega)]
      exact ⟨_, rfl, Nat.le_refl _⟩

theorem sub_chars {iso : List Nat → Bool} {s : S} (hs : Safe s) (he : s.enc ≠ .iso2022Jp) {k len : Nat}
    (hk : k ≤ (chars s.enc s.bytes).length) (hw : (k + len) * 4 < 2 ^ 64) :
    (substring iso s (getRange iso s k len).1 (getRange iso s k len).2).bytes =
      (((chars s.enc s.bytes).drop k).take len).flatten := by
  by_cases hl : len = 0
  · subst hl
    obtain ⟨p, hp, _⟩ := getRange_zero (iso := iso) hs he hk (by omega)
    rw [hp]
    simp [substring, slice]
  · rw [getRange_eq hs he hl hk hw]
    simp only [substring]
    have := slice_pos (chars s.enc s.bytes) k len
    rwa [chars_flatten] at this

theorem conv_spec (n : Nat) (i : Int) (k : Nat) :
    convCharIndex n i = some k ↔ (0 ≤ i ∧ i ≤ n ∧ (k : Int) = i) ∨ (i < 0 ∧ 0 ≤ n + i ∧ (k : Int) = n + i) := by
  unfold convCharIndex
  split_ifs <;> simp only [Option.some.injEq, reduceCtorEq, false_iff] <;> omega

/-- `s[i]` is the `i`-th character, counted from the end if negative, and nil outside. -/
theorem C118_index (iso : List Nat → Bool) (ops : List Op) (k : Nat) (s : S) (hrun : run iso ops k = s)
    (he : s.enc ≠ .iso2022Jp) (hlen : s.bytes.length < 2 ^ 61) (i : Int) :
    (index1 iso s i).bytes =
      (if 0 ≤ i then (chars s.enc s.bytes)[i.toNat]?
       else if 0 ≤ (chars s.enc s.bytes).length + i then
         (chars s.enc s.bytes)[((chars s.enc s.bytes).length + i).toNat]?
       else none) ∧
    (index1 iso s i).hasEnc s.enc := by
  have hs : Safe s := hrun ▸ run_safe ops k
  have hle : (chars s.enc s.bytes).length ≤ s.bytes.length := by
    have h2 := iter_ne (e := s.enc) s.bytes.length s.bytes
    have h3 : ∀ cs : List (List Nat), (∀ c ∈ cs, c ≠ []) → cs.length ≤ cs.flatten.length := by
      intro cs
      induction cs with
      | nil => simp
      | cons c cs ih =>
        intro h
        have := ih (fun d hd => h d (by simp [hd]))
        have hc : c.length ≠ 0 := by
          intro h0; exact h c (by simp) (List.length_eq_zero_iff.mp h0)
        simp only [List.length_cons, List.flatten_cons, List.length_append]
        omega
    have := h3 (chars s.enc s.bytes) h2
    rwa [chars_flatten] at this
  have key : ∀ j : Nat, j ≤ (chars s.enc s.bytes).length →
      (let r := getRange iso s j 1
       if r.1 < r.2 then Idx.str (substring iso s r.1 r.2) else Idx.nil).bytes =
        (chars s.enc s.bytes)[j]? := by
    intro j hj
    have hg := getRange_eq (iso := iso) hs he (len := 1) (by omega) hj (by omega)
    have hsub := sub_chars (iso := iso) hs he (len := 1) hj (by omega)
    simp only
    rcases Nat.lt_or_ge j (chars s.enc s.bytes).length with h | h
    · have hd : (chars s.enc s.bytes).drop j = (chars s.enc s.bytes)[j] :: (chars s.enc s.bytes).drop (j + 1) :=
        List.drop_eq_getElem_cons h
      have hne : (chars s.enc s.bytes)[j] ≠ [] := iter_ne _ _ _ (List.getElem_mem h)
      rw [if_pos]
      · rw [hd] at hsub
        simp only [Idx.bytes, hsub, List.getElem?_eq_getElem h]
        rw [show (1 : Nat) = 0 + 1 from rfl, List.take_succ_cons, List.take_zero, List.flatten_cons,
          List.flatten_nil, List.append_nil]
      · rw [hg]
        simp only
        rw [pos_add, hd]
        have : pos ((chars s.enc s.bytes)[j] :: (chars s.enc s.bytes).drop (j + 1)) 1 =
            (chars s.enc s.bytes)[j].length := by
          rw [show (1 : Nat) = 0 + 1 from rfl, pos_succ, pos_zero, Nat.add_zero]
        rw [this]
        have : (chars s.enc s.bytes)[j].length ≠ 0 := fun h0 => hne (List.length_eq_zero_iff.mp h0)
        omega
    · rw [if_neg (by rw [hg]; simp only; rw [pos_all (by omega), pos_all (by omega)]; omega)]
      rw [List.getElem?_eq_none (by omega)]
      rfl
  unfold index1
  rw [charLength_eq hs he, Option.getD_some]
  constructor
  · cases hc : convCharIndex (chars s.enc s.bytes).length i with
    | none =>
      have hn : ∀ j, ¬ convCharIndex (chars s.enc s.bytes).length i = some j := by
        intro j; rw [hc]; simp
      simp only [Idx.bytes]
      split_ifs with h1 h2
      · have := hn i.toNat
        rw [conv_spec] at this
        rw [List.getElem?_eq_none (by omega)]
      · exfalso
        have := hn (((chars s.enc s.bytes).length : Int) + i).toNat
        rw [conv_spec] at this
        omega
      · rfl
    | some j =>
      have := (conv_spec _ _ _).mp hc
      simp only
      rw [key j (by omega)]
      rcases this with h | h
      · rw [if_pos h.1]; congr 1; omega
      · rw [if_neg (by omega), if_pos h.2.1]; congr 1; omega
  · cases convCharIndex (chars s.enc s.bytes).length i with
    | none => trivial
    | some j =>
      simp only
      split_ifs
      · rfl
      · trivial

/-- `s[i, len]` is `len` characters from the `i`-th, or fewer at the end; nil outside.  Partial: the
sum of position and length must stay below 2⁶² (see `C118_slice_wraps_fails`), and a zero length is
left to `C118_empty_slice_fails`. -/
theorem C118_slice_partial (iso : List Nat → Bool) (ops : List Op) (k : Nat) (s : S)
    (hrun : run iso ops k = s) (he : s.enc ≠ .iso2022Jp) (i len : Int) (hl : 0 < len)
    (hw : (chars s.enc s.bytes).length + len < 2 ^ 62) :
    (index2 iso s i len).bytes =
      (if 0 ≤ i ∧ i ≤ (chars s.enc s.bytes).length then
         some (((chars s.enc s.bytes).drop i.toNat).take len.toNat).flatten
       else if i < 0 ∧ 0 ≤ (chars s.enc s.bytes).length + i then
         some (((chars s.enc s.bytes).drop ((chars s.enc s.bytes).length + i).toNat).take len.toNat).flatten
       else none) ∧
    (index2 iso s i len).hasEnc s.enc := by
  have hs : Safe s := hrun ▸ run_safe ops k
  unfold index2
  rw [charLength_eq hs he, Option.getD_some]
  cases hc : convCharIndex (chars s.enc s.bytes).length i with
  | none =>
    have hn : ∀ j, ¬ convCharIndex (chars s.enc s.bytes).length i = some j := by
      intro j; rw [hc]; simp
    refine ⟨?_, trivial⟩
    simp only [Idx.bytes]
    split_ifs with h1 h2
    · have := hn i.toNat
      rw [conv_spec] at this
      omega
    · have := hn (((chars s.enc s.bytes).length : Int) + i).toNat
      rw [conv_spec] at this
      omega
    · rfl
  | some j =>
    have hj := (conv_spec _ _ _).mp hc
    simp only
    rw [if_neg (by omega), if_neg (by omega)]
    refine ⟨?_, rfl⟩
    simp only [Idx.bytes]
    rw [sub_chars hs he (by omega) (by omega)]
    rcases hj with h | h
    · rw [if_pos ⟨h.1, h.2.1⟩, show i.toNat = j by omega]
    · rw [if_neg (by omega), if_pos ⟨h.1, h.2.1⟩, show (((chars s.enc s.bytes).length : Int) + i).toNat = j by omega]

/-- `s[b..e]`, `s[b...e]`, `s[b..]`, `s[..e]`: the characters of the range with negative ends counted
from the end; nil if the beginning is outside.  Partial: as above for ends near 2⁶². -/
theorem C118_range_partial (iso : List Nat → Bool) (ops : List Op) (k : Nat) (s : S)
    (hrun : run iso ops k = s) (he : s.enc ≠ .iso2022Jp) (b e : Option Int) (excl : Bool)
    (hw : (chars s.enc s.bytes).length < 2 ^ 60) (hw2 : ∀ x, e = some x → x < 2 ^ 60) :
    let cs := chars s.enc s.bytes
    let n : Int := cs.length
    let norm := fun x : Int => if x < 0 then x + n else x
    let lo := norm (b.getD 0)
    let hi := match e with | none => n | some x => if excl then norm x else norm x + 1
    (indexRange iso s b e excl).bytes =
      (if 0 ≤ lo ∧ lo ≤ n then some ((cs.drop lo.toNat).take (hi - lo).toNat).flatten else none) ∧
    (indexRange iso s b e excl).hasEnc s.enc := by
  have hs : Safe s := hrun ▸ run_safe ops k
  simp only
  unfold indexRange
  rw [charLength_eq hs he, Option.getD_some]
  simp only
  generalize hlo : (if b.getD 0 < 0 then b.getD 0 + ((chars s.enc s.bytes).length : Int) else b.getD 0) = lo
  by_cases hr : lo < 0 ∨ ((chars s.enc s.bytes).length : Int) < lo
  · rw [if_pos hr, if_neg (by omega)]
    exact ⟨rfl, trivial⟩
  · rw [if_neg hr, if_pos (by omega)]
    refine ⟨?_, rfl⟩
    simp only [Idx.bytes, Option.some.injEq]
    rw [sub_chars hs he (by omega) ?_]
    · cases e <;> rfl
    · cases e with
      | none => simp only; omega
      | some x =>
        have := hw2 x rfl
        simp only
        split_ifs <;> omega

example : (index1 T (run T sample 4) (-1)).bytes = some [0xC3, 0xA9] ∧
    (index2 T (run T sample 4) 2 5).bytes = some [0x61, 0xC3, 0xA9] ∧
    (indexRange T (run T sample 4) (some (-3)) (some (-2)) false).bytes = some [0x61, 0x61] ∧
    (index1 T (run T sample 4) 4).bytes = none := by decide +kernel

/-- `s[i, 0]` is the empty string, but always in UTF-8, whatever the encoding of `s`. -/
theorem C118_empty_slice_fails :
    index2 T ⟨[0x61, 0, 0x62, 0], .utf16le, .unknown⟩ 1 0 = .str ⟨[], .utf8, .unknown⟩ ∧
    index2 T ⟨[0x61, 0, 0x62, 0], .utf16le, .unknown⟩ 1 1 = .str ⟨[0x62, 0], .utf16le, .valid⟩ := by
  decide +kernel

/-- `"ab".encode("UTF-32LE")[1, 2**62 - 1]`: the end of the range wraps to zero, before its start;
the bytes are then taken from 4 up to 0 (a panic, or a view of memory outside the string). -/
theorem C118_slice_wraps_fails :
    getRange T ⟨[0x61, 0, 0, 0, 0x62, 0, 0, 0], .utf32le, .unknown⟩ 1 (2 ^ 62 - 1) = (4, 0) := by
  decide +kernel

/-- A UTF-16 string counts units, not characters: one character outside the basic plane has
length 2, and half of it answers true to `valid_encoding?`. -/
theorem C118_surrogates_fails :
    (S.charLength T ⟨[0x3D, 0xD8, 0x00, 0xDE], .utf16le, .unknown⟩) = some 2 ∧
    index1 T ⟨[0x3D, 0xD8, 0x00, 0xDE], .utf16le, .unknown⟩ 0 = .str ⟨[0x3D, 0xD8], .utf16le, .valid⟩ := by
  decide +kernel

theorem reverse_bytes {iso : List Nat → Bool} {s : S} (hs : Safe s)
    (h : s.codeRange iso = .sevenBit → s.bytes = [] ∨ s.enc.asciiCompat = true) :
    (reverseS iso s).bytes = (chars s.enc s.bytes).reverse.flatten := by
  have single : ∀ l : List Nat, (l.map (fun b => [b])).reverse.flatten = l.reverse := by
    intro l
    rw [← List.map_reverse]
    induction l.reverse with
    | nil => rfl
    | cons b t ih => simp [ih]
  unfold reverseS
  simp only
  split_ifs with hc
  · rcases hc with hc | hc
    · rcases h hc with h0 | h0
      · simp [h0, chars, iter]
      · rw [chars_ascii h0 (hs.seven hc), single]
    · have fx : fixed s.enc 1 := by
        intro b t
        cases hE : s.enc <;> rw [hE] at hc <;> simp [Enc.byteRev] at hc <;> rfl
      have : ∀ n (l : List Nat), l.length ≤ n → chars s.enc l = l.map (fun b => [b]) := by
        intro n
        induction n with
        | zero =>
          intro l hl
          have : l = [] := List.length_eq_zero_iff.mp (by omega)
          subst this; rfl
        | succ n ih =>
          intro l hl
          cases l with
          | nil => rfl
          | cons b t =>
            rw [chars_cons (by simp), fx]
            simp only [List.take_succ_cons, List.take_zero, List.drop_succ_cons, List.drop_zero, List.map_cons]
            rw [ih t (by simp only [List.length_cons] at hl; omega)]
      rw [this _ _ (Nat.le_refl _), single]
  · rfl

/-- `reverse` puts the characters in reverse order, for every string of a `fine` program; if it is
valid, its reverse is made of the same characters, and reversing twice gives it back. -/
theorem C118_reverse (iso : List Nat → Bool) (ops : List Op)
    (hf : fineFrom iso (fun _ => ⟨[], .utf8, .sevenBit⟩) ops) (k : Nat) (s : S) (hrun : run iso ops k = s) :
    (reverseS iso s).bytes = (chars s.enc s.bytes).reverse.flatten ∧ (reverseS iso s).enc = s.enc ∧
    (s.enc ≠ .iso2022Jp → Valid iso s.enc s.bytes →
      chars s.enc (reverseS iso s).bytes = (chars s.enc s.bytes).reverse ∧
      (reverseS iso (reverseS iso s)).bytes = s.bytes) := by
  have hs : Safe s := hrun ▸ run_safe ops k
  have hS : Sound iso s := hrun ▸ run_sound hf k
  have sv : ∀ t : S, Sound iso t → t.codeRange iso = .sevenBit → t.bytes = [] ∨ t.enc.asciiCompat = true := by
    intro t ht hc
    rcases classify_seven.mp (ht.seven hc) with h | h
    exacts [Or.inl h, Or.inr h.1]
  have henc : (reverseS iso s).enc = s.enc := by
    unfold reverseS; simp only; split_ifs <;> rfl
  have h1 := reverse_bytes hs (sv s hS)
  refine ⟨h1, henc, fun he hv => ?_⟩
  have hw := (classify_broken he).mp ((classify_valid iso s.enc s.bytes).mpr hv)
  have h2 : chars s.enc (reverseS iso s).bytes = (chars s.enc s.bytes).reverse := by
    rw [h1]
    exact chars_of he (fun c hc => chars_wf he hw c (by simpa using hc))
  refine ⟨h2, ?_⟩
  have hb : s.codeRange iso ≠ .broken := fun h =>
    (classify_valid iso s.enc s.bytes).mpr hv (hS.broken h)
  rw [reverse_bytes (reverse_safe hs) (sv _ (reverse_sound hS he hb)), henc, h2, List.reverse_reverse,
    chars_flatten]

example : (reverseS T (run T sample 4)).bytes = [0xC3, 0xA9, 0x61, 0x61, 0x61] := by decide +kernel

end Verif.Str
