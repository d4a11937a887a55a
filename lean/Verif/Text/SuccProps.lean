import Verif.Text.SuccLemmas

/-!
# C128, C129: `String#succ` and ranges of strings

`cat` is the Unicode category of a character; the theorems ask only that it be right on ASCII.
`s` is the characters of a string.
-/

namespace Verif.Text

/-! ## C128: `String#succ` -/

/-- C128: on letters and digits `succ` is an odometer.  Either the last character that is not the
last of its kind goes up by one, everything before it stays and everything after it wraps to the
first of its kind; or every character was the last of its kind, all wrap, and `1`, `A` or `a`
(by the kind of the first) goes in front. -/
theorem C128_odometer {cat : Nat → Cat} (h : ∀ c < 128, cat c = asciiCat c) (s : List Nat)
    (hs : ∀ c ∈ s, Alnum c) (hne : s ≠ []) :
    (∃ p c q, s = p ++ c :: q ∧ c ≠ hi c ∧ (∀ x ∈ q, x = hi x) ∧
      strNext cat s = some (p ++ (c + 1) :: q.map lo)) ∨
    ((∀ x ∈ s, x = hi x) ∧ strNext cat s = some (lead (s.headD 0) :: s.map lo)) :=
  strNext_odometer h s hs hne

-- "Zz9".succ = "AAa0", "az9".succ = "ba0"
example : strNext asciiCat [90, 122, 57] = some [65, 65, 97, 48] := by decide +kernel
example : strNext asciiCat [97, 122, 57] = some [98, 97, 48] := by decide +kernel

/-- C128: on a string of decimal digits `succ` adds one, in the same width unless every digit
was `9`. -/
theorem C128_decimal {cat : Nat → Cat} (h : ∀ c < 128, cat c = asciiCat c) (s : List Nat)
    (hs : ∀ c ∈ s, Digit c) (hne : s ≠ []) :
    ∃ r, strNext cat s = some r ∧ (∀ c ∈ r, Digit c) ∧ numVal r = numVal s + 1 ∧
      r.length = s.length + (if numVal s + 1 = 10 ^ s.length then 1 else 0) :=
  strNext_digits h s hs hne

example : strNext asciiCat [48, 57, 57] = some [49, 48, 48] ∧ numVal [48, 57, 57] = 99 := by
  decide +kernel

/-- C128: `succ` of letters and digits is letters and digits, and is longer, or of the same length
and later in the order of strings: repeating `succ` never comes back. -/
theorem C128_increases {cat : Nat → Cat} (h : ∀ c < 128, cat c = asciiCat c) (s : List Nat)
    (hs : ∀ c ∈ s, Alnum c) (hne : s ≠ []) :
    ∃ r, strNext cat s = some r ∧ r ≠ [] ∧ (∀ c ∈ r, Alnum c) ∧
      (s.length < r.length ∨ (s.length = r.length ∧ strCmp s r = .lt)) := by
  obtain ⟨r, hr, ha, hn⟩ := strNext_closed h s hs hne
  exact ⟨r, hr, hn, ha, strNext_before h s r hs hne hr⟩

/-- the trailing characters that are neither letters nor digits are passed over -/
theorem succLoop_other (cat : Nat → Cat) (p : List Nat) (hp : ∀ c ∈ p, cat c = .other)
    (buf : List Nat) (pad : Bool) :
    succLoop cat { buf := buf, pad := pad } p =
      some { buf := buf ++ p, pad := pad || !p.isEmpty } := by
  induction p generalizing buf pad with
  | nil => simp [succLoop]
  | cons c t ih =>
    rw [succLoop]
    have : succStep cat { buf := buf, pad := pad } c = some { buf := buf ++ [c], pad := true } := by
      unfold succStep
      simp [hp c List.mem_cons_self]
    rw [this, Option.bind_some, ih (fun x hx => hp x (List.mem_cons_of_mem _ hx))]
    simp

theorem succLoop_append (cat : Nat → Cat) (a b : List Nat) (st : SuccSt) :
    succLoop cat st (a ++ b) = (succLoop cat st a).bind fun st => succLoop cat st b := by
  induction a generalizing st with
  | nil => simp [succLoop]
  | cons c t ih =>
    simp only [List.cons_append, succLoop]
    cases succStep cat st c with
    | none => rfl
    | some st' => simp [ih]

/-- C128, part: characters after the last letter or digit that are neither stay where they are,
when all before them are letters and digits.

Missing: a string with other characters also inside, where it is false: see the next theorem. -/
theorem C128_suffix_partial {cat : Nat → Cat} (h : ∀ c < 128, cat c = asciiCat c) (s p : List Nat)
    (hs : ∀ c ∈ s, Alnum c) (hne : s ≠ []) (hp : ∀ c ∈ p, cat c = .other) :
    strNext cat (s ++ p) = (strNext cat s).map (· ++ p) := by
  rw [strNext_alnum h s hs hne]
  unfold strNext
  rw [if_neg (by simp [hne])]
  have hnot : ¬((s ++ p).all fun c => cat c = .other) = true := by
    cases s with
    | nil => exact absurd rfl hne
    | cons c t =>
      simp only [List.cons_append, List.all_cons, Bool.and_eq_true, decide_eq_true_eq]
      intro hx
      exact cat_alnum h (hs c List.mem_cons_self) hx.1
  rw [if_neg hnot, List.reverse_append, succLoop_append,
    succLoop_other cat p.reverse (fun c hc => hp c (by simpa using hc)), Option.bind_some]
  have := succFinish_alnum h s.reverse (fun c hc => hs c (by simpa using hc)) (by simpa using hne)
    { buf := [] ++ p.reverse, pad := false || !p.reverse.isEmpty } rfl rfl (by simp)
  rw [this]
  have hd : s.reverse.getLastD 0 = s.headD 0 := by
    cases s with
    | nil => rfl
    | cons c t => simp
  rw [hd]
  simp only [Option.map_some, Option.some.injEq]
  split_ifs <;> simp

-- "<<koala>>".succ keeps ">>": here "az>>" gives "ba>>"
example : strNext asciiCat [97, 122, 62, 62] = some [98, 97, 62, 62] := by decide +kernel

/-- C128 fails in general: a trailing character that is neither letter nor digit changes what
happens before it: `"a-9".succ` is `"a-10"`, and `"a-9>".succ` is `"b-0>"`. -/
theorem C128_suffix_fails :
    strNext asciiCat [97, 45, 57] = some [97, 45, 49, 48] ∧
    strNext asciiCat [97, 45, 57, 62] = some [98, 45, 48, 62] := by decide +kernel

/-- C128: with no letter and no digit the last character goes to the next code point. -/
theorem C128_no_alnum (cat : Nat → Cat) (p : List Nat) (c : Nat) (h : ∀ x ∈ p ++ [c], cat x = .other)
    (hc : isScalar (c + 1)) : strNext cat (p ++ [c]) = some (p ++ [c + 1]) := by
  unfold strNext
  rw [if_neg (by simp), if_pos (by rw [List.all_eq_true]; intro x hx; simpa using h x hx)]
  simp [chSucc, hc]

-- "**".succ = "*+"
example : strNext asciiCat [42, 42] = some [42, 43] := by decide +kernel

/-- C128 fails at the ends of the two ranges of code points: `succ` of a string that ends in the
last code point, or in the one before the surrogates, is a panic of the interpreter. -/
theorem C128_last_code_point_fails (cat : Nat → Cat) (h1 : cat 0x10FFFF = .other)
    (h2 : cat 0xD7FF = .other) (p : List Nat) (hp : ∀ x ∈ p, cat x = .other) :
    strNext cat (p ++ [0x10FFFF]) = none ∧ strNext cat (p ++ [0xD7FF]) = none := by
  constructor
  · unfold strNext
    rw [if_neg (by simp), if_pos (by simp [h1]; exact hp)]
    simp [chSucc, isScalar]
  · unfold strNext
    rw [if_neg (by simp), if_pos (by simp [h2]; exact hp)]
    simp [chSucc, isScalar]

/-- the number whose base 256 digits are the bytes -/
def byteVal (s : List Nat) : Nat := s.foldl (fun acc b => 256 * acc + b) 0

theorem byteVal_snoc (s : List Nat) (b : Nat) : byteVal (s ++ [b]) = 256 * byteVal s + b := by
  simp [byteVal, List.foldl_append]

theorem byteSuccLoop_val (l : List Nat) (h : ∀ b ∈ l, b < 256) :
    byteVal (byteSuccLoop l).reverse = byteVal l.reverse + 1 ∧
      (∀ b ∈ byteSuccLoop l, b < 256) ∧
      (byteSuccLoop l).length = l.length + (if ∀ b ∈ l, b = 255 then 1 else 0) := by
  induction l with
  | nil => simp [byteSuccLoop, byteVal]
  | cons b t ih =>
    obtain ⟨h1, h2, h3⟩ := ih fun x hx => h x (List.mem_cons_of_mem _ hx)
    have hb := h b List.mem_cons_self
    rw [byteSuccLoop]
    by_cases hb' : b = 255
    · rw [if_pos hb']
      subst hb'
      refine ⟨?_, ?_, ?_⟩
      · rw [List.reverse_cons, List.reverse_cons, byteVal_snoc, byteVal_snoc, h1]; omega
      · intro x hx
        rcases List.mem_cons.1 hx with rfl | hx
        · omega
        · exact h2 x hx
      · simp only [List.length_cons, h3, List.forall_mem_cons, true_and]
        omega
    · rw [if_neg hb']
      refine ⟨?_, ?_, ?_⟩
      · rw [List.reverse_cons, List.reverse_cons, byteVal_snoc, byteVal_snoc]; omega
      · intro x hx
        rcases List.mem_cons.1 hx with rfl | hx
        · omega
        · exact h x (List.mem_cons_of_mem _ hx)
      · simp [hb']

/-- C128: on a byte string without ASCII letters and digits `succ` adds one to the number its
bytes write in base 256, in the same width unless every byte was 255. -/
theorem C128_bytes (s : List Nat) (h : ∀ b ∈ s, b < 256) :
    byteVal (byteSucc s) = byteVal s + 1 ∧ (∀ b ∈ byteSucc s, b < 256) ∧
      (byteSucc s).length = s.length + (if ∀ b ∈ s, b = 255 then 1 else 0) := by
  obtain ⟨h1, h2, h3⟩ := byteSuccLoop_val s.reverse fun b hb => h b (by simpa using hb)
  unfold byteSucc
  refine ⟨by simpa using h1, fun b hb => h2 b (by simpa using hb), ?_⟩
  simpa using h3

example : byteSucc [1, 255, 255] = [2, 0, 0] ∧ byteSucc [255, 255] = [1, 0, 0] := by decide

/-! ## C129: ranges of strings -/

/-- single characters of the same kind: the run of codes is the run of `succ` -/
theorem charRun_of_chain {cat : Nat → Cat} (h : ∀ c < 128, cat c = asciiCat c)
    (l : List (List Nat)) : ∀ x y, Chain (strNext cat) ([x] :: l) →
      ([x] :: l).getLast? = some [y] → Alnum x → x ≤ y ∧ [x] :: l = charRun x y := by
  induction l with
  | nil =>
    intro x y _ hl _
    simp only [List.getLast?_singleton, Option.some.injEq, List.cons.injEq, and_true] at hl
    subst hl
    refine ⟨Nat.le_refl _, ?_⟩
    rw [charRun_succ _ _ (Nat.le_refl _)]
    simp [charRun]
  | cons z l ih =>
    intro x y hc hl hx
    have hx' : ∀ c ∈ [x], Alnum c := by simpa using hx
    obtain ⟨hk1, hk2⟩ := chain_key h (z :: l) [x] hc hx' (by simp)
    cases hc with
    | step _ _ _ es hc =>
      rcases strNext_odometer h [x] hx' (by simp) with ⟨p, c, q, e, hne, _, hr⟩ | ⟨hall, hr⟩
      · have hp : p = [] := by
          cases p with
          | nil => rfl
          | cons a p => simp at e
        subst hp
        simp only [List.nil_append, List.cons.injEq] at e
        obtain ⟨rfl, hq⟩ := e
        subst hq
        rw [hr] at es
        simp only [List.nil_append, List.map_nil, Option.some.injEq] at es
        subst es
        rw [List.getLast?_cons_cons] at hl
        obtain ⟨h1, h2⟩ := ih (x + 1) y hc hl (alnum_succ hx hne)
        refine ⟨by omega, ?_⟩
        rw [charRun_succ x y (by omega), h2]
      · rw [hr] at es
        simp only [List.headD_cons, List.map_cons, List.map_nil, Option.some.injEq] at es
        subst es
        have hmem : [y] ∈ [lead x, lo x] :: l := by
          rw [List.getLast?_cons_cons] at hl
          exact List.mem_of_getLast? hl
        exfalso
        rcases List.mem_cons.1 hmem with e | hm
        · simp at e
        · have hz := hk1 [lead x, lo x] (by simp)
          have := (chain_key h l _ hc hz.1 hz.2).2 [y] hm
          have hy := (hk1 [y] (by simp [hm])).1
          have hb := key_before (s := [y]) (t := [lead x, lo x]) (alnum128 hy) (alnum128 hz.1)
            (Or.inl (by simp))
          omega

theorem charRun_dropLast (x y : Nat) (h : x ≤ y) :
    (charRun x y).dropLast = if y = 0 then [] else charRun x (y - 1) := by
  unfold charRun
  rw [List.dropLast_eq_take, ← List.map_take, List.take_range]
  simp only [List.length_map, List.length_range]
  by_cases hy : y = 0
  · subst hy
    have : x = 0 := by omega
    subst this; simp
  · rw [if_neg hy]
    congr 2
    omega

/-- C129: when repeating `succ` from the begin reaches the end, and the begin does not sort after
the end, `each` of an inclusive range yields exactly the strings on the way, both ends included, and
`each` of an exclusive range all of them but the last. -/
theorem C129_each {cat : Nat → Cat} (h : ∀ c < 128, cat c = asciiCat c) (excl : Bool)
    (b e : List Nat) (l : List (List Nat)) (hc : Chain (strNext cat) (b :: l))
    (hl : (b :: l).getLast? = some e) (hb : ∀ c ∈ b, Alnum c) (hne : b ≠ [])
    (hle : strCmp b e ≠ .gt) (fuel : Nat) (hf : l.length < fuel) :
    rangeEach (strNext cat) excl fuel b e =
      .done (if excl then (b :: l).dropLast else b :: l) := by
  have hkey := chain_key h l b hc hb hne
  have hwalk : (if strCmp b e = .gt ∨ (excl ∧ strCmp b e = .eq) then Walk.done []
      else eachLoop (strNext cat) excl e fuel b) =
      .done (if excl then (b :: l).dropLast else b :: l) := by
    by_cases hx : strCmp b e = .gt ∨ (excl ∧ strCmp b e = .eq)
    · rw [if_pos hx]
      rcases hx with hx | ⟨hx, he⟩
      · exact absurd hx hle
      · have := strCmp_eq he
        subst this
        cases l with
        | nil => simp [hx]
        | cons z l =>
          rw [List.getLast?_cons_cons] at hl
          have := hkey.2 b (List.mem_of_getLast? hl)
          omega
    · rw [if_neg hx]
      exact eachLoop_chain h excl e l b fuel hc hl hb hne hf
  unfold rangeEach
  simp only
  split
  · rename_i x y
    by_cases h1 : x < 128 ∧ y < 128
    · rw [if_pos h1]
      obtain ⟨hxy, hrun⟩ := charRun_of_chain h l x y hc hl (hb x (by simp))
      rw [hrun, charRun_dropLast x y hxy]
    · rw [if_neg h1]
      exact hwalk
  · exact hwalk

-- ("y".."ab").each in the middle of a range that changes length: ("az".."bb") gives az ba bb
example : rangeEach (strNext asciiCat) false 10 [97, 122] [98, 98] =
    .done [[97, 122], [98, 97], [98, 98]] := by decide +kernel

/-- C129: `each` on a range of strings that begins with letters and digits always comes to an end,
whatever the end of the range is, and yields only strings that come before the end (or are the end,
if it is included), each the `succ` of the one before, starting with the begin. -/
theorem C129_each_ends {cat : Nat → Cat} (h : ∀ c < 128, cat c = asciiCat c) (excl : Bool)
    (b e : List Nat) (hb : ∀ c ∈ b, Alnum c) (hne : b ≠ []) (hlen : ¬(b.length = 1 ∧ e.length = 1)) :
    ∃ fuel l, rangeEach (strNext cat) excl fuel b e = .done l ∧
      (∀ y ∈ l, (y.length < e.length ∨ (y.length = e.length ∧ strCmp y e = .lt)) ∨
        (excl = false ∧ y = e)) ∧
      (l = [] ∨ (Chain (strNext cat) l ∧ l.head? = some b)) := by
  refine ⟨129 ^ e.length + 1, ?_⟩
  obtain ⟨l, e1, e2, e3⟩ := eachLoop_ends h excl e (129 ^ e.length + 1) b hb hne
    (by have : 0 < key b := by
          cases b with
          | nil => exact absurd rfl hne
          | cons c t => rw [key]; exact Nat.add_pos_left (Nat.mul_pos (by omega) (Nat.pow_pos (by omega))) _
        omega) (Nat.succ_pos _)
  have hwalk : ∃ l', (if strCmp b e = .gt ∨ (excl ∧ strCmp b e = .eq) then Walk.done []
      else eachLoop (strNext cat) excl e (129 ^ e.length + 1) b) = .done l' ∧
      (∀ y ∈ l', Within excl e y) ∧ (l' = [] ∨ (Chain (strNext cat) l' ∧ l'.head? = some b)) := by
    split_ifs
    · exact ⟨[], rfl, by simp, Or.inl rfl⟩
    · exact ⟨l, e1, e2, e3⟩
  obtain ⟨l', w1, w2, w3⟩ := hwalk
  refine ⟨l', ?_, w2, w3⟩
  unfold rangeEach
  simp only
  split
  · exact absurd ⟨rfl, rfl⟩ hlen
  · exact w1

/-- C129: nothing when the begin sorts after the end, whatever the strings (the case of two single
characters included). -/
theorem C129_empty (succ : List Nat → Option (List Nat)) (excl : Bool) (fuel : Nat) (b e : List Nat)
    (h : strCmp b e = .gt) : rangeEach succ excl fuel b e = .done [] := by
  unfold rangeEach
  simp only [h, true_or, if_true]
  split
  · rename_i x y
    rw [strCmp] at h
    split_ifs at h with h1 h2
    · have e1 : charRun x y = [] := by
        unfold charRun; rw [show y + 1 - x = 0 by omega]; rfl
      have e2 : charRun x (y - 1) = [] := by
        unfold charRun; rw [show y - 1 + 1 - x = 0 by omega]; rfl
      split_ifs <;> simp [e1, e2]
    · simp [strCmp] at h
  · rfl

/-- C129, part: `String#upto` and `Range#each` yield the same strings when begin and end have the
same length, are letters and digits not all digits, and the end is reached by `succ`.

Missing: ends of different lengths, where it is false: see the next theorems. -/
theorem C129_upto_each_partial {cat : Nat → Cat} (h : ∀ c < 128, cat c = asciiCat c) (excl : Bool)
    (b e : List Nat) (l : List (List Nat)) (hc : Chain (strNext cat) (b :: l))
    (hl : (b :: l).getLast? = some e) (hb : ∀ c ∈ b, Alnum c) (hne : b ≠ [])
    (hlen : ∀ y ∈ b :: l, y.length = e.length) (hd : ¬(allDigits b = true ∧ allDigits e = true))
    (fuel : Nat) (hf : l.length + 1 < fuel) :
    upto (strNext cat) excl fuel b e = rangeEach (strNext cat) excl fuel b e := by
  have hle : strCmp b e ≠ .gt := by
    have hkey := chain_key h l b hc hb hne
    cases l with
    | nil =>
      simp only [List.getLast?_singleton, Option.some.injEq] at hl
      subst hl; rw [strCmp_refl]; simp
    | cons z l =>
      rw [List.getLast?_cons_cons] at hl
      have hm := List.mem_of_getLast? hl
      have he := (hkey.1 e (List.mem_cons_of_mem _ hm)).1
      rcases before_of_key (alnum128 hb) (alnum128 he) (hkey.2 e hm) with hh | ⟨_, hh⟩
      · have := hlen b (by simp); omega
      · rw [hh]; simp
  have h1 := C129_each h excl b e l hc hl hb hne hle fuel (by omega)
  have h2 := uptoLoop_chain h excl e l b fuel hc hl hb hne hf hlen
  unfold upto
  rw [if_neg hd]
  split
  · rename_i x y
    by_cases hxy : x < 128 ∧ y < 128
    · rw [if_pos hxy, rangeEach]
      rw [if_pos hxy]
    · rw [if_neg hxy, h1, h2]
  · rw [h1, h2]

example : upto (strNext asciiCat) false 10 [97, 57] [98, 49] = .done [[97, 57], [98, 48], [98, 49]] ∧
    rangeEach (strNext asciiCat) false 10 [97, 57] [98, 49] = .done [[97, 57], [98, 48], [98, 49]] := by
  decide +kernel

theorem digitRun_eq (w a n : Nat) :
    digitRun w a (a + n) = (List.range (n + 1)).map fun k => padded w (a + k) := by
  unfold digitRun padded
  rw [show a + n + 1 - a = n + 1 by omega]

theorem chain_padded {cat : Nat → Cat} (h : ∀ c < 128, cat c = asciiCat c) (w : Nat) (hw : 0 < w)
    (n : Nat) : ∀ a, a + n < 10 ^ w →
      Chain (strNext cat) ((List.range (n + 1)).map fun k => padded w (a + k)) := by
  induction n with
  | zero => intro a _; exact Chain.one _
  | succ n ih =>
    intro a ha
    have := ih (a + 1) (by omega)
    rw [List.range_succ_eq_map, List.map_cons, List.map_map]
    have e1 : (List.range (n + 1)).map ((fun k => padded w (a + k)) ∘ Nat.succ) =
        (List.range (n + 1)).map fun k => padded w (a + 1 + k) := by
      apply List.map_congr_left
      intro k _
      simp only [Function.comp]
      congr 1
      omega
    rw [e1]
    rw [List.range_succ_eq_map, List.map_cons, List.map_map] at this ⊢
    exact Chain.step _ _ _ (padded_next h w a hw (by omega)) this

/-- C129: on strings of digits of the same width both walk the numbers between, written in that
width. -/
theorem C129_digits {cat : Nat → Cat} (h : ∀ c < 128, cat c = asciiCat c) (b e : List Nat)
    (hb : ∀ c ∈ b, Digit c) (he : ∀ c ∈ e, Digit c) (hne : b ≠ []) (hl : b.length = e.length)
    (hle : numVal b ≤ numVal e) :
    ∃ l : List (List Nat), l.map numVal = (List.range (numVal e + 1 - numVal b)).map (numVal b + ·) ∧
      (∀ x ∈ l, x.length = b.length ∧ ∀ c ∈ x, Digit c) ∧
      (∀ fuel, upto (strNext cat) false fuel b e = .done l) ∧
      ∀ fuel, numVal e - numVal b < fuel → rangeEach (strNext cat) false fuel b e = .done l := by
  obtain ⟨n, hn⟩ : ∃ n, numVal e = numVal b + n := ⟨numVal e - numVal b, by omega⟩
  have hw : 0 < b.length := List.length_pos_iff.2 hne
  have hlt : numVal b + n < 10 ^ b.length := by
    rw [← hn, hl]; exact numVal_lt e he
  have hene : e ≠ [] := by
    intro h0; subst h0; simp at hl; exact hne hl
  have hd : allDigits b = true ∧ allDigits e = true := by
    constructor
    · cases b with
      | nil => exact absurd rfl hne
      | cons x t =>
        simp only [allDigits, List.isEmpty_cons, Bool.not_false, Bool.true_and, List.all_eq_true]
        intro c hc; have := hb c hc; unfold Digit at this; simp [this.1, this.2]
    · cases e with
      | nil => exact absurd rfl hene
      | cons x t =>
        simp only [allDigits, List.isEmpty_cons, Bool.not_false, Bool.true_and, List.all_eq_true]
        intro c hc; have := he c hc; unfold Digit at this; simp [this.1, this.2]
  refine ⟨digitRun b.length (numVal b) (numVal e), ?_, ?_, ?_, ?_⟩
  · rw [hn, digitRun_eq, List.map_map, show numVal b + n + 1 - numVal b = n + 1 by omega]
    apply List.map_congr_left
    intro k _
    simp [Function.comp, numVal_padded]
  · rw [hn, digitRun_eq]
    intro x hx
    obtain ⟨k, hk, rfl⟩ := List.mem_map.1 hx
    rw [List.mem_range] at hk
    exact ⟨padded_length _ _ hw (by omega), digit_padded _ _⟩
  · intro fuel
    unfold upto
    rw [if_pos hd]
    simp
  · intro fuel hf
    rw [hn, digitRun_eq]
    have hch := chain_padded h b.length hw n (numVal b) hlt
    have hb0 : padded b.length (numVal b) = b :=
      numVal_inj (digit_padded _ _) hb (padded_length _ _ hw (by omega)) (numVal_padded _ _)
    have hen : padded b.length (numVal b + n) = e :=
      numVal_inj (digit_padded _ _) he ((padded_length _ _ hw hlt).trans hl)
        ((numVal_padded _ _).trans hn.symm)
    have hlast : ((List.range (n + 1)).map fun k => padded b.length (numVal b + k)).getLast? = some e := by
      rw [List.range_succ, List.map_append]
      simp [hen]
    have hform : ∃ l, (List.range (n + 1)).map (fun k => padded b.length (numVal b + k)) = b :: l ∧
        l.length = n := by
      refine ⟨(List.range n).map fun k => padded b.length (numVal b + (k + 1)), ?_, by simp⟩
      rw [List.range_succ_eq_map, List.map_cons, List.map_map, Nat.add_zero, hb0]
      rfl
    obtain ⟨l, hform, hll⟩ := hform
    rw [hform] at hch hlast ⊢
    have hcmp : strCmp b e ≠ .gt := by
      have hb' : ∀ c ∈ b, Alnum c := fun c hc => (hb c hc).alnum
      have he' : ∀ c ∈ e, Alnum c := fun c hc => (he c hc).alnum
      have hkey := chain_key h l b hch hb' hne
      cases l with
      | nil =>
        simp only [List.getLast?_singleton, Option.some.injEq] at hlast
        rw [← hlast, strCmp_refl]; simp
      | cons z l =>
        rw [List.getLast?_cons_cons] at hlast
        rcases before_of_key (alnum128 hb') (alnum128 he')
          (hkey.2 e (List.mem_of_getLast? hlast)) with hh | ⟨_, hh⟩
        · omega
        · rw [hh]; simp
    have := C129_each h false b e l hch hlast (fun c hc => (hb c hc).alnum) hne hcmp fuel (by omega)
    simpa using this

-- ("08".."11").each and "08".upto("11")
example : upto (strNext asciiCat) false 0 [48, 56] [49, 49] =
    .done [[48, 56], [48, 57], [49, 48], [49, 49]] ∧
  rangeEach (strNext asciiCat) false 5 [48, 56] [49, 49] =
    .done [[48, 56], [48, 57], [49, 48], [49, 49]] := by decide +kernel

/-- C129 fails between the two: `"a".upto("bb")` stops after two strings, since the third, `"c"`,
sorts after `"bb"`, while `("a".."bb").each` yields 54. -/
theorem C129_upto_letters_fails :
    upto (strNext asciiCat) false 100 [97] [98, 98] = .done [[97], [98]] ∧
    (match rangeEach (strNext asciiCat) false 100 [97] [98, 98] with
      | .done l => l.length
      | _ => 0) = 54 := by
  decide +kernel

/-- C129 fails between the two on digits: `"9".upto("11")` yields three strings, and
`("9".."11").each` none. -/
theorem C129_upto_digits_fails :
    upto (strNext asciiCat) false 100 [57] [49, 49] = .done [[57], [49, 48], [49, 49]] ∧
    rangeEach (strNext asciiCat) false 100 [57] [49, 49] = .done [] := by decide +kernel

theorem minmaxLoop_runs {cat : Nat → Cat} (h : ∀ c < 128, cat c = asciiCat c) (e : List Nat)
    (he : ¬((∀ c ∈ e, Alnum c) ∧ e ≠ [])) : ∀ fuel cur prev, (∀ c ∈ cur, Alnum c) → cur ≠ [] →
      minmaxLoop (strNext cat) e fuel cur prev = none := by
  intro fuel
  induction fuel with
  | zero => intros; rfl
  | succ n ih =>
    intro cur prev hc hne
    rw [minmaxLoop]
    have : cur ≠ e := by
      intro h0; subst h0; exact he ⟨hc, hne⟩
    rw [if_neg this]
    obtain ⟨r, hr, ha, hn⟩ := strNext_closed h cur hc hne
    rw [hr]
    exact ih r cur ha hn

/-- C129 fails for `minmax`: on an exclusive range of strings whose begin is letters and digits and
whose end is not, the search for the last element never ends, though `each` does
(`C129_each_ends`). -/
theorem C129_minmax_fails {cat : Nat → Cat} (h : ∀ c < 128, cat c = asciiCat c) (b e : List Nat)
    (hb : ∀ c ∈ b, Alnum c) (hne : b ≠ []) (he : ¬((∀ c ∈ e, Alnum c) ∧ e ≠ [])) (fuel : Nat) :
    minmaxLoop (strNext cat) e fuel b b = none :=
  minmaxLoop_runs h e he fuel b b hb hne

-- ("a"..."b!")
example : ¬((∀ c ∈ [98, 33], Alnum c) ∧ [98, 33] ≠ []) ∧
    rangeEach (strNext asciiCat) true 100 [97] [98, 33] ≠ .running := by decide +kernel

end Verif.Text
