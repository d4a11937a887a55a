import Verif.Pack.CodecLemmas

/-!
# Prefix-freeness of `w` and `U`; a parser lemma
-/

namespace Verif.Pack

theorem parseDirective_error {ch : Char} {mods tail : List Char} {t : Template} {big : Bool} {e : Err}
    (h : parseDirective ch mods = .ok (⟨t, big, some 1, false⟩, []))
    (ht : NoMod tail) (hc : parseCount tail = .error e) :
    parseDirective ch (mods ++ tail) = .error e := by
  unfold parseDirective at h ⊢
  cases hd : directive ch with
  | none => rw [hd] at h; simp at h
  | some p =>
    obtain ⟨t0, b0⟩ := p
    rw [hd] at h
    dsimp only at h ⊢
    rcases hm : modifiers false false b0 mods with ⟨nat, em, b1, r1⟩
    rw [hm] at h
    dsimp only at h
    have hr1 : r1 = [] := by
      split at h
      · simp at h
      · split at h
        · simp at h
        · cases hp : parseCount r1 with
          | error e => rw [hp] at h; simp at h
          | ok q =>
            obtain ⟨q1, q2, q3⟩ := q
            rw [hp] at h
            simp only [Except.ok.injEq, Prod.mk.injEq, Node.mk.injEq] at h
            obtain ⟨⟨_, _, _, h4⟩, h5⟩ := h
            subst h4 h5
            exact (parseCount_default hp).symm
    subst hr1
    have hma := modifiers_append mods tail false false b0 (by rw [hm]) ht
    rw [hm] at hma
    rw [hma]
    dsimp only at h ⊢
    split at h <;> rename_i h1
    · simp at h
    · rw [if_neg h1]
      split at h <;> rename_i h2
      · simp at h
      · rw [if_neg h2, hc]

/-! ## BER of any size -/

/-- The number written in base 128, most significant group first. -/
def base128 (l : List Nat) : Nat := l.foldl (fun acc b => acc * 128 + b % 128) 0

theorem base128_append (l : List Nat) (b : Nat) : base128 (l ++ [b]) = base128 l * 128 + b % 128 := by
  simp [base128]

theorem berGroups_value (fuel u : Nat) (h : u < fuel) :
    base128 (berGroups fuel u).reverse = u ∧ ∀ b ∈ berGroups fuel u, 128 ≤ b := by
  induction fuel generalizing u with
  | zero => omega
  | succ fuel ih =>
    unfold berGroups
    split
    · rename_i h0; subst h0; simp [base128]
    · rw [show u >>> 7 = u / 128 from Nat.shiftRight_eq_div_pow u 7, and7f]
      obtain ⟨h1, h2⟩ := ih (u / 128) (by omega)
      have h3 := or80 (show u % 128 < 128 by omega)
      constructor
      · rw [List.reverse_cons, base128_append, h1, h3.1]
        omega
      · intro b hb
        rcases List.mem_cons.1 hb with rfl | hb
        · omega
        · exact h2 b hb

theorem berBytes_shape {i : Int} (h : 0 ≤ i) : ∃ hi lo, berBytes i = hi ++ [lo] ∧
    (∀ b ∈ hi, 128 ≤ b) ∧ lo < 128 ∧ base128 (hi ++ [lo]) = i.toNat := by
  have := berBytes_ok h
  unfold berEncode at this
  rw [if_neg (by omega)] at this
  simp only [Except.ok.injEq] at this
  rw [← this, List.reverse_cons, and7f,
    show i.toNat >>> 7 = i.toNat / 128 from Nat.shiftRight_eq_div_pow _ 7]
  obtain ⟨h1, h2⟩ := berGroups_value (i.toNat + 1) (i.toNat / 128) (by omega)
  refine ⟨_, _, rfl, fun b hb => h2 b (List.mem_reverse.1 hb), by omega, ?_⟩
  rw [base128_append, h1]
  omega

theorem split_unique {h1 h2 : List Nat} {l1 l2 : Nat} {x y : List Nat} (hh1 : ∀ b ∈ h1, 128 ≤ b)
    (hh2 : ∀ b ∈ h2, 128 ≤ b) (hl1 : l1 < 128) (hl2 : l2 < 128)
    (h : h1 ++ l1 :: x = h2 ++ l2 :: y) : h1 = h2 ∧ l1 = l2 ∧ x = y := by
  induction h1 generalizing h2 with
  | nil =>
    cases h2 with
    | nil => simpa using h
    | cons b h2 =>
      simp at h
      have := hh2 b (by simp)
      omega
  | cons a h1 ih =>
    cases h2 with
    | nil =>
      simp at h
      have := hh1 a (by simp)
      omega
    | cons b h2 =>
      simp at h
      obtain ⟨rfl, h⟩ := h
      obtain ⟨e1, e2, e3⟩ := ih (fun b hb => hh1 b (by simp [hb])) (fun b hb => hh2 b (by simp [hb])) h
      exact ⟨by rw [e1], e2, e3⟩

theorem berBytes_prefix {i j : Int} (hi : 0 ≤ i) (hj : 0 ≤ j) {x y : List Nat}
    (h : berBytes i ++ x = berBytes j ++ y) : i = j ∧ x = y := by
  obtain ⟨h1, l1, e1, a1, b1, v1⟩ := berBytes_shape hi
  obtain ⟨h2, l2, e2, a2, b2, v2⟩ := berBytes_shape hj
  rw [e1, e2, List.append_assoc, List.append_assoc, List.singleton_append,
    List.singleton_append] at h
  obtain ⟨rfl, rfl, rfl⟩ := split_unique a1 a2 b1 b2 h
  rw [v1] at v2
  exact ⟨by omega, rfl⟩

/-! ## UTF-8 -/

theorem lead_add {x : Nat} :
    (x < 32 → (0xc0 ||| x) % 256 = 192 + x) ∧ (x < 16 → (0xe0 ||| x) % 256 = 224 + x) ∧
    (x < 8 → (0xf0 ||| x) % 256 = 240 + x) ∧ (x < 4 → (0xf8 ||| x) % 256 = 248 + x) ∧
    (x < 4 → (0xfc ||| x) % 256 = 252 + x) := by
  by_cases h : x < 32
  · exact of_decide_eq_true (lt_all (n := 32) (p := fun x => decide (
      (x < 32 → (0xc0 ||| x) % 256 = 192 + x) ∧ (x < 16 → (0xe0 ||| x) % 256 = 224 + x) ∧
      (x < 8 → (0xf0 ||| x) % 256 = 240 + x) ∧ (x < 4 → (0xf8 ||| x) % 256 = 248 + x) ∧
      (x < 4 → (0xfc ||| x) % 256 = 252 + x))) (by decide +kernel) h)
  · refine ⟨?_, ?_, ?_, ?_, ?_⟩ <;> intro h' <;> omega

/-- The bytes in arithmetic. -/
theorem utf8Encode_eq (cp : Nat) (h : cp < 2 ^ 32) : utf8Encode cp =
    if cp ≤ 0x7f then [cp]
    else if cp ≤ 0x7ff then [192 + cp / 64, 128 + cp % 64]
    else if cp ≤ 0xffff then [224 + cp / 4096, 128 + cp / 64 % 64, 128 + cp % 64]
    else if cp ≤ 0x1fffff then
      [240 + cp / 262144, 128 + cp / 4096 % 64, 128 + cp / 64 % 64, 128 + cp % 64]
    else if cp ≤ 0x3ffffff then
      [248 + cp / 16777216, 128 + cp / 262144 % 64, 128 + cp / 4096 % 64, 128 + cp / 64 % 64,
        128 + cp % 64]
    else [252 + cp / 1073741824, 128 + cp / 16777216 % 64, 128 + cp / 262144 % 64,
      128 + cp / 4096 % 64, 128 + cp / 64 % 64, 128 + cp % 64] := by
  have s6 : cp >>> 6 = cp / 64 := Nat.shiftRight_eq_div_pow cp 6
  have s12 : cp >>> 12 = cp / 4096 := Nat.shiftRight_eq_div_pow cp 12
  have s18 : cp >>> 18 = cp / 262144 := Nat.shiftRight_eq_div_pow cp 18
  have s24 : cp >>> 24 = cp / 16777216 := Nat.shiftRight_eq_div_pow cp 24
  have s30 : cp >>> 30 = cp / 1073741824 := Nat.shiftRight_eq_div_pow cp 30
  unfold utf8Encode
  simp only [cont', s6, s12, s18, s24, s30]
  split
  · rfl
  split
  · rw [lead_add.1 (by omega)]
  split
  · rw [lead_add.2.1 (by omega)]
  split
  · rw [lead_add.2.2.1 (by omega)]
  split
  · rw [lead_add.2.2.2.1 (by omega)]
  · rw [lead_add.2.2.2.2 (by omega)]

/-- A reader of all six forms. -/
def readAny : List Nat → Nat × List Nat
  | [] => (0, [])
  | a :: l =>
    if a < 128 then (a, l)
    else if a < 224 then ((a - 192) * 64 + (l.getD 0 0 - 128), l.drop 1)
    else if a < 240 then ((a - 224) * 4096 + (l.getD 0 0 - 128) * 64 + (l.getD 1 0 - 128), l.drop 2)
    else if a < 248 then ((a - 240) * 262144 + (l.getD 0 0 - 128) * 4096 + (l.getD 1 0 - 128) * 64 +
      (l.getD 2 0 - 128), l.drop 3)
    else if a < 252 then ((a - 248) * 16777216 + (l.getD 0 0 - 128) * 262144 +
      (l.getD 1 0 - 128) * 4096 + (l.getD 2 0 - 128) * 64 + (l.getD 3 0 - 128), l.drop 4)
    else ((a - 252) * 1073741824 + (l.getD 0 0 - 128) * 16777216 + (l.getD 1 0 - 128) * 262144 +
      (l.getD 2 0 - 128) * 4096 + (l.getD 3 0 - 128) * 64 + (l.getD 4 0 - 128), l.drop 5)

theorem readAny_encode (cp : Nat) (h : cp < 2 ^ 32) (l : List Nat) :
    readAny (utf8Encode cp ++ l) = (cp, l) := by
  rw [utf8Encode_eq cp h]
  split
  · simp only [List.cons_append, List.nil_append, readAny]
    rw [if_pos (by omega)]
  split
  · simp only [List.cons_append, List.nil_append, readAny, List.getD_cons_zero, List.drop]
    rw [if_neg (by omega), if_pos (by omega)]
    exact Prod.mk.injEq .. ▸ ⟨by omega, rfl⟩
  split
  · simp only [List.cons_append, List.nil_append, readAny, List.getD_cons_zero,
      List.getD_cons_succ, List.drop]
    rw [if_neg (by omega), if_neg (by omega), if_pos (by omega)]
    exact Prod.mk.injEq .. ▸ ⟨by omega, rfl⟩
  split
  · simp only [List.cons_append, List.nil_append, readAny, List.getD_cons_zero,
      List.getD_cons_succ, List.drop]
    rw [if_neg (by omega), if_neg (by omega), if_neg (by omega), if_pos (by omega)]
    exact Prod.mk.injEq .. ▸ ⟨by omega, rfl⟩
  split
  · simp only [List.cons_append, List.nil_append, readAny, List.getD_cons_zero,
      List.getD_cons_succ, List.drop]
    rw [if_neg (by omega), if_neg (by omega), if_neg (by omega), if_neg (by omega),
      if_pos (by omega)]
    exact Prod.mk.injEq .. ▸ ⟨by omega, rfl⟩
  · simp only [List.cons_append, List.nil_append, readAny, List.getD_cons_zero,
      List.getD_cons_succ, List.drop]
    rw [if_neg (by omega), if_neg (by omega), if_neg (by omega), if_neg (by omega),
      if_neg (by omega)]
    exact Prod.mk.injEq .. ▸ ⟨by omega, rfl⟩

theorem utf8_prefix {a b : Nat} (ha : a < 2 ^ 32) (hb : b < 2 ^ 32) {x y : List Nat}
    (h : utf8Encode a ++ x = utf8Encode b ++ y) : a = b ∧ x = y := by
  have h1 := readAny_encode a ha x
  have h2 := readAny_encode b hb y
  rw [h, h2] at h1
  simp only [Prod.mk.injEq] at h1
  exact ⟨h1.1.symm, h1.2.symm⟩

theorem packUtf8_inv (i : Int) (bs : List Nat) (h : packUtf8 (.int i) = .ok bs) :
    0 ≤ i ∧ i < 2 ^ 32 ∧ bs = utf8Encode i.toNat := by
  unfold packUtf8 at h
  dsimp only at h
  cases hc : coerceI64 i with
  | error e => rw [hc] at h; simp at h
  | ok j =>
    rw [hc] at h
    have hij : j = i := by
      unfold coerceI64 at hc
      split at hc
      · cases hc; rfl
      · cases hc
    subst hij
    dsimp only at h
    split at h
    · cases h
    · split at h
      · cases h
      · rename_i h1 h2
        cases h
        exact ⟨by omega, by omega, rfl⟩

theorem utf8Encode_char (c : Char) :
    utf8Encode c.toNat = (String.utf8EncodeChar c).map UInt8.toNat := by
  have hc : c.toNat < 0x110000 := by
    have := c.valid
    unfold UInt32.isValidChar Nat.isValidChar at this
    show c.val.toNat < _
    omega
  rw [utf8Encode_eq _ (by omega)]
  unfold String.utf8EncodeChar
  rw [show c.val.toNat = c.toNat from rfl]
  generalize c.toNat = n at *
  dsimp only
  split
  · simp; omega
  split
  · simp; omega
  split
  · simp; omega
  · rw [if_pos (by omega)]
    simp; omega

end Verif.Pack
