import Verif.Pack.Spec
import Verif.Pack.Lemmas

/-!
# Lemmas about the template parser
-/

namespace Verif.Pack

deriving instance DecidableEq for Except

/-- `tail` does not begin with a modifier. -/
def NoMod (tail : List Char) : Prop :=
  ∀ c ∈ tail.head?, c ≠ '!' ∧ c ≠ '_' ∧ c ≠ '<' ∧ c ≠ '>'

/-- `tail` does not begin with a digit. -/
def NoDigit (tail : List Char) : Prop := ∀ c ∈ tail.head?, c.isDigit = false

theorem modifiers_append (mods tail : List Char) (n e b : Bool)
    (h : (modifiers n e b mods).2.2.2 = []) (ht : NoMod tail) :
    modifiers n e b (mods ++ tail) =
      ((modifiers n e b mods).1, (modifiers n e b mods).2.1, (modifiers n e b mods).2.2.1, tail) := by
  induction mods generalizing n e b with
  | nil =>
    cases tail with
    | nil => simp [modifiers]
    | cons c rest =>
      obtain ⟨h1, h2, h3, h4⟩ := ht c (by simp)
      simp [modifiers, h1, h2, h3, h4]
  | cons c mods ih =>
    simp only [List.cons_append]
    unfold modifiers at h ⊢
    split at h <;> rename_i h1
    · rw [if_pos h1]; simp only [if_pos h1]; exact ih _ _ _ h
    · rw [if_neg h1]; simp only [if_neg h1]
      split at h <;> rename_i h2
      · rw [if_pos h2]; simp only [if_pos h2]; exact ih _ _ _ h
      · rw [if_neg h2]; simp only [if_neg h2]
        split at h <;> rename_i h3
        · rw [if_pos h3]; simp only [if_pos h3]; exact ih _ _ _ h
        · simp at h

theorem parseCount_default {l rest : List Char} {r : Option Nat}
    (h : parseCount l = .ok (r, false, rest)) : rest = l := by
  unfold parseCount at h
  split at h
  · simp at h; exact h.2.symm ▸ rfl
  · split at h
    · simp at h
    · split at h
      · split at h <;> simp at h
      · simp at h; exact h.2.symm ▸ rfl

/-- What follows a directive's modifiers is its count, whatever the directive. -/
theorem parseDirective_tail {ch : Char} {mods tail rest : List Char} {t : Template} {big : Bool}
    {rep : Option Nat} {ex : Bool}
    (h : parseDirective ch mods = .ok (⟨t, big, some 1, false⟩, []))
    (ht : NoMod tail) (hc : parseCount tail = .ok (rep, ex, rest)) :
    parseDirective ch (mods ++ tail) = .ok (⟨t, big, rep, ex⟩, rest) := by
  unfold parseDirective at h ⊢
  cases hd : directive ch with
  | none => rw [hd] at h; simp at h
  | some p =>
    obtain ⟨t0, b0⟩ := p
    rw [hd] at h
    dsimp only at h ⊢
    rcases hm : modifiers false false b0 mods with ⟨nat, em, b1, r1⟩
    rw [hm] at h
    dsimp only at h
    have hr1 : r1 = [] := by
      split at h
      · simp at h
      · split at h
        · simp at h
        · cases hp : parseCount r1 with
          | error e => rw [hp] at h; simp at h
          | ok q =>
            obtain ⟨q1, q2, q3⟩ := q
            rw [hp] at h
            simp only [Except.ok.injEq, Prod.mk.injEq, Node.mk.injEq] at h
            obtain ⟨⟨_, _, _, h4⟩, h5⟩ := h
            subst h4 h5
            exact (parseCount_default hp).symm
    subst hr1
    have hma := modifiers_append mods tail false false b0 (by rw [hm]) ht
    rw [hm] at hma
    rw [hma]
    dsimp only at h ⊢
    split at h <;> rename_i h1
    · simp at h
    · rw [if_neg h1]
      split at h <;> rename_i h2
      · simp at h
      · rw [if_neg h2, hc]
        simp only [parseCount, Except.ok.injEq, Prod.mk.injEq, Node.mk.injEq] at h ⊢
        obtain ⟨⟨h3, h4, _⟩, _⟩ := h
        exact ⟨⟨h3, h4, trivial, trivial⟩, trivial⟩

theorem digit_not_mod {c : Char} (h : c.isDigit = true) :
    c ≠ '!' ∧ c ≠ '_' ∧ c ≠ '<' ∧ c ≠ '>' ∧ c ≠ '*' := by
  refine ⟨?_, ?_, ?_, ?_, ?_⟩ <;> (rintro rfl; exact absurd h (by decide))

/-- The value of the digits so far never exceeds the value of all. -/
theorem ofDigitChars_ge (l : List Char) (init : Nat) : init ≤ Nat.ofDigitChars 10 l init := by
  induction l generalizing init with
  | nil => simp
  | cons c l ih =>
    rw [Nat.ofDigitChars_cons]
    exact Nat.le_trans (by omega) (ih _)

theorem countDigits_digits (l rest : List Char) (init : Nat) (hl : ∀ c ∈ l, c.isDigit = true)
    (hr : NoDigit rest) :
    countDigits init (l ++ rest) =
      if l = [] ∨ Nat.ofDigitChars 10 l init < 2 ^ 63
      then some (Nat.ofDigitChars 10 l init, rest) else none := by
  induction l generalizing init with
  | nil =>
    cases rest with
    | nil => simp [countDigits]
    | cons c rest => simp [countDigits, hr c (by simp)]
  | cons c l ih =>
    have hc := hl c (by simp)
    have hv : Nat.ofDigitChars 10 (c :: l) init
        = Nat.ofDigitChars 10 l (init * 10 + (c.toNat - 48)) := by
      rw [Nat.ofDigitChars_cons, Nat.mul_comm]; rfl
    have hge := ofDigitChars_ge l (init * 10 + (c.toNat - 48))
    simp only [List.cons_append, countDigits, hc, if_true, hv]
    split
    · rw [if_neg]; simp; omega
    · split
      · rw [if_neg]; simp; omega
      · rw [ih _ fun c hc => hl c (by simp [hc])]
        by_cases hl0 : l = []
        · subst hl0
          rw [if_pos (Or.inl rfl), if_pos]
          right; simp; omega
        · simp [hl0]

/-- A count in decimal is read exactly, or refused when it exceeds `i64::MAX`. -/
theorem parseCount_digits (n : Nat) (rest : List Char) (hr : NoDigit rest) :
    parseCount (Nat.toDigits 10 n ++ rest) =
      if n < 2 ^ 63 then .ok (some n, true, rest) else .error .range := by
  have hdig : ∀ c ∈ Nat.toDigits 10 n, c.isDigit = true := fun c hc =>
    Nat.isDigit_of_mem_toDigits (by omega) (by omega) hc
  have hval : Nat.ofDigitChars 10 (Nat.toDigits 10 n) 0 = n := Nat.ofDigitChars_ten_toDigits
  cases hd : Nat.toDigits 10 n with
  | nil => exact absurd hd Nat.toDigits_ne_nil
  | cons c l =>
    rw [hd] at hdig hval
    have hc := hdig c (by simp)
    have hv : Nat.ofDigitChars 10 l (c.toNat - 48) = n := by
      rw [Nat.ofDigitChars_cons] at hval
      simpa using hval
    simp only [List.cons_append, parseCount]
    rw [if_neg (by simpa using (digit_not_mod hc).2.2.2.2), if_pos hc,
      countDigits_digits l rest _ (fun c hc => hdig c (by simp [hc])) hr, hv]
    by_cases hl0 : l = []
    · subst hl0
      simp at hv
      have h9 : c.toNat - 48 ≤ 9 := by
        simp only [Char.isDigit, Bool.and_eq_true, decide_eq_true_eq] at hc
        have := hc.2
        rw [UInt32.le_iff_toNat_le] at this
        have h57 : c.toNat ≤ 57 := this
        omega
      rw [if_pos (Or.inl rfl), if_pos (show n < 2 ^ 63 by omega)]
    · by_cases hn : n < 2 ^ 63
      · rw [if_pos (Or.inr hn), if_pos hn]
      · rw [if_neg (by simp only [hl0, false_or]; exact hn), if_neg hn]

/-- A template text that is one directive, without a count. -/
def IsDirective (d : String) (t : Template) (big : Bool) : Prop :=
  ∃ ch mods, d.toList = ch :: mods ∧ isSpace ch = false ∧ ch ≠ '#' ∧ ch.isDigit = false ∧
    ch ≠ '!' ∧ ch ≠ '_' ∧ ch ≠ '<' ∧ ch ≠ '>' ∧
    parseDirective ch mods = .ok (⟨t, big, some 1, false⟩, [])

theorem fixed_isDirective : ∀ e ∈ fixedDirectives, IsDirective e.1 (.int e.2.1 e.2.2.1) e.2.2.2 := by
  have key : fixedDirectives.all (fun e => match e.1.toList with
    | [] => false
    | ch :: mods => !isSpace ch && ch != '#' && !ch.isDigit && ch != '!' && ch != '_' && ch != '<' &&
        ch != '>' && decide (parseDirective ch mods
          = .ok (⟨.int e.2.1 e.2.2.1, e.2.2.2, some 1, false⟩, []))) = true := by decide +kernel
  intro e he
  have := List.all_eq_true.1 key e he
  cases hl : e.1.toList with
  | nil => rw [hl] at this; simp at this
  | cons ch mods =>
    rw [hl] at this
    simp only [Bool.and_eq_true, bne_iff_ne, Bool.not_eq_true', decide_eq_true_eq] at this
    obtain ⟨⟨⟨⟨⟨⟨⟨h1, h2⟩, h3⟩, h4⟩, h5⟩, h6⟩, h7⟩, h8⟩ := this
    exact ⟨ch, mods, hl, h1, h2, h3, h4, h5, h6, h7, h8⟩

theorem double_isDirective : ∀ e ∈ doubleDirectives, IsDirective e.1 .f64 e.2 := by
  have key : doubleDirectives.all (fun e => match e.1.toList with
    | [] => false
    | ch :: mods => !isSpace ch && ch != '#' && !ch.isDigit && ch != '!' && ch != '_' && ch != '<' &&
        ch != '>' && decide (parseDirective ch mods
          = .ok (⟨.f64, e.2, some 1, false⟩, []))) = true := by decide +kernel
  intro e he
  have := List.all_eq_true.1 key e he
  cases hl : e.1.toList with
  | nil => rw [hl] at this; simp at this
  | cons ch mods =>
    rw [hl] at this
    simp only [Bool.and_eq_true, bne_iff_ne, Bool.not_eq_true', decide_eq_true_eq] at this
    obtain ⟨⟨⟨⟨⟨⟨⟨h1, h2⟩, h3⟩, h4⟩, h5⟩, h6⟩, h7⟩, h8⟩ := this
    exact ⟨ch, mods, hl, h1, h2, h3, h4, h5, h6, h7, h8⟩

theorem parse_single {d : String} {t : Template} {big : Bool} (h : IsDirective d t big) :
    parse d = .ok [⟨t, big, some 1, false⟩] := by
  obtain ⟨ch, mods, hl, h1, h2, _, _, _, _, _, h8⟩ := h
  unfold parse
  rw [hl]
  simp only [List.length_cons, parseAux, h1, h8, beq_iff_eq, h2, if_false, Bool.false_eq_true]
  cases mods <;> simp [parseAux]

theorem parse_star {d : String} {t : Template} {big : Bool} (h : IsDirective d t big) :
    parse (d ++ "*") = .ok [⟨t, big, none, true⟩] := by
  obtain ⟨ch, mods, hl, h1, h2, _, _, _, _, _, h8⟩ := h
  have hp := parseDirective_tail (tail := ['*']) (rest := []) (rep := none) (ex := true) h8
    (by intro c hc; simp at hc; subst hc; decide) rfl
  unfold parse
  rw [String.toList_append, hl]
  simp only [List.cons_append, List.length_cons, parseAux, h1, beq_iff_eq, h2, if_false,
    Bool.false_eq_true]
  rw [show "*".toList = ['*'] from rfl, hp]
  dsimp only
  cases (mods ++ ['*']).length <;> simp [parseAux]

theorem parse_counted {d : String} {t : Template} {big : Bool} (h : IsDirective d t big) (n : Nat)
    (hn : n < 2 ^ 63) : parse (d ++ toString n) = .ok [⟨t, big, some n, true⟩] := by
  obtain ⟨ch, mods, hl, h1, h2, _, _, _, _, _, h8⟩ := h
  have hts : (toString n).toList = Nat.toDigits 10 n := Nat.toList_repr
  have hc := parseCount_digits n [] (by intro c hc; simp at hc)
  rw [if_pos hn, List.append_nil] at hc
  have hp := parseDirective_tail h8 (tail := Nat.toDigits 10 n) (by
    intro c hc
    have := digit_not_mod (Nat.isDigit_of_mem_toDigits (b := 10) (by omega) (by omega)
      (List.mem_of_mem_head? hc))
    exact ⟨this.1, this.2.1, this.2.2.1, this.2.2.2.1⟩) hc
  unfold parse
  rw [String.toList_append, hl, hts]
  simp only [List.cons_append, List.length_cons, parseAux, h1, beq_iff_eq, h2, if_false,
    Bool.false_eq_true]
  rw [hp]
  dsimp only
  cases (mods ++ Nat.toDigits 10 n).length <;> simp [parseAux]

/-- A sequence of directives with counts. -/
theorem parseAux_counted (ds : List (String × Template × Bool × Nat))
    (h : ∀ e ∈ ds, IsDirective e.1 e.2.1 e.2.2.1 ∧ e.2.2.2 < 2 ^ 63) (fuel : Nat)
    (hf : ((ds.map fun e => e.1.toList ++ Nat.toDigits 10 e.2.2.2).flatten).length ≤ fuel) :
    parseAux fuel (ds.map fun e => e.1.toList ++ Nat.toDigits 10 e.2.2.2).flatten =
      .ok (ds.map fun e => ⟨e.2.1, e.2.2.1, some e.2.2.2, true⟩) := by
  induction ds generalizing fuel with
  | nil => cases fuel <;> rfl
  | cons e ds ih =>
    obtain ⟨⟨ch, mods, hl, h1, h2, _, _, _, _, _, h8⟩, hn⟩ := h e (by simp)
    have h' : ∀ e ∈ ds, IsDirective e.1 e.2.1 e.2.2.1 ∧ e.2.2.2 < 2 ^ 63 :=
      fun e he => h e (by simp [he])
    have hhead : NoDigit (ds.map fun e => e.1.toList ++ Nat.toDigits 10 e.2.2.2).flatten := by
      intro c hc
      cases ds with
      | nil => simp at hc
      | cons e' ds =>
        obtain ⟨⟨ch', mods', hl', _, _, h3', _⟩, _⟩ := h' e' (by simp)
        simp [hl'] at hc
        subst hc
        exact h3'
    have hcount := parseCount_digits e.2.2.2 _ hhead
    rw [if_pos hn] at hcount
    have hnm : NoMod (Nat.toDigits 10 e.2.2.2 ++
        (ds.map fun e => e.1.toList ++ Nat.toDigits 10 e.2.2.2).flatten) := by
      intro c hc
      have hne : Nat.toDigits 10 e.2.2.2 ≠ [] := Nat.toDigits_ne_nil
      rw [List.head?_append_of_ne_nil _ hne] at hc
      have := digit_not_mod (Nat.isDigit_of_mem_toDigits (b := 10) (by omega) (by omega)
        (List.mem_of_mem_head? hc))
      exact ⟨this.1, this.2.1, this.2.2.1, this.2.2.2.1⟩
    have hp := parseDirective_tail h8 hnm hcount
    simp only [List.map_cons, List.flatten_cons, hl, List.cons_append, List.append_assoc] at hf ⊢
    cases fuel with
    | zero => simp at hf
    | succ fuel =>
      simp only [parseAux, h1, beq_iff_eq, h2, if_false, Bool.false_eq_true]
      rw [hp]
      dsimp only
      rw [ih h' fuel (by simp at hf ⊢; omega)]

end Verif.Pack
