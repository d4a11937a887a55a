import Verif.Str.Codes

/-! # The code range of pieces and of wholes -/

namespace Verif.Str

variable {iso : List Nat → Bool}

/-- all bytes are ASCII -/
def Ascii (bs : List Nat) : Prop := ∀ b ∈ bs, b < 0x80

theorem all_ascii {bs : List Nat} : bs.all (· < 0x80) = true ↔ Ascii bs := by
  simp [Ascii]

theorem Ascii.append {a b : List Nat} : Ascii (a ++ b) ↔ Ascii a ∧ Ascii b := by
  constructor
  · intro h
    exact ⟨fun x hx => h x (List.mem_append.mpr (Or.inl hx)), fun x hx => h x (List.mem_append.mpr (Or.inr hx))⟩
  · intro ⟨h1, h2⟩ x hx
    rcases List.mem_append.mp hx with h | h
    · exact h1 x h
    · exact h2 x h

theorem Ascii.sub {a b : List Nat} (h : Ascii b) (hs : ∀ x ∈ a, x ∈ b) : Ascii a :=
  fun x hx => h x (hs x hx)

theorem slice_sub {bs : List Nat} {st en : Nat} : ∀ x ∈ slice bs st en, x ∈ bs :=
  fun _ hx => List.mem_of_mem_drop (List.mem_of_mem_take hx)

theorem code_ascii1 {e : Enc} (he : e.asciiCompat = true) {b : Nat} (hb : b < 0x80) :
    code e [b] = some 1 := by
  cases e <;> simp only [Enc.asciiCompat, Bool.false_eq_true] at he <;>
    simp [code, fixw, asciiw, u8w, eucw, sjisw, hb]

theorem Ascii.wf {e : Enc} (he : e.asciiCompat = true) : ∀ {bs : List Nat}, Ascii bs → Wf (code e) bs
  | [], _ => Wf.nil
  | b :: t, h => by
    have h1 : code e [b] = some [b].length := code_ascii1 he (h b (by simp))
    exact Wf.cons [b] t (by simp) h1 (Ascii.wf he (fun x hx => h x (by simp [hx])))

theorem wf_ascii {bs : List Nat} (h : Wf asciiw bs) : Ascii bs := by
  induction h with
  | nil => intro x hx; simp at hx
  | cons c r h0 h1 _ ih =>
    refine Ascii.append.mpr ⟨?_, ih⟩
    rcases c with _ | ⟨b, t⟩
    · exact absurd rfl h0
    · simp only [asciiw] at h1
      split_ifs at h1 with hb
      have : t = [] := by simpa using h1
      subst this
      intro x hx
      simp only [List.mem_singleton] at hx
      omega

theorem classify_ne_unknown (e : Enc) (bs : List Nat) : classify iso e bs ≠ .unknown := by
  cases e <;> simp only [classify] <;> split_ifs <;> simp

/-- the scan answers "seven bits" exactly for ASCII text -/
theorem classify_seven {e : Enc} {bs : List Nat} :
    classify iso e bs = .sevenBit ↔ bs = [] ∨ (e.asciiCompat = true ∧ Ascii bs) := by
  unfold classify
  by_cases h0 : bs = []
  · simp [h0]
  · by_cases h1 : e.asciiCompat = true ∧ Ascii bs
    · rw [if_neg h0, if_pos (by simp [h1.1, all_ascii.mpr h1.2])]
      simp [h1]
    · rw [if_neg h0, if_neg (by rw [Bool.and_eq_true, all_ascii]; exact h1)]
      simp only [h0, h1, or_self, iff_false]
      cases e <;> simp <;> split_ifs <;> simp

/-- the scan answers "broken" exactly when the bytes are no sequence of characters -/
theorem classify_broken {e : Enc} (he : e ≠ .iso2022Jp) {bs : List Nat} :
    classify iso e bs ≠ .broken ↔ Wf (code e) bs := by
  unfold classify
  by_cases h0 : bs = []
  · subst h0; simpa using Wf.nil
  · by_cases h1 : e.asciiCompat = true ∧ Ascii bs
    · rw [if_neg h0, if_pos (by simp [h1.1, all_ascii.mpr h1.2])]
      simp only [ne_eq, reduceCtorEq, not_false_eq_true, true_iff]
      exact h1.2.wf h1.1
    · rw [if_neg h0, if_neg (by rw [Bool.and_eq_true, all_ascii]; exact h1)]
      have hf : ∀ k, 0 < k → (Wf (fixw k) bs ↔ bs.length % k = 0) := fun k hk => wf_fixw hk bs
      cases e <;> simp only [code]
      case iso2022Jp => exact absurd rfl he
      case usAscii =>
        simp only [ne_eq, not_true_eq_false, false_iff]
        intro h
        exact h1 ⟨rfl, wf_ascii h⟩
      case utf8 => rw [← wellFormed_iff u8w_code]; split_ifs with h <;> simp [h]
      case eucJp => rw [← wellFormed_iff eucw_code]; split_ifs with h <;> simp [h]
      case sjis => rw [← wellFormed_iff sjisw_code]; split_ifs with h <;> simp [h]
      case utf16le => rw [hf 2 (by omega)]; split_ifs with h <;> simp [h]
      case utf16be => rw [hf 2 (by omega)]; split_ifs with h <;> simp [h]
      case utf32le => rw [hf 4 (by omega)]; split_ifs with h <;> simp [h]
      case utf32be => rw [hf 4 (by omega)]; split_ifs with h <;> simp [h]
      all_goals rw [hf 1 (by omega)]; simp [Nat.mod_one]

/-! ## Boundaries of UTF-8 -/

/-- the bytes after the first one of a UTF-8 character are continuation bytes, the first is not -/
theorem u8w_char {c : List Nat} (h : u8w c = some c.length) :
    ∃ b t, c = b :: t ∧ cont b = false ∧ ∀ x ∈ t, cont x = true := by
  have c3 : ∀ a b, ok3 a b = true → cont b = true := by
    intro a b h
    unfold ok3 at h
    split_ifs at h <;> simp_all [cont] <;> omega
  have c4 : ∀ a b, ok4 a b = true → cont b = true := by
    intro a b h
    unfold ok4 at h
    split_ifs at h <;> simp_all [cont] <;> omega
  rcases c with _ | ⟨b0, t⟩
  · simp [u8w] at h
  · refine ⟨b0, t, rfl, ?_, ?_⟩
    · simp only [u8w] at h
      simp only [cont, Bool.and_eq_false_iff, decide_eq_false_iff_not]
      split_ifs at h <;> omega
    · rcases t with _ | ⟨b1, _ | ⟨b2, _ | ⟨b3, _ | ⟨b4, t⟩⟩⟩⟩ <;> simp only [u8w] at h <;>
        (try split_ifs at h) <;> simp at h <;> simp_all <;>
        first | exact c3 b0 b1 (by simp_all) | exact c4 b0 b1 (by simp_all)

/-- `b` does not begin inside a character -/
def Starts (b : List Nat) : Prop := ∀ x t, b = x :: t → cont x = false

/-- UTF-8 text cut where the next byte is no continuation byte -/
theorem u8_cut : ∀ {a b : List Nat}, Wf u8w (a ++ b) → Starts b → Wf u8w a ∧ Wf u8w b := by
  intro a b h hb
  generalize hs : a ++ b = s at h
  induction h generalizing a with
  | nil =>
    have := List.append_eq_nil_iff.mp hs
    rw [this.1, this.2]
    exact ⟨Wf.nil, Wf.nil⟩
  | cons c r h0 h1 h2 ih =>
    rcases List.append_eq_append_iff.mp hs with ⟨x, hx1, hx2⟩ | ⟨x, hx1, hx2⟩
    · -- c = a ++ x, b = x ++ r
      by_cases ha : a = []
      · subst ha
        simp only [List.nil_append] at hx1
        subst hx1
        rw [hx2]
        exact ⟨Wf.nil, Wf.cons _ _ h0 h1 h2⟩
      · rcases x with _ | ⟨y, x⟩
        · rw [List.append_nil] at hx1
          subst hx1
          simp only [List.nil_append] at hx2
          subst hx2
          exact ⟨Wf.one h0 h1, h2⟩
        · exfalso
          obtain ⟨b0, t, e1, _, e3⟩ := u8w_char h1
          have h4 := hb y (x ++ r) (by rw [hx2]; rfl)
          rcases a with _ | ⟨a0, a⟩
          · exact ha rfl
          · rw [e1] at hx1
            have : t = a ++ y :: x := by
              have := congrArg List.tail hx1
              simpa using this
            have := e3 y (by rw [this]; simp)
            rw [h4] at this
            simp at this
    · obtain ⟨h3, h4⟩ := ih hx2.symm
      refine ⟨?_, h4⟩
      rw [hx1]
      exact Wf.cons c x h0 h1 h3

theorem u8_starts {bs : List Nat} (h : Wf u8w bs) : Starts bs := by
  intro x t hx
  cases h with
  | nil => simp at hx
  | cons c r h0 h1 _ =>
    obtain ⟨b, t', e1, e2, _⟩ := u8w_char h1
    subst e1
    simp only [List.cons_append, List.cons.injEq] at hx
    rw [← hx.1]
    exact e2

theorem boundary_starts {bs : List Nat} {i : Nat} (hw : Wf u8w bs) (h : boundary bs i = true)
    (hi : i ≤ bs.length) : Starts (bs.drop i) := by
  intro x t hx
  simp only [boundary, Bool.or_eq_true, beq_iff_eq, Bool.not_eq_true'] at h
  rcases h with (h | h) | h
  · subst h
    exact u8_starts hw x t (by simpa using hx)
  · rw [h, List.drop_length] at hx
    simp at hx
  · have : bs[i]? = some x := by
      have := congrArg (·[0]?) hx
      simpa using this
    rw [List.getD_eq_getElem?_getD, this] at h
    exact h

theorem wf_slice {bs : List Nat} {st en : Nat} (hw : Wf u8w bs) (h1 : st ≤ en)
    (h2 : en ≤ bs.length) (b1 : boundary bs st = true) (b2 : boundary bs en = true) :
    Wf u8w (bs.take st) ∧ Wf u8w (slice bs st en) ∧ Wf u8w (bs.drop en) := by
  have e1 : bs.take st ++ bs.drop st = bs := List.take_append_drop _ _
  have hc1 := u8_cut (a := bs.take st) (b := bs.drop st) (by rw [e1]; exact hw)
    (boundary_starts hw b1 (by omega))
  have e2 : slice bs st en ++ bs.drop en = bs.drop st := by
    have : bs.drop en = (bs.drop st).drop (en - st) := by
      rw [List.drop_drop]; congr 1; omega
    rw [slice, this, List.take_append_drop]
  have hc2 := u8_cut (a := slice bs st en) (b := bs.drop en) (by rw [e2]; exact hc1.2)
    (boundary_starts hw b2 h2)
  exact ⟨hc1.1, hc2.1, hc2.2⟩

end Verif.Str
