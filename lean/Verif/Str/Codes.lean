import Verif.Str.Model
import Mathlib.Tactic.SplitIfs
import Mathlib.Tactic.ByContra

/-! # Well-formed sequences of characters -/

namespace Verif.Str

/-- A width function that looks only at the character itself. -/
structure Code (w : List Nat → Option Nat) : Prop where
  pos : ∀ bs n, w bs = some n → 0 < n ∧ n ≤ bs.length
  ext : ∀ bs n, w bs = some n → ∀ ys, w (bs.take n ++ ys) = some n

/-- a concatenation of characters -/
inductive Wf (w : List Nat → Option Nat) : List Nat → Prop where
  | nil : Wf w []
  | cons (c r : List Nat) : c ≠ [] → w c = some c.length → Wf w r → Wf w (c ++ r)

theorem Code.app {w} (hw : Code w) {bs n} (h : w bs = some n) (ys) : w (bs ++ ys) = some n := by
  have := hw.ext bs n h (bs.drop n ++ ys)
  rwa [← List.append_assoc, List.take_append_drop] at this

theorem Code.take {w} (hw : Code w) {bs n} (h : w bs = some n) : w (bs.take n) = some n := by
  have := hw.ext bs n h []
  rwa [List.append_nil] at this

theorem Wf.one {w} {c : List Nat} (h0 : c ≠ []) (h : w c = some c.length) : Wf w c := by
  have := Wf.cons c [] h0 h Wf.nil
  rwa [List.append_nil] at this

theorem Wf.append {w} {a b : List Nat} (ha : Wf w a) (hb : Wf w b) : Wf w (a ++ b) := by
  induction ha with
  | nil => exact hb
  | cons c r h0 h1 _ ih => rw [List.append_assoc]; exact Wf.cons c _ h0 h1 ih

theorem Wf.inv {w} (hw : Code w) {bs : List Nat} (h : Wf w bs) (hb : bs ≠ []) :
    ∃ k, w bs = some k ∧ Wf w (bs.drop k) := by
  cases h with
  | nil => exact absurd rfl hb
  | cons c r h0 h1 h2 =>
    refine ⟨c.length, hw.app h1 r, ?_⟩
    rw [List.drop_left]
    exact h2

theorem Wf.step {w} (hw : Code w) {bs : List Nat} {k} (h : w bs = some k)
    (h' : Wf w (bs.drop k)) : Wf w bs := by
  have hp := hw.pos bs k h
  have h1 : (bs.take k).length = k := by rw [List.length_take]; omega
  have := Wf.cons (bs.take k) (bs.drop k) (by intro hh; rw [hh] at h1; simp at h1; omega)
    (by rw [h1]; exact hw.take h) h'
  rwa [List.take_append_drop] at this

theorem chk_iff {w} (hw : Code w) : ∀ n bs, bs.length ≤ n → (chk w n bs = true ↔ Wf w bs) := by
  intro n
  induction n with
  | zero =>
    intro bs hb
    have : bs = [] := List.length_eq_zero_iff.mp (by omega)
    subst this
    simp only [chk, true_iff]
    exact Wf.nil
  | succ n ih =>
    intro bs hb
    cases bs with
    | nil => simp only [chk, true_iff]; exact Wf.nil
    | cons b t =>
      simp only [chk]
      constructor
      · intro h
        cases hk : w (b :: t) with
        | none => rw [hk] at h; simp at h
        | some k =>
          rw [hk] at h
          have hp := hw.pos _ _ hk
          exact Wf.step hw hk ((ih _ (by rw [List.length_drop]; simp only [List.length_cons] at *; omega)).mp h)
      · intro h
        obtain ⟨k, hk, h2⟩ := h.inv hw (by simp)
        rw [hk]
        have hp := hw.pos _ _ hk
        exact (ih _ (by rw [List.length_drop]; simp only [List.length_cons] at *; omega)).mpr h2

theorem wellFormed_iff {w} (hw : Code w) (bs) : wellFormed w bs = true ↔ Wf w bs :=
  chk_iff hw _ _ (Nat.le_refl _)

/-- after a well-formed prefix the rest of a well-formed string is well formed -/
theorem Wf.rest {w} (hw : Code w) {a b : List Nat} (ha : Wf w a) (h : Wf w (a ++ b)) : Wf w b := by
  induction ha with
  | nil => exact h
  | cons c r h0 h1 _ ih =>
    rw [List.append_assoc] at h
    obtain ⟨k, hk, h2⟩ := h.inv hw (by simp [h0])
    rw [hw.app h1] at hk
    cases hk
    rw [List.drop_left] at h2
    exact ih h2

/-- the characters of a well-formed string -/
theorem Wf.split {w} {bs : List Nat} (h : Wf w bs) :
    ∃ cs : List (List Nat), cs.flatten = bs ∧ ∀ c ∈ cs, c ≠ [] ∧ w c = some c.length := by
  induction h with
  | nil => exact ⟨[], rfl, by simp⟩
  | cons c r h0 h1 _ ih =>
    obtain ⟨cs, h2, h3⟩ := ih
    refine ⟨c :: cs, by simp [h2], ?_⟩
    intro d hd
    rcases List.mem_cons.mp hd with h | h
    · subst h; exact ⟨h0, h1⟩
    · exact h3 d h

theorem Wf.ofChars {w} : ∀ {cs : List (List Nat)},
    (∀ c ∈ cs, c ≠ [] ∧ w c = some c.length) → Wf w cs.flatten
  | [], _ => Wf.nil
  | c :: cs, h => by
    rw [List.flatten_cons]
    exact Wf.cons c _ (h c (by simp)).1 (h c (by simp)).2
      (Wf.ofChars (fun d hd => h d (by simp [hd])))

theorem Wf.replicate {w} {s : List Nat} (h : Wf w s) : ∀ n, Wf w (List.replicate n s).flatten
  | 0 => Wf.nil
  | n + 1 => by
    rw [List.replicate_succ, List.flatten_cons]
    exact h.append (Wf.replicate h n)

/-! ## The codes -/

/-- fixed width -/
def fixw (k : Nat) (bs : List Nat) : Option Nat := if k ≤ bs.length then some k else none

/-- US-ASCII -/
def asciiw : List Nat → Option Nat
  | [] => none
  | b :: _ => if b < 0x80 then some 1 else none

theorem fixw_code {k} (hk : 0 < k) : Code (fixw k) where
  pos bs n h := by
    unfold fixw at h
    split_ifs at h with h1
    cases h
    exact ⟨hk, h1⟩
  ext bs n h ys := by
    unfold fixw at h ⊢
    split_ifs at h with h1
    cases h
    rw [if_pos (by rw [List.length_append, List.length_take]; omega)]

theorem asciiw_code : Code asciiw where
  pos bs n h := by
    rcases bs with _ | ⟨b0, t⟩
    · simp [asciiw] at h
    · simp only [asciiw] at h
      split_ifs at h
      cases h
      simp
  ext bs n h ys := by
    rcases bs with _ | ⟨b0, t⟩
    · simp [asciiw] at h
    · simp only [asciiw] at h
      split_ifs at h with h1
      cases h
      simp [asciiw, h1]

theorem u8w_code : Code u8w where
  pos bs n h := by
    rcases bs with _ | ⟨b0, _ | ⟨b1, _ | ⟨b2, _ | ⟨b3, t⟩⟩⟩⟩ <;> simp only [u8w] at h <;>
      (try split_ifs at h) <;> cases h <;> simp
  ext bs n h ys := by
    rcases bs with _ | ⟨b0, _ | ⟨b1, _ | ⟨b2, _ | ⟨b3, t⟩⟩⟩⟩ <;> simp only [u8w] at h <;>
      (try split_ifs at h) <;> cases h <;> simp_all [u8w] <;>
      (split_ifs <;> first | rfl | (exfalso; omega))

theorem eucw_code : Code eucw where
  pos bs n h := by
    rcases bs with _ | ⟨b0, _ | ⟨b1, _ | ⟨b2, t⟩⟩⟩ <;> simp only [eucw] at h <;>
      (try split_ifs at h) <;> cases h <;> simp
  ext bs n h ys := by
    rcases bs with _ | ⟨b0, _ | ⟨b1, _ | ⟨b2, t⟩⟩⟩ <;> simp only [eucw] at h <;>
      (try split_ifs at h) <;> cases h <;> simp_all [eucw]

theorem sjisw_code : Code sjisw where
  pos bs n h := by
    rcases bs with _ | ⟨b0, _ | ⟨b1, t⟩⟩ <;> simp only [sjisw] at h <;>
      (try split_ifs at h) <;> cases h <;> simp
  ext bs n h ys := by
    rcases bs with _ | ⟨b0, _ | ⟨b1, t⟩⟩ <;> simp only [sjisw] at h <;>
      (try split_ifs at h) <;> cases h <;> simp_all [sjisw]

/-- the code behind an encoding (none is known for ISO-2022-JP) -/
def code : Enc → List Nat → Option Nat
  | .usAscii => asciiw
  | .utf8 => u8w
  | .ascii8 | .iso8859 _ | .other _ | .namedByte _ => fixw 1
  | .utf16le | .utf16be => fixw 2
  | .utf32le | .utf32be => fixw 4
  | .eucJp => eucw
  | .sjis _ => sjisw
  | .iso2022Jp => fun _ => none

theorem code_code : ∀ e, Code (code e) := by
  intro e
  cases e <;> simp only [code]
  case usAscii => exact asciiw_code
  case utf8 => exact u8w_code
  case eucJp => exact eucw_code
  case sjis => exact sjisw_code
  case iso2022Jp => exact ⟨by simp, by simp⟩
  all_goals exact fixw_code (by omega)

theorem wf_fixw {k} (hk : 0 < k) : ∀ bs, Wf (fixw k) bs ↔ bs.length % k = 0 := by
  intro bs
  constructor
  · intro h
    induction h with
    | nil => simp
    | cons c r h0 h1 _ ih =>
      unfold fixw at h1
      split_ifs at h1 with h2
      have : k = c.length := by simpa using h1
      rw [List.length_append, ← this, Nat.add_mod, ih]
      simp
  · generalize hn : bs.length = n
    induction n using Nat.strongRecOn generalizing bs with
    | _ n ih =>
      intro h
      by_cases h0 : bs = []
      · subst h0; exact Wf.nil
      · have hpos : 0 < bs.length := List.length_pos_iff.mpr h0
        have hle : k ≤ bs.length := by
          by_contra hc
          rw [Nat.mod_eq_of_lt (by omega)] at h
          omega
        refine Wf.step (fixw_code hk) (k := k) (by simp [fixw, hle]) (ih (n - k) (by omega) _ ?_ ?_)
        · rw [List.length_drop]; omega
        · have : n = (n - k) + k := by omega
          rw [this, Nat.add_mod_right] at h
          exact h

end Verif.Str
