import Verif.Json.Spec

/-
  Characters and their bytes.
-/
namespace Verif.Json

def Ascii (c : Char) : Prop := c.toNat < 128

theorem B_toNat {c : Char} (h : Ascii c) : (B c).toNat = c.toNat := by
  unfold B
  rw [UInt8.toNat_ofNat']
  exact Nat.mod_eq_of_lt (by unfold Ascii at h; omega)

theorem char_toNat_inj {c d : Char} (h : c.toNat = d.toNat) : c = d := Char.toNat_inj.mp h

theorem B_inj {c d : Char} (hc : Ascii c) (hd : Ascii d) : B c = B d ↔ c = d := by
  constructor
  · intro h
    apply char_toNat_inj
    rw [← B_toNat hc, ← B_toNat hd, h]
  · intro h; rw [h]

theorem encode_ascii {c : Char} (h : Ascii c) : String.utf8EncodeChar c = [B c] := by
  unfold Ascii at h
  have h' : c.val.toNat ≤ 0x7f := by
    have : c.toNat = c.val.toNat := rfl
    omega
  unfold String.utf8EncodeChar
  simp only [h', if_true]
  rfl

theorem utf8_nil : utf8 [] = [] := rfl

theorem utf8_append (a b : List Char) : utf8 (a ++ b) = utf8 a ++ utf8 b := by
  unfold utf8; simp

theorem utf8_cons (c : Char) (cs : List Char) : utf8 (c :: cs) = String.utf8EncodeChar c ++ utf8 cs := by
  unfold utf8; simp

theorem utf8_cons_ascii {c : Char} (h : Ascii c) (cs : List Char) : utf8 (c :: cs) = B c :: utf8 cs := by
  rw [utf8_cons, encode_ascii h]; rfl

theorem utf8_ascii {cs : List Char} (h : ∀ c ∈ cs, Ascii c) : utf8 cs = cs.map B := by
  induction cs with
  | nil => rfl
  | cons c cs ih =>
    rw [utf8_cons_ascii (h c (by simp)), ih fun d hd => h d (by simp [hd])]; rfl

theorem utf8_length (cs : List Char) : cs.length ≤ (utf8 cs).length := by
  induction cs with
  | nil => simp
  | cons c cs ih =>
    rw [utf8_cons, List.length_append, String.length_utf8EncodeChar]
    have := Char.utf8Size_pos c
    simp only [List.length_cons]; omega

theorem encode_high {c : Char} (h : ¬ Ascii c) :
    ∃ b r, String.utf8EncodeChar c = b :: r ∧ (0x80 : Byte) ≤ b := by
  unfold Ascii at h
  have h' : ¬ c.val.toNat ≤ 0x7f := by
    have : c.toNat = c.val.toNat := rfl
    omega
  unfold String.utf8EncodeChar
  simp only [h', if_false]
  split
  · refine ⟨_, _, rfl, ?_⟩
    rw [UInt8.le_iff_toNat_le]
    simp [Nat.toUInt8]; omega
  · split
    · refine ⟨_, _, rfl, ?_⟩
      rw [UInt8.le_iff_toNat_le]
      simp; omega
    · refine ⟨_, _, rfl, ?_⟩
      rw [UInt8.le_iff_toNat_le]
      simp; omega

theorem decode_encode (c : Char) (r : List Byte) : decode (String.utf8EncodeChar c ++ r) = some c := by
  unfold decode
  rw [List.toByteArray_append]
  exact ByteArray.utf8DecodeChar?_utf8EncodeChar_append

theorem ascii_of_dig {c : Char} (h : Dig c) : Ascii c := by unfold Dig at h; unfold Ascii; omega

theorem isDigit_B {c : Char} (h : Ascii c) : isDigit (B c) = true ↔ Dig c := by
  unfold isDigit Dig
  rw [Bool.and_eq_true, decide_eq_true_iff, decide_eq_true_iff, UInt8.le_iff_toNat_le,
    UInt8.le_iff_toNat_le, B_toNat h]
  rfl

/-- bytes below 0x80 come from characters -/
theorem utf8_head_low {t : List Char} {b : Byte} {r : List Byte} (h : utf8 t = b :: r) (hb : b < 0x80) :
    ∃ c cs, t = c :: cs ∧ Ascii c ∧ b = B c ∧ r = utf8 cs := by
  cases t with
  | nil => exact absurd h (by simp [utf8])
  | cons c cs =>
    by_cases hc : Ascii c
    · rw [utf8_cons_ascii hc] at h
      injection h with h1 h2
      exact ⟨c, cs, rfl, hc, h1.symm, h2.symm⟩
    · obtain ⟨b', r', he, hb'⟩ := encode_high hc
      rw [utf8_cons, he] at h
      injection h with h1 h2
      rw [h1, UInt8.le_iff_toNat_le] at hb'
      rw [UInt8.lt_iff_toNat_lt] at hb
      omega

end Verif.Json
