import Verif.Pack.Model

/-!
# Range checks of the pack model (no Mathlib: integer powers are the core ones)
-/

namespace Verif.Pack

theorem coerceI64_ok {i : Int} (h : -(2 ^ 63) ≤ i ∧ i < 2 ^ 63) : coerceI64 i = .ok i := by
  unfold coerceI64; rw [if_pos h]

theorem packUtf8_int {i : Int} (h : coerceI64 i = .ok i) (h2 : ¬ i < 0) (h3 : ¬ (2 : Int) ^ 32 ≤ i) :
    packUtf8 (.int i) = .ok (utf8Encode i.toNat) := by
  unfold packUtf8
  dsimp only
  rw [h]
  dsimp only
  rw [if_neg h2, if_neg h3]

theorem packUtf8_ok {c : Nat} (h : c < 2 ^ 32) : packUtf8 (.int c) = .ok (utf8Encode c) :=
  packUtf8_int (coerceI64_ok (by constructor <;> omega)) (by omega) (by omega)

theorem packOut_utf8_one {v : PV} {bs : List Nat} (h : packUtf8 v = .ok bs) :
    packOut ⟨.utf8, false, some 1, false⟩ [v] = .ok (bs, []) := by
  simp only [packOut, each, eachN, h, List.append_nil]

end Verif.Pack
