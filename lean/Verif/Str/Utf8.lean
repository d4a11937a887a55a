import Verif.Str.Steps

/-! # UTF-8 against Unicode scalar values -/

namespace Verif.Str

theorem encode_one {c : Nat} (h : scalar c = true) :
    encode c ≠ [] ∧ u8w (encode c) = some (encode c).length := by
  simp only [scalar, Bool.or_eq_true, decide_eq_true_eq, Bool.and_eq_true] at h
  unfold encode
  split_ifs with h1 h2 h3
  · simp [u8w, h1]
  · refine ⟨by simp, ?_⟩
    simp only [u8w, List.length_cons, List.length_nil]
    rw [if_neg (by omega), if_pos (by omega), if_pos (by simp [cont]; omega)]
  · refine ⟨by simp, ?_⟩
    simp only [u8w, List.length_cons, List.length_nil]
    rw [if_neg (by omega), if_neg (by omega), if_pos (by omega), if_pos]
    simp only [ok3, cont, Bool.and_eq_true, decide_eq_true_eq]
    refine ⟨?_, by omega⟩
    split_ifs <;> simp only [Bool.and_eq_true, decide_eq_true_eq] <;> omega
  · refine ⟨by simp, ?_⟩
    simp only [u8w, List.length_cons, List.length_nil]
    rw [if_neg (by omega), if_neg (by omega), if_neg (by omega), if_pos (by omega), if_pos]
    simp only [ok4, cont, Bool.and_eq_true, decide_eq_true_eq]
    refine ⟨⟨?_, by omega⟩, by omega⟩
    split_ifs <;> simp only [Bool.and_eq_true, decide_eq_true_eq] <;> omega

theorem one_encode {c : List Nat} (h : u8w c = some c.length) :
    ∃ p, scalar p = true ∧ c = encode p := by
  rcases c with _ | ⟨b0, _ | ⟨b1, _ | ⟨b2, _ | ⟨b3, _ | ⟨b4, t⟩⟩⟩⟩⟩ <;> simp only [u8w] at h <;>
    (try split_ifs at h) <;> simp only [List.length_cons, List.length_nil, Option.some.injEq, reduceCtorEq] at h <;>
    (try omega)
  · rename_i h1
    exact ⟨b0, by simp [scalar]; omega, by simp [encode, h1]⟩
  · rename_i h1 h2 h3
    simp only [cont, Bool.and_eq_true, decide_eq_true_eq] at h3
    refine ⟨(b0 - 0xC0) * 64 + (b1 - 0x80), by simp [scalar]; omega, ?_⟩
    unfold encode
    rw [if_neg (by omega), if_pos (by omega)]
    simp only [List.cons.injEq, and_true]
    omega
  · rename_i h1 h2 h3 h4
    simp only [ok3, cont, Bool.and_eq_true, decide_eq_true_eq] at h4
    have hb : (b0 = 0xE0 → 0xA0 ≤ b1) ∧ (b0 = 0xED → b1 < 0xA0) ∧ 0x80 ≤ b1 ∧ b1 < 0xC0 := by
      obtain ⟨h4, _⟩ := h4
      split_ifs at h4 <;> simp only [Bool.and_eq_true, decide_eq_true_eq] at h4 <;> omega
    refine ⟨(b0 - 0xE0) * 4096 + (b1 - 0x80) * 64 + (b2 - 0x80), ?_, ?_⟩
    · simp only [scalar, Bool.or_eq_true, decide_eq_true_eq, Bool.and_eq_true]; omega
    unfold encode
    rw [if_neg (by omega), if_neg (by omega), if_pos (by omega)]
    simp only [List.cons.injEq, and_true]
    omega
  · rename_i h1 h2 h3 h4 h5
    simp only [ok4, cont, Bool.and_eq_true, decide_eq_true_eq] at h5
    have hb : (b0 = 0xF0 → 0x90 ≤ b1) ∧ (b0 = 0xF4 → b1 < 0x90) ∧ 0x80 ≤ b1 ∧ b1 < 0xC0 := by
      obtain ⟨⟨h5, _⟩, _⟩ := h5
      split_ifs at h5 <;> simp only [Bool.and_eq_true, decide_eq_true_eq] at h5 <;> omega
    refine ⟨(b0 - 0xF0) * 262144 + (b1 - 0x80) * 4096 + (b2 - 0x80) * 64 + (b3 - 0x80), ?_, ?_⟩
    · simp only [scalar, Bool.or_eq_true, decide_eq_true_eq, Bool.and_eq_true]; omega
    unfold encode
    rw [if_neg (by omega), if_neg (by omega), if_neg (by omega)]
    simp only [List.cons.injEq, and_true]
    omega

theorem wf_u8 (bs : List Nat) :
    Wf u8w bs ↔ ∃ cs : List Nat, (∀ c ∈ cs, scalar c = true) ∧ bs = (cs.map encode).flatten := by
  constructor
  · intro h
    induction h with
    | nil => exact ⟨[], by simp, rfl⟩
    | cons c r h0 h1 _ ih =>
      obtain ⟨cs, hc, hr⟩ := ih
      obtain ⟨p, hp, he⟩ := one_encode h1
      refine ⟨p :: cs, ?_, by rw [he, hr]; simp⟩
      intro x hx
      rcases List.mem_cons.mp hx with rfl | hx
      exacts [hp, hc x hx]
  · rintro ⟨cs, hc, rfl⟩
    refine Wf.ofChars (fun c hm => ?_)
    obtain ⟨p, hp, rfl⟩ := List.mem_map.mp hm
    exact encode_one (hc p hp)

end Verif.Str
