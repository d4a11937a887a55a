import Verif.Records.Model

namespace Verif.Records

open Verif.IoBuf

/-- `s` ends at offset `k` of `c`. -/
def Ends (s c : List Byte) (k : Nat) : Prop := k ≤ c.length ∧ s <:+ c.take k

/-- `e` is where the first `s` in `c` ends, or the end of `c`. -/
def First (s c : List Byte) (e : Nat) : Prop :=
  (Ends s c e ∧ ∀ k < e, ¬ Ends s c k) ∨ (e = c.length ∧ ∀ k, ¬ Ends s c k)

theorem First.le {s c : List Byte} {e : Nat} (h : First s c e) : e ≤ c.length := by
  rcases h with h | h
  · exact h.1.1
  · exact Nat.le_of_eq h.1

theorem ends_iff (s c : List Byte) (k : Nat) :
    Ends s c k ↔ ∃ u v, c = u ++ s ++ v ∧ k = u.length + s.length := by
  constructor
  · rintro ⟨hk, u, hu⟩
    refine ⟨u, c.drop k, ?_, ?_⟩
    · rw [hu, List.take_append_drop]
    · have := congrArg List.length hu
      rw [List.length_append, List.length_take, Nat.min_eq_left hk] at this
      exact this.symm
  · rintro ⟨u, v, rfl, rfl⟩
    refine ⟨by simp, u, ?_⟩
    rw [List.take_left' (by simp)]

theorem position_some {s : List Byte} : ∀ {c : List Byte} {p : Nat}, position s c = some p →
    (∃ v, c.drop p = s ++ v) ∧ p ≤ c.length ∧ ∀ q < p, ¬ ∃ v, c.drop q = s ++ v := by
  intro c
  induction c with
  | nil => intro p h; cases h
  | cons b t ih =>
    intro p h
    unfold position at h
    split at h
    · next hp =>
      cases h
      obtain ⟨v, hv⟩ := List.isPrefixOf_iff_prefix.mp hp
      exact ⟨⟨v, hv.symm⟩, Nat.zero_le _, fun q hq => absurd hq (Nat.not_lt_zero _)⟩
    · next hp =>
      cases e : position s t with
      | none => rw [e] at h; cases h
      | some q =>
        rw [e] at h
        cases h
        obtain ⟨h1, h2, h3⟩ := ih e
        refine ⟨h1, Nat.succ_le_succ h2, fun r hr => ?_⟩
        cases r with
        | zero =>
          rintro ⟨v, hv⟩
          exact hp (List.isPrefixOf_iff_prefix.mpr ⟨v, hv.symm⟩)
        | succ r => exact h3 r (Nat.lt_of_succ_lt_succ hr)

theorem position_none {s : List Byte} (hs : s ≠ []) : ∀ {c : List Byte}, position s c = none →
    ∀ q, ¬ ∃ v, c.drop q = s ++ v := by
  intro c
  induction c with
  | nil =>
    rintro - q ⟨v, hv⟩
    rw [List.drop_nil] at hv
    exact hs (List.append_eq_nil_iff.mp hv.symm).1
  | cons b t ih =>
    intro h q
    unfold position at h
    split at h
    · cases h
    · next hp =>
      cases e : position s t with
      | some q => rw [e] at h; cases h
      | none =>
        cases q with
        | zero =>
          rintro ⟨v, hv⟩
          exact hp (List.isPrefixOf_iff_prefix.mpr ⟨v, hv.symm⟩)
        | succ q => exact ih e q

theorem recordEnd_first {s : List Byte} (hs : s ≠ []) (c : List Byte) : First s c (recordEnd s c) := by
  unfold recordEnd
  cases e : position s c with
  | some p =>
    left
    obtain ⟨⟨v, hv⟩, h2, h3⟩ := position_some e
    constructor
    · rw [ends_iff]
      refine ⟨c.take p, v, ?_, ?_⟩
      · rw [List.append_assoc, ← hv, List.take_append_drop]
      · rw [List.length_take, Nat.min_eq_left h2]
    · intro k hk hE
      rw [ends_iff] at hE
      obtain ⟨u, w, hc, hl⟩ := hE
      refine h3 u.length ?_ ⟨w, ?_⟩
      · simp only at hk
        omega
      · rw [hc, List.append_assoc, List.drop_left]
  | none =>
    right
    refine ⟨rfl, fun k hE => ?_⟩
    rw [ends_iff] at hE
    obtain ⟨u, w, hc, hl⟩ := hE
    refine position_none hs e u.length ⟨w, ?_⟩
    rw [hc, List.append_assoc, List.drop_left]

theorem first_pos {s : List Byte} (hs : s ≠ []) {c : List Byte} (hc : c ≠ []) {e : Nat}
    (h : First s c e) : 0 < e := by
  rcases h with ⟨h, -⟩ | ⟨h, -⟩
  · rw [ends_iff] at h
    obtain ⟨u, v, -, he⟩ := h
    have := List.length_pos_iff.mpr hs
    omega
  · rw [h]
    exact List.length_pos_iff.mpr hc

theorem capEnd_le (limit : Option Nat) (e : Nat) : capEnd limit e ≤ e := by
  unfold capEnd
  cases limit with
  | none => exact Nat.le_refl _
  | some l => simp only; split <;> omega

theorem capEnd_pos {limit : Option Nat} (hl : limit ≠ some 0) {e : Nat} (he : 0 < e) :
    0 < capEnd limit e := by
  unfold capEnd
  cases limit with
  | none => exact he
  | some l =>
    have : l ≠ 0 := fun h => hl (by rw [h])
    simp only
    split <;> omega

/-- Scanning byte by byte stops where the record ends. -/
theorem sepSpec_eq {s : List Byte} {limit : Option Nat} {complete : Bool}
    (hlc : limit = none ∨ complete = false) {c : List Byte} {e : Nat} (hf : First s c e) :
    ∀ (rest buf : List Byte), c = buf ++ rest → (∀ k ≤ buf.length, ¬ Ends s c k ∨ k = 0) →
      (∀ l, limit = some l → buf.length ≤ l) → buf.length ≤ e → 0 < e ∨ c = [] →
      sepSpec s limit complete buf rest = (c.take (capEnd limit e), c.drop (capEnd limit e)) := by
  intro rest
  induction rest with
  | nil =>
    intro buf hc _ hl hb _
    rw [List.append_nil] at hc
    subst hc
    have he : e = c.length := Nat.le_antisymm hf.le hb
    have hcap : capEnd limit e = c.length := by
      unfold capEnd
      cases limit with
      | none => exact he
      | some l =>
        have := hl l rfl
        simp only
        split <;> omega
    rw [hcap, List.take_length, List.drop_length]
    unfold sepSpec
    split
    · next h =>
      rcases hlc with rfl | rfl
      · simp at h
      · simp [limitSpec]
    · rfl
  | cons b r ih =>
    intro buf hc hE hl hb hpos
    have hlen : c.length = buf.length + (r.length + 1) := by rw [hc]; simp
    have htake : c.take (buf.length + 1) = buf ++ [b] := by
      rw [hc, show buf ++ b :: r = (buf ++ [b]) ++ r by simp, List.take_left' (by simp)]
    have hdrop : c.drop (buf.length + 1) = r := by
      rw [hc, show buf ++ b :: r = (buf ++ [b]) ++ r by simp, List.drop_left' (by simp)]
    unfold sepSpec
    split
    · next h =>
      rcases hlc with rfl | rfl
      · simp at h
      · cases limit with
        | none => simp at h
        | some l =>
          simp only [Option.any_some, decide_eq_true_eq] at h
          have h1 := hl l rfl
          have hbl : buf.length = l := by omega
          have hcap : capEnd (some l) e = buf.length := by
            unfold capEnd
            simp only
            split <;> omega
          rw [hcap, hc, List.take_left, List.drop_left]
          simp [limitSpec]
    · next h =>
      have hl' : ∀ l, limit = some l → buf.length + 1 ≤ l := by
        intro l hll
        subst hll
        simp only [Option.any_some, decide_eq_true_eq] at h
        omega
      split
      · next hs =>
        have hEn : Ends s c (buf.length + 1) := by
          refine ⟨by omega, ?_⟩
          rw [htake]
          exact List.isSuffixOf_iff_suffix.mp hs
        have he : e = buf.length + 1 := by
          rcases hf with ⟨h1, h2⟩ | ⟨h1, h2⟩
          · have h3 : ¬ (buf.length + 1 < e) := fun hlt => h2 _ hlt hEn
            rcases Nat.lt_or_ge e (buf.length + 1) with h4 | h4
            · rcases hE e (by omega) with h5 | h5
              · exact absurd h1 h5
              · rcases hpos with h6 | h6
                · omega
                · rw [h6] at hlen; simp at hlen
            · omega
          · exact absurd hEn (h2 _)
        have hcap : capEnd limit e = buf.length + 1 := by
          unfold capEnd
          cases limit with
          | none => exact he
          | some l =>
            have := hl' l rfl
            simp only
            split <;> omega
        rw [hcap, htake, hdrop]
      · next hs =>
        have hnE : ¬ Ends s c (buf.length + 1) := by
          rintro ⟨-, h2⟩
          rw [htake] at h2
          exact hs (List.isSuffixOf_iff_suffix.mpr h2)
        refine ih (buf ++ [b]) (by rw [hc]; simp) ?_ ?_ ?_ hpos
        · intro k hk
          rw [List.length_append, List.length_singleton] at hk
          rcases Nat.lt_or_ge buf.length k with h1 | h1
          · have : k = buf.length + 1 := by omega
            rw [this]
            exact Or.inl hnE
          · exact hE k h1
        · intro l hll
          rw [List.length_append, List.length_singleton]
          exact hl' l hll
        · rw [List.length_append, List.length_singleton]
          rcases Nat.lt_or_ge buf.length e with h1 | h1
          · exact h1
          · have h2 : e = buf.length := by omega
            rcases hf with ⟨h3, h4⟩ | ⟨h3, h4⟩
            · rcases hE e (by omega) with h5 | h5
              · exact absurd h3 h5
              · rcases hpos with h6 | h6
                · omega
                · rw [h6] at hlen; simp at hlen
            · omega

/-- The same for a paragraph; the flag tells that a blank line ended it. -/
theorem paraSpec_eq {complete : Bool} {c : List Byte} {e : Nat} (hf : First [nl, nl] c e) :
    ∀ (rest buf : List Byte), c = buf ++ rest → (∀ k ≤ buf.length, ¬ Ends [nl, nl] c k) →
      buf.length ≤ e →
      (paraSpec none complete buf rest).1 = c.take e ∧
      (paraSpec none complete buf rest).2.2 = c.drop e := by
  intro rest
  induction rest with
  | nil =>
    intro buf hc _ hb
    rw [List.append_nil] at hc
    subst hc
    have he : e = c.length := Nat.le_antisymm hf.le hb
    rw [he, List.take_length, List.drop_length]
    unfold paraSpec
    simp
  | cons b r ih =>
    intro buf hc hE hb
    have hlen : c.length = buf.length + (r.length + 1) := by rw [hc]; simp
    have htake : c.take (buf.length + 1) = buf ++ [b] := by
      rw [hc, show buf ++ b :: r = (buf ++ [b]) ++ r by simp, List.take_left' (by simp)]
    have hdrop : c.drop (buf.length + 1) = r := by
      rw [hc, show buf ++ b :: r = (buf ++ [b]) ++ r by simp, List.drop_left' (by simp)]
    unfold paraSpec
    rw [if_neg (by simp)]
    split
    · next hs =>
      have hEn : Ends [nl, nl] c (buf.length + 1) := by
        refine ⟨by omega, ?_⟩
        rw [htake]
        exact List.isSuffixOf_iff_suffix.mp hs
      have he : e = buf.length + 1 := by
        rcases hf with ⟨h1, h2⟩ | ⟨h1, h2⟩
        · have h3 : ¬ (buf.length + 1 < e) := fun hlt => h2 _ hlt hEn
          rcases Nat.lt_or_ge e (buf.length + 1) with h4 | h4
          · exact absurd h1 (hE e (by omega))
          · omega
        · exact absurd hEn (h2 _)
      rw [he, htake, hdrop]
      exact ⟨rfl, rfl⟩
    · next hs =>
      have hnE : ¬ Ends [nl, nl] c (buf.length + 1) := by
        rintro ⟨-, h2⟩
        rw [htake] at h2
        exact hs (List.isSuffixOf_iff_suffix.mpr h2)
      refine ih (buf ++ [b]) (by rw [hc]; simp) ?_ ?_
      · intro k hk
        rw [List.length_append, List.length_singleton] at hk
        rcases Nat.lt_or_ge buf.length k with h1 | h1
        · have : k = buf.length + 1 := by omega
          rw [this]
          exact hnE
        · exact hE k h1
      · rw [List.length_append, List.length_singleton]
        rcases Nat.lt_or_ge buf.length e with h1 | h1
        · exact h1
        · have h2 : e = buf.length := by omega
          rcases hf with ⟨h3, h4⟩ | ⟨h3, h4⟩
          · exact absurd h3 (hE e (by omega))
          · omega

end Verif.Records
