import Mathlib.Data.Char
import Mathlib.Data.List.Basic
import Verif.Fnmatch.Spec

/-!
# The matcher of one segment
-/

namespace Verif.Fnmatch

/-! ## Atoms -/

theorem atoms_esc (d : Char) (rest : List Char) :
    atoms false ('\\' :: d :: rest) = (d, true) :: atoms false rest := rfl

theorem atoms_plain {ne : Bool} {c : Char} {rest : List Char}
    (h : ¬ (c = '\\' ∧ ne = false ∧ rest ≠ [])) :
    atoms ne (c :: rest) = (c, false) :: atoms ne rest := by
  cases rest with
  | nil => simp [atoms]
  | cons d rest =>
    by_cases hc : c = '\\'
    · subst hc
      cases ne
      · exact absurd ⟨rfl, rfl, by simp⟩ h
      · rfl
    · rw [atoms]
      simp [hc]

theorem readChar_spec (ne : Bool) (p : Char) (rest : List Char) (hp : p ≠ ']') :
    ∃ c e rest', readChar ne (p :: rest) = some (c, rest') ∧
      atoms ne (p :: rest) = (c, e) :: atoms ne rest' ∧ (c, e) ≠ (']', false) ∧
      rest'.length ≤ rest.length := by
  by_cases hc : p = '\\' ∧ ne = false
  · obtain ⟨rfl, rfl⟩ := hc
    cases rest with
    | nil => exact ⟨'\\', false, [], by simp [readChar], by simp [atoms], by simp, by simp⟩
    | cons d rest => exact ⟨d, true, rest, by simp [readChar], atoms_esc d rest, by simp, by simp⟩
  · refine ⟨p, false, rest, ?_, ?_, by simpa using hp, Nat.le_refl _⟩
    · unfold readChar
      dsimp only
      rw [if_neg hp, if_neg hc]
    · exact atoms_plain fun h => hc ⟨h.1, h.2.1⟩

theorem ranges_close (rest : List Atom) : ranges ((']', false) :: rest) = some ([], rest) := by
  cases rest <;> rfl

theorem ranges_range {lo hi : Atom} {rest : List Atom} (h : lo ≠ (']', false))
    (hh : hi ≠ (']', false)) : ranges (lo :: ('-', false) :: hi :: rest) =
      (ranges rest).map fun r => ((lo.1, hi.1) :: r.1, r.2) := by
  rw [ranges]
  · rw [if_neg hh]
  · intro h'; exact h h'

theorem ranges_single {lo : Atom} {rest : List Atom} (h : lo ≠ (']', false))
    (hr : ∀ hi rest', rest = ('-', false) :: hi :: rest' → hi = (']', false)) :
    ranges (lo :: rest) = (ranges rest).map fun r => ((lo.1, lo.1) :: r.1, r.2) := by
  match rest, hr with
  | [], _ =>
    conv_lhs => rw [ranges.eq_def]
    split <;> simp_all
  | [a], _ =>
    conv_lhs => rw [ranges.eq_def]
    split <;> simp_all
  | a :: hi :: rest', hr =>
    by_cases ha : a = ('-', false)
    · subst ha
      have := hr hi rest' rfl
      subst this
      rw [ranges, if_pos rfl]
      · have : ranges (('-', false) :: (']', false) :: rest') = some ([('-', '-')], rest') := by
          rw [ranges]
          · rw [ranges_close]; rfl
          · intro h; simp at h
          · intro a b h; simp at h
        rw [this]; rfl
      · intro h'; exact h h'
    · rw [ranges]
      · intro h'; exact h h'
      · intro b c hbc
        simp at hbc
        exact ha hbc.1

/-- One range, as the code tests it. -/
def inR (lower : Char → Char) (casefold : Bool) (c : Char) (r : Char × Char) : Bool :=
  decide (fold lower casefold r.1 ≤ c) && decide (c ≤ fold lower casefold r.2)

theorem inR_self (lower : Char → Char) (casefold : Bool) (c lo : Char) :
    (fold lower casefold lo == c) = inR lower casefold c (lo, lo) := by
  unfold inR
  rw [Bool.eq_iff_iff]
  simp only [beq_iff_eq, Bool.and_eq_true, decide_eq_true_eq]
  exact ⟨fun h => h ▸ ⟨Char.le_refl _, Char.le_refl _⟩, fun h => Char.le_antisymm h.1 h.2⟩

theorem bracketLoop_spec (lower : Char → Char) (ne cf neg : Bool) (c : Char) (fuel : Nat) (m : Bool)
    (pat : List Char) (hf : pat.length < fuel) :
    (ranges (atoms ne pat) = none → bracketLoop lower ne cf neg c fuel m pat = none) ∧
    ∀ rs as, ranges (atoms ne pat) = some (rs, as) →
      ∃ rest, bracketLoop lower ne cf neg c fuel m pat =
          some (xor (m || rs.any (inR lower cf c)) neg, rest) ∧
        atoms ne rest = as ∧ rest.length < pat.length := by
  induction fuel generalizing m pat with
  | zero => omega
  | succ fuel ih =>
    unfold bracketLoop
    cases pat with
    | nil => simp [atoms, ranges]
    | cons p rest =>
      dsimp only
      by_cases hp : p = ']'
      · subst hp
        rw [if_pos rfl, atoms_plain (by simp), ranges_close]
        refine ⟨by simp, ?_⟩
        intro rs as h
        simp only [Option.some.injEq, Prod.mk.injEq] at h
        obtain ⟨rfl, rfl⟩ := h
        exact ⟨rest, by simp, rfl, by simp⟩
      · rw [if_neg hp]
        obtain ⟨lo, e, pat1, h1, h2, h3, h4⟩ := readChar_spec ne p rest hp
        rw [h1, h2]
        dsimp only
        have single : ranges ((lo, e) :: atoms ne pat1) =
            (ranges (atoms ne pat1)).map (fun r => ((lo, lo) :: r.1, r.2)) →
            (ranges ((lo, e) :: atoms ne pat1) = none →
              bracketLoop lower ne cf neg c fuel (m || fold lower cf lo == c) pat1 = none) ∧
            ∀ rs as, ranges ((lo, e) :: atoms ne pat1) = some (rs, as) →
              ∃ rest', bracketLoop lower ne cf neg c fuel (m || fold lower cf lo == c) pat1 =
                  some (xor (m || rs.any (inR lower cf c)) neg, rest') ∧
                atoms ne rest' = as ∧ rest'.length < (p :: rest).length := by
          intro hr
          have hih := ih (m || fold lower cf lo == c) pat1 (by simp at hf; omega)
          rw [hr]
          constructor
          · intro h
            rw [Option.map_eq_none_iff] at h
            exact hih.1 h
          · intro rs as h
            obtain ⟨⟨rs', as'⟩, hr', he⟩ := Option.map_eq_some_iff.1 h
            simp only [Prod.mk.injEq] at he
            obtain ⟨rfl, rfl⟩ := he
            obtain ⟨rest', g1, g2, g3⟩ := hih.2 rs' as' hr'
            refine ⟨rest', ?_, g2, by simp; omega⟩
            rw [g1, inR_self]
            simp [Bool.or_assoc]
        split
        · rename_i n pat2
          by_cases hn : n ≠ ']'
          · rw [if_pos hn]
            obtain ⟨hi, e', pat3, k1, k2, k3, k4⟩ := readChar_spec ne n pat2 hn
            rw [k1, atoms_plain (c := '-') (by simp), k2, ranges_range h3 k3]
            dsimp only
            have hih := ih (m || (decide (fold lower cf lo ≤ c) && decide (c ≤ fold lower cf hi)))
              pat3 (by simp at h4 hf; omega)
            constructor
            · intro h
              rw [Option.map_eq_none_iff] at h
              exact hih.1 h
            · intro rs as h
              obtain ⟨⟨rs', as'⟩, hr', he⟩ := Option.map_eq_some_iff.1 h
              simp only [Prod.mk.injEq] at he
              obtain ⟨rfl, rfl⟩ := he
              obtain ⟨rest', g1, g2, g3⟩ := hih.2 rs' as' hr'
              refine ⟨rest', ?_, g2, by simp at h4 ⊢; omega⟩
              rw [g1]
              simp [inR, Bool.or_assoc]
          · rw [if_neg hn]
            have hn : n = ']' := by simpa using hn
            subst hn
            refine single (ranges_single h3 ?_)
            intro hi rest' h
            rw [atoms_plain (by simp), atoms_plain (by simp)] at h
            simp at h
            exact h.1.symm
        · rename_i hno
          refine single (ranges_single h3 ?_)
          intro hi rest' h
          exfalso
          cases pat1 with
          | nil => simp [atoms] at h
          | cons a pat2 =>
            by_cases ha : a = '-'
            · subst ha
              cases pat2 with
              | nil => simp [atoms] at h
              | cons n pat2 => exact hno n pat2 rfl
            · by_cases hb : a = '\\' ∧ ne = false ∧ pat2 ≠ []
              · obtain ⟨rfl, rfl, hne⟩ := hb
                obtain ⟨d, pat3, rfl⟩ := List.exists_cons_of_ne_nil hne
                rw [atoms_esc] at h
                simp at h
              · rw [atoms_plain hb] at h
                simp at h
                exact ha h.1

theorem matchBracket_spec (lower : Char → Char) (ne cf : Bool) (c : Char) (pat : List Char) :
    (bracket (atoms ne pat) = none → matchBracket lower ne cf pat c = none) ∧
    ∀ neg rs as, bracket (atoms ne pat) = some (neg, rs, as) →
      ∃ rest, matchBracket lower ne cf pat c =
          some (xor (rs.any (inR lower cf (fold lower cf c))) neg, rest) ∧
        atoms ne rest = as ∧ rest.length ≤ pat.length := by
  have negated : ∀ x rest, x = '!' ∨ x = '^' → pat = x :: rest →
      ((ranges (atoms ne rest)).map fun r => (true, r.1, r.2)) = bracket (atoms ne pat) ∧
      matchBracket lower ne cf pat c =
        bracketLoop lower ne cf true (fold lower cf c) pat.length false rest := by
    rintro x rest (rfl | rfl) rfl
    · rw [atoms_plain (by simp)]; exact ⟨rfl, rfl⟩
    · rw [atoms_plain (by simp)]; exact ⟨rfl, rfl⟩
  have finish : ∀ (neg0 : Bool) rest fuel, rest.length < fuel → rest.length ≤ pat.length →
      bracket (atoms ne pat) = ((ranges (atoms ne rest)).map fun r => (neg0, r.1, r.2)) →
      matchBracket lower ne cf pat c =
        bracketLoop lower ne cf neg0 (fold lower cf c) fuel false rest →
      (bracket (atoms ne pat) = none → matchBracket lower ne cf pat c = none) ∧
      ∀ neg rs as, bracket (atoms ne pat) = some (neg, rs, as) →
        ∃ rest, matchBracket lower ne cf pat c =
            some (xor (rs.any (inR lower cf (fold lower cf c))) neg, rest) ∧
          atoms ne rest = as ∧ rest.length ≤ pat.length := by
    intro neg0 rest fuel hf hl h1 h2
    have hs := bracketLoop_spec lower ne cf neg0 (fold lower cf c) fuel false rest hf
    rw [h1, h2]
    constructor
    · intro h
      rw [Option.map_eq_none_iff] at h
      exact hs.1 h
    · intro neg rs as h
      obtain ⟨⟨rs', as'⟩, hr', he⟩ := Option.map_eq_some_iff.1 h
      simp only [Prod.mk.injEq] at he
      obtain ⟨rfl, rfl, rfl⟩ := he
      obtain ⟨rest', g1, g2, g3⟩ := hs.2 rs' as' hr'
      exact ⟨rest', by simpa using g1, g2, by omega⟩
  by_cases hx : ∃ x rest, (x = '!' ∨ x = '^') ∧ pat = x :: rest
  · obtain ⟨x, rest, hx, hp⟩ := hx
    obtain ⟨h1, h2⟩ := negated x rest hx hp
    exact finish true rest pat.length (by simp [hp]) (by simp [hp]) h1.symm h2
  · refine finish false pat (pat.length + 1) (by omega) (Nat.le_refl _) ?_ ?_
    · unfold bracket
      split
      · rename_i rest heq
        exfalso
        cases pat with
        | nil => simp [atoms] at heq
        | cons a pat =>
          by_cases hb : a = '\\' ∧ ne = false ∧ pat ≠ []
          · obtain ⟨rfl, rfl, hne⟩ := hb
            obtain ⟨d, pat3, rfl⟩ := List.exists_cons_of_ne_nil hne
            rw [atoms_esc] at heq
            simp at heq
          · rw [atoms_plain hb] at heq
            simp at heq
            exact hx ⟨a, pat, Or.inl heq.1, rfl⟩
      · rename_i rest heq
        exfalso
        cases pat with
        | nil => simp [atoms] at heq
        | cons a pat =>
          by_cases hb : a = '\\' ∧ ne = false ∧ pat ≠ []
          · obtain ⟨rfl, rfl, hne⟩ := hb
            obtain ⟨d, pat3, rfl⟩ := List.exists_cons_of_ne_nil hne
            rw [atoms_esc] at heq
            simp at heq
          · rw [atoms_plain hb] at heq
            simp at heq
            exact hx ⟨a, pat, Or.inr heq.1, rfl⟩
      · rfl
    · unfold matchBracket
      split
      · exact absurd ⟨_, _, Or.inl rfl, rfl⟩ hx
      · exact absurd ⟨_, _, Or.inr rfl, rfl⟩ hx
      · rfl

end Verif.Fnmatch
