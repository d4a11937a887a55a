import Verif.Text.PieceModel
import Verif.Text.SearchProps
import Mathlib.Tactic.SplitIfs
import Mathlib.Tactic.Linarith

/-! Lemmas about `split`, `lines`, `chomp` and `strip`. -/

namespace Verif.Text

theorem findSub_some {n s : List Nat} {k : Nat} (h : findSub n s = some k) :
    n <+: s.drop k ∧ (∀ j, j < k → ¬ n <+: s.drop j) ∧ s = s.take k ++ n ++ s.drop (k + n.length) := by
  obtain ⟨_, _, h3, h4⟩ := findUp_some h
  have hp := List.isPrefixOf_iff_prefix.1 h3
  refine ⟨hp, fun j hj hn => ?_, ?_⟩
  · have := h4 j (Nat.zero_le _) hj
    rw [List.isPrefixOf_iff_prefix.2 hn] at this
    cases this
  · obtain ⟨r, hr⟩ := hp
    have e : s.drop (k + n.length) = r := by
      rw [← List.drop_drop, ← hr]; simp
    rw [e, List.append_assoc, hr, List.take_append_drop]

theorem findSub_none {n s : List Nat} (h : findSub n s = none) : ∀ j, ¬ n <+: s.drop j := by
  intro j hp
  by_cases hj : j ≤ s.length
  · have := findUp_none h j (Nat.zero_le _) (by omega)
    rw [List.isPrefixOf_iff_prefix.2 hp] at this
    cases this
  · rw [List.drop_eq_nil_of_le (by omega)] at hp
    have := List.prefix_nil.1 hp
    subst this
    have := findUp_none h s.length (Nat.zero_le _) (by omega)
    simp at this

/-- the first place of the separator in `f ++ sep` is the end of `f` -/
def Clean (sep f : List Nat) : Prop := ∀ j, j < f.length → ¬ sep <+: (f ++ sep).drop j

theorem clean_take {n s : List Nat} {k : Nat} (h : findSub n s = some k) : Clean n (s.take k) := by
  obtain ⟨_, h2, h3⟩ := findSub_some h
  intro j hj hp
  have hjk : j < k := by rw [List.length_take] at hj; omega
  apply h2 j hjk
  rw [h3, List.drop_append_of_le_length (by rw [List.length_append]; omega)]
  exact hp.trans (List.prefix_append _ _)

theorem intercalate_cons2 (sep x y : List Nat) (l : List (List Nat)) :
    List.intercalate sep (x :: y :: l) = x ++ sep ++ List.intercalate sep (y :: l) := by
  simp [List.intercalate, List.intersperse]

theorem intercalate_one (sep x : List Nat) : List.intercalate sep [x] = x := by
  simp [List.intercalate]

theorem intercalate_cons_ne (sep x : List Nat) (l : List (List Nat)) (h : l ≠ []) :
    List.intercalate sep (x :: l) = x ++ sep ++ List.intercalate sep l := by
  cases l with
  | nil => exact absurd rfl h
  | cons y l => exact intercalate_cons2 sep x y l

theorem strLoop_spec (sep : List Nat) (hs : sep ≠ []) (lim : Int) : ∀ fuel i rest,
    rest.length < fuel →
      List.intercalate sep ((strLoop sep lim fuel i rest).1 ++ [(strLoop sep lim fuel i rest).2]) = rest ∧
      (∀ f ∈ (strLoop sep lim fuel i rest).1, Clean sep f) ∧
      (0 < lim → i < lim → ((strLoop sep lim fuel i rest).1.length : Int) ≤ lim - i) ∧
      ((∀ j, ¬ sep <+: (strLoop sep lim fuel i rest).2.drop j) ∨
        (0 < lim ∧ lim - i ≤ ((strLoop sep lim fuel i rest).1.length : Int))) := by
  intro fuel
  have hsl : 0 < sep.length := List.length_pos_iff.2 hs
  induction fuel with
  | zero => intro i rest h; omega
  | succ n ih =>
    intro i rest hlen
    rw [strLoop]
    cases hf : findSub sep rest with
    | none =>
      simp only [List.nil_append, intercalate_one, List.length_nil]
      exact ⟨trivial, by simp, fun h1 h2 => by omega, Or.inl (findSub_none hf)⟩
    | some k =>
      obtain ⟨_, _, h3⟩ := findSub_some hf
      simp only
      by_cases hl : lim > 0 ∧ lim ≤ i + 1
      · rw [if_pos hl]
        simp only [List.cons_append, List.nil_append, intercalate_cons2, intercalate_one]
        refine ⟨h3.symm, ?_, fun h1 h2 => by simp; omega, Or.inr ⟨hl.1, by simp; omega⟩⟩
        intro f hfm
        simp only [List.mem_singleton] at hfm
        subst hfm
        exact clean_take hf
      · rw [if_neg hl]
        have hlt : (rest.drop (k + sep.length)).length < n := by
          rw [List.length_drop]
          by_cases hr : rest.length = 0
          · have : rest = [] := List.length_eq_zero_iff.1 hr
            subst this
            have := (findSub_some hf).1
            simp at this
            exact absurd this hs
          · omega
        obtain ⟨a1, a2, a3, a4⟩ := ih (if lim > 0 then i + 1 else i) _ hlt
        simp only
        refine ⟨?_, ?_, ?_, ?_⟩
        · rw [List.cons_append, intercalate_cons_ne _ _ _ (by simp), a1]
          exact h3.symm
        · intro f hfm
          rcases List.mem_cons.1 hfm with rfl | hfm
          · exact clean_take hf
          · exact a2 f hfm
        · intro h1 h2
          have hi : (if lim > 0 then i + 1 else i) = i + 1 := by rw [if_pos h1]
          rw [hi] at a3 ⊢
          have := a3 h1 (by omega)
          simp only [List.length_cons, Nat.cast_add, Nat.cast_one]
          omega
        · rcases a4 with a4 | ⟨a4, a5⟩
          · exact Or.inl a4
          · right
            refine ⟨a4, ?_⟩
            have hi : (if lim > 0 then i + 1 else i) = i + 1 := by rw [if_pos a4]
            rw [hi] at a5 ⊢
            simp only [List.length_cons, Nat.cast_add, Nat.cast_one]
            omega

theorem foldl_push_keep (l a : List (List Nat)) : l.foldl push (a, -1) = (a ++ l, -1) := by
  induction l generalizing a with
  | nil => simp
  | cons x t ih =>
    rw [List.foldl_cons]
    have : push (a, -1) x = (a ++ [x], -1) := by simp [push]
    rw [this, ih]
    simp

theorem foldl_push_trim (l : List (List Nat)) : ∀ (a : List (List Nat)) (k : Nat),
    a.getLast? ≠ some [] →
      ∃ (a' : List (List Nat)) (k' : Nat), l.foldl push (a, (k : Int)) = (a', (k' : Int)) ∧
        a ++ List.replicate k [] ++ l = a' ++ List.replicate k' [] ∧ a'.getLast? ≠ some [] := by
  induction l with
  | nil => intro a k h; exact ⟨a, k, rfl, by simp, h⟩
  | cons x t ih =>
    intro a k h
    rw [List.foldl_cons]
    by_cases hx : x = []
    · have e : push (a, (k : Int)) x = (a, ((k + 1 : Nat) : Int)) := by simp [push, hx]
      rw [e]
      obtain ⟨a', k', e1, e2, e3⟩ := ih a (k + 1) h
      refine ⟨a', k', e1, ?_, e3⟩
      rw [← e2, hx, List.replicate_succ']
      simp
    · have e : push (a, (k : Int)) x = (a ++ List.replicate k [] ++ [x], ((0 : Nat) : Int)) := by
        unfold push
        rw [if_neg (by simp [hx])]
        by_cases hk : (k : Int) > 0
        · rw [if_pos hk]; simp
        · have : k = 0 := by omega
          subst this
          simp
      rw [e]
      obtain ⟨a', k', e1, e2, e3⟩ := ih (a ++ List.replicate k [] ++ [x]) 0 (by simp [hx])
      refine ⟨a', k', e1, ?_, e3⟩
      rw [← e2]
      simp

theorem emit_keep (lim : Int) (h : lim ≠ 0) (s : List Nat) (hs : s ≠ [])
    (r : List (List Nat) × List Nat) : emit lim s r = r.1 ++ [r.2] := by
  unfold emit
  have : lim > 0 ∨ r.2 ≠ [] ∨ lim < 0 := by omega
  rw [if_neg h, if_pos ⟨hs, this⟩, foldl_push_keep]
  rfl

theorem emit_default (s : List Nat) (r : List (List Nat) × List Nat) :
    ∃ k, emit (-1) s r = emit 0 s r ++ List.replicate k [] ∧ (emit 0 s r).getLast? ≠ some [] := by
  unfold emit
  rw [if_neg (by decide : ¬(-1 : Int) = 0), if_pos rfl, foldl_push_keep]
  simp only [List.nil_append]
  obtain ⟨a', k', e1, e2, e3⟩ := foldl_push_trim
    (r.1 ++ if s ≠ [] ∧ ((0 : Int) > 0 ∨ r.2 ≠ [] ∨ (0 : Int) < 0) then [r.2] else []) [] 0 (by simp)
  have e1' : ((r.1 ++ if s ≠ [] ∧ ((0 : Int) > 0 ∨ r.2 ≠ [] ∨ (0 : Int) < 0) then [r.2] else []).foldl
      push ([], 0)).1 = a' := by
    have := congrArg Prod.fst e1
    simpa using this
  rw [e1']
  simp only [List.replicate_zero, List.append_nil, List.nil_append] at e2
  by_cases hs : s = []
  · refine ⟨k', ?_, e3⟩
    rw [← e2]
    simp [hs]
  · by_cases hr : r.2 = []
    · refine ⟨k' + 1, ?_, e3⟩
      rw [List.replicate_succ', ← List.append_assoc, ← e2]
      simp [hs, hr]
    · refine ⟨k', ?_, e3⟩
      rw [← e2]
      simp [hs, hr]

theorem charsLoop_nonpos (lim : Int) (h : lim ≤ 0) (i : Int) (s : List Nat) :
    charsLoop lim i s = (s.map ([·]), []) := by
  induction s generalizing i with
  | nil => rfl
  | cons c t ih =>
    rw [charsLoop, if_neg (by omega), if_neg (by omega), ih]
    rfl

theorem awkLoop_nonpos (lim : Int) (h : lim ≤ 0) (i : Int) (cur : Option (List Nat)) (s : List Nat) :
    awkLoop lim i cur s = awkLoop 0 0 cur s := by
  induction s generalizing i cur with
  | nil => cases cur <;> rfl
  | cons c t ih =>
    cases cur with
    | none =>
      rw [awkLoop, awkLoop, if_neg (show ¬(lim > 0 ∧ lim ≤ i) by omega),
        if_neg (show ¬((0 : Int) > 0 ∧ (0 : Int) ≤ 0) by omega), ih i none, ih i (some [c])]
    | some cur =>
      rw [awkLoop, awkLoop, if_neg (show ¬ lim > 0 by omega),
        if_neg (show ¬ (0 : Int) > 0 by omega), ih i none, ih i (some _)]

theorem strLoop_nonpos (sep : List Nat) (lim : Int) (h : lim ≤ 0) (f : Nat) (i : Int) (s : List Nat) :
    strLoop sep lim f i s = strLoop sep 0 f 0 s := by
  induction f generalizing i s with
  | zero => rfl
  | succ f ih =>
    rw [strLoop, strLoop]
    cases findSub sep s with
    | none => rfl
    | some k =>
      simp only
      rw [if_neg (show ¬(lim > 0 ∧ lim ≤ i + 1) by omega),
        if_neg (show ¬((0 : Int) > 0 ∧ (0 : Int) ≤ 0 + 1) by omega),
        if_neg (show ¬ lim > 0 by omega), if_neg (show ¬ (0 : Int) > 0 by omega), ih i]

/-- the pieces of `split_inclusive` -/
theorem inclLoop_spec (sep : List Nat) (hs : sep ≠ []) : ∀ fuel rest, rest.length < fuel →
    (inclLoop sep fuel rest).flatten = rest ∧
    (∀ p ∈ inclLoop sep fuel rest, p ≠ []) ∧
    (∀ p ∈ (inclLoop sep fuel rest).dropLast, ∃ f, p = f ++ sep ∧ Clean sep f) ∧
    (∀ p, (inclLoop sep fuel rest).getLast? = some p →
      (∃ f, p = f ++ sep ∧ Clean sep f) ∨ ∀ j, ¬ sep <+: p.drop j) := by
  intro fuel
  have hsl : 0 < sep.length := List.length_pos_iff.2 hs
  induction fuel with
  | zero => intro rest h; omega
  | succ n ih =>
    intro rest hlen
    rw [inclLoop]
    by_cases hr : rest = []
    · rw [if_pos hr]
      subst hr
      simp
    rw [if_neg hr]
    have hrl : 0 < rest.length := List.length_pos_iff.2 hr
    cases hf : findSub sep rest with
    | none =>
      simp only [List.flatten_cons, List.flatten_nil, List.append_nil, List.mem_singleton,
        forall_eq, List.dropLast_singleton, List.not_mem_nil, false_imp_iff, implies_true,
        List.getLast?_singleton, Option.some.injEq, forall_eq', true_and]
      exact ⟨hr, Or.inr (findSub_none hf)⟩
    | some k =>
      obtain ⟨_, _, h3⟩ := findSub_some hf
      obtain ⟨a1, a2, a3, a4⟩ := ih (rest.drop (k + sep.length)) (by rw [List.length_drop]; omega)
      have hp : rest.take (k + sep.length) = rest.take k ++ sep := by
        have hkl := prefix_fits rest sep k (findSub_some hf).1 hs
        conv_lhs => rw [h3]
        rw [List.take_append_of_le_length (by rw [List.length_append, List.length_take]; omega)]
        apply List.take_of_length_le
        rw [List.length_append, List.length_take]
        omega
      simp only
      refine ⟨?_, ?_, ?_, ?_⟩
      · rw [List.flatten_cons, a1, List.take_append_drop]
      · intro p hpm
        rcases List.mem_cons.1 hpm with rfl | hpm
        · rw [hp]; simp [hs]
        · exact a2 p hpm
      · intro p hpm
        cases hL : inclLoop sep n (rest.drop (k + sep.length)) with
        | nil => rw [hL] at hpm; simp at hpm
        | cons y l =>
          rw [hL, List.dropLast_cons_cons, List.mem_cons] at hpm
          rcases hpm with rfl | hpm
          · exact ⟨_, hp, clean_take hf⟩
          · exact a3 p (by rw [hL]; exact hpm)
      · intro p hpl
        cases hL : inclLoop sep n (rest.drop (k + sep.length)) with
        | nil =>
          rw [hL] at hpl
          simp only [List.getLast?_singleton, Option.some.injEq] at hpl
          subst hpl
          exact Or.inl ⟨_, hp, clean_take hf⟩
        | cons y l =>
          rw [hL, List.getLast?_cons_cons] at hpl
          exact a4 p (by rw [hL]; exact hpl)

theorem endsWith_iff (s e : List Nat) : endsWith s e = true ↔ e <:+ s := by
  unfold endsWith
  rw [List.isPrefixOf_iff_prefix, List.reverse_prefix]

theorem take_suffix (t e : List Nat) : (t ++ e).take ((t ++ e).length - e.length) = t := by
  rw [List.length_append, Nat.add_sub_cancel, List.take_left]

/-! paragraphs -/

theorem paraCut_some : ∀ (s a r : List Nat), paraCut s = some (a, r) →
    ∃ n, s = a ++ [10, 10] ++ List.replicate n 10 ++ r ∧ r.head? ≠ some 10 ∧ Clean [10, 10] a := by
  intro s
  induction s with
  | nil => intro a r h; cases h
  | cons c t ih =>
    intro a r h
    rw [paraCut] at h
    split_ifs at h with hc
    · cases h
      cases t with
      | nil => simp at hc
      | cons d t =>
        simp only [List.head?_cons, Option.some.injEq] at hc
        obtain ⟨rfl, rfl⟩ := hc
        refine ⟨(t.takeWhile (· = 10)).length, ?_, ?_, by intro j hj; simp at hj⟩
        · have hrep : List.replicate (t.takeWhile (· = 10)).length 10 = t.takeWhile (· = 10) := by
            symm
            rw [List.eq_replicate_iff]
            refine ⟨rfl, fun b hb => ?_⟩
            have := List.all_eq_true.1 (List.all_takeWhile (p := (· = 10)) (l := t)) b hb
            simpa using this
          rw [hrep]
          simp [List.takeWhile_append_dropWhile]
        · rw [List.dropWhile_cons_of_pos (by simp)]
          intro hh
          have := List.head?_dropWhile_not (fun x => decide (x = 10)) t
          rw [hh] at this
          simp at this
    · rw [Option.map_eq_some_iff] at h
      obtain ⟨⟨a', r'⟩, h1, h2⟩ := h
      simp only [Prod.mk.injEq] at h2
      obtain ⟨rfl, rfl⟩ := h2
      obtain ⟨n, e1, e2, e3⟩ := ih a' r' h1
      refine ⟨n, by rw [e1]; simp, e2, ?_⟩
      intro j hj hp
      cases j with
      | zero =>
        rw [List.drop_zero, List.cons_append, List.cons_prefix_cons] at hp
        obtain ⟨h10, hp⟩ := hp
        apply hc
        refine ⟨h10.symm, ?_⟩
        rw [e1]
        cases a' with
        | nil => rfl
        | cons x a' =>
          rw [List.cons_append, List.cons_prefix_cons] at hp
          simp [← hp.1]
      | succ j =>
        exact e3 j (by simpa using hj) (by simpa using hp)

theorem paraCut_none : ∀ (s : List Nat), paraCut s = none → ∀ j, ¬ [10, 10] <+: s.drop j := by
  intro s
  induction s with
  | nil => intro _ j hp; simp at hp
  | cons c t ih =>
    intro h j hp
    rw [paraCut] at h
    split_ifs at h with hc
    rw [Option.map_eq_none_iff] at h
    cases j with
    | zero =>
      rw [List.drop_zero, List.cons_prefix_cons] at hp
      obtain ⟨rfl, hp⟩ := hp
      apply hc
      cases t with
      | nil => simp at hp
      | cons d t =>
        rw [List.cons_prefix_cons] at hp
        simp [← hp.1]
    | succ j => exact ih h j (by simpa using hp)

/-! strip -/

theorem stripEnd_spec (s : List Nat) : ∀ e, stripEnd s e ≤ e ∧
    (∀ j, stripEnd s e ≤ j → j < e → stripByte (s.getD j 0) = true) ∧
    (0 < stripEnd s e → stripByte (s.getD (stripEnd s e - 1) 0) = false) := by
  intro e
  induction e with
  | zero => exact ⟨Nat.le_refl _, fun j h1 h2 => by omega, fun h => by simp [stripEnd] at h⟩
  | succ e ih =>
    rw [stripEnd]
    obtain ⟨h1, h2, h3⟩ := ih
    split_ifs with hb
    · refine ⟨by omega, fun j hj1 hj2 => ?_, h3⟩
      by_cases hj : j = e
      · subst hj; exact hb
      · exact h2 j hj1 (by omega)
    · exact ⟨Nat.le_refl _, fun j hj1 hj2 => by omega, fun _ => by simpa using hb⟩

theorem stripStart_spec (s : List Nat) : ∀ n st, st ≤ stripStart s n st ∧ stripStart s n st ≤ st + n ∧
    (∀ j, st ≤ j → j < stripStart s n st → stripByte (s.getD j 0) = true) ∧
    (stripStart s n st < st + n → stripByte (s.getD (stripStart s n st) 0) = false) := by
  intro n
  induction n with
  | zero => intro st; exact ⟨Nat.le_refl _, Nat.le_refl _, fun j h1 h2 => by simp [stripStart] at h2; omega, fun h => by simp [stripStart] at h⟩
  | succ n ih =>
    intro st
    rw [stripStart]
    split_ifs with hb
    · obtain ⟨h1, h2, h3, h4⟩ := ih (st + 1)
      refine ⟨by omega, by omega, fun j hj1 hj2 => ?_, fun h => h4 (by omega)⟩
      by_cases hj : j = st
      · subst hj; exact hb
      · exact h3 j (by omega) hj2
    · exact ⟨Nat.le_refl _, by omega, fun j h1 h2 => by omega, fun _ => by simpa using hb⟩

end Verif.Text
