import Mathlib.Tactic.Ring
import Verif.Fnmatch.Lemmas

/-!
# The backtracking loop decides the language
-/

namespace Verif.Fnmatch

variable {lower : Char → Char} {fl : Flags}

/-- One element of the pattern other than `*` takes the character `d`. -/
inductive Elem (lower : Char → Char) (fl : Flags) : List Atom → Bool → Char → List Atom → Prop
  | lit {a p start d} : ¬ Special a → Same lower fl a.1 d → Elem lower fl (a :: p) start d p
  | any {p start d} : Free fl start d → Elem lower fl (('?', false) :: p) start d p
  | cls {p neg rs p' start d} : bracket p = some (neg, rs, p') →
      ((∃ r ∈ rs, InRange lower fl r d) ↔ neg = false) → Free fl start d →
      Elem lower fl (('[', false) :: p) start d p'

/-- The pattern after its first element, if that is not `*`. -/
def next : List Atom → Option (List Atom)
  | [] => none
  | ('*', false) :: _ => none
  | ('[', false) :: p => (bracket p).map fun b => b.2.2
  | _ :: p => some p

theorem next_lit {a : Atom} {p : List Atom} (h : ¬ Special a) : next (a :: p) = some p := by
  unfold next
  split
  · simp_all
  · rename_i heq; simp at heq; exact absurd (Or.inl heq.1) h
  · rename_i heq; simp at heq; exact absurd (Or.inr (Or.inr heq.1)) h
  · rename_i heq; simp at heq; rw [heq.2]

theorem Elem.next {p start d p'} (h : Elem lower fl p start d p') : next p = some p' := by
  cases h with
  | lit h1 _ => exact next_lit h1
  | any _ => rfl
  | cls h1 _ _ => simp [Fnmatch.next, h1]

theorem matches_elem {p start d s p'} (h : Elem lower fl p start d p') :
    Matches lower fl p start (d :: s) ↔ Matches lower fl p' false s := by
  have hn := h.next
  constructor
  · intro hm
    cases hm with
    | lit h1 h2 h3 => rw [next_lit h1] at hn; cases hn; exact h3
    | any h1 h2 => simp [next] at hn; subst hn; exact h2
    | cls h1 h2 h3 h4 => simp [next, h1] at hn; subst hn; exact h4
    | starStop _ => simp [next] at hn
    | starTake _ _ => simp [next] at hn
  · intro hm
    cases h with
    | lit h1 h2 => exact .lit h1 h2 hm
    | any h1 => exact .any h1 hm
    | cls h1 h2 h3 => exact .cls h1 h2 h3 hm

theorem matches_inv {p start s} (h : Matches lower fl p start s) (hp : ∀ q, p ≠ ('*', false) :: q) :
    (p = [] ∧ s = []) ∨ ∃ d t p', s = d :: t ∧ Elem lower fl p start d p' ∧
      Matches lower fl p' false t := by
  cases h with
  | done => exact Or.inl ⟨rfl, rfl⟩
  | lit h1 h2 h3 => exact Or.inr ⟨_, _, _, rfl, .lit h1 h2, h3⟩
  | any h1 h2 => exact Or.inr ⟨_, _, _, rfl, .any h1, h2⟩
  | cls h1 h2 h3 h4 => exact Or.inr ⟨_, _, _, rfl, .cls h1 h2 h3, h4⟩
  | starStop _ => exact absurd rfl (hp _)
  | starTake _ _ => exact absurd rfl (hp _)

theorem star_iff {p start s} : Matches lower fl (('*', false) :: p) start s ↔
    Matches lower fl p start s ∨
      ∃ d t, s = d :: t ∧ Free fl start d ∧ Matches lower fl (('*', false) :: p) false t := by
  constructor
  · intro h
    cases h with
    | lit h1 _ _ => exact absurd (Or.inl rfl) h1
    | starStop h => exact Or.inl h
    | starTake h1 h2 => exact Or.inr ⟨_, _, rfl, h1, h2⟩
  · rintro (h | ⟨d, t, rfl, h1, h2⟩)
    · exact .starStop h
    · exact .starTake h1 h2

/-- From a position not at the start, a star reaches every later position. -/
theorem star_drop {p s} (j : Nat) (h : Matches lower fl (('*', false) :: p) false (s.drop j)) :
    Matches lower fl (('*', false) :: p) false s := by
  induction j generalizing s with
  | zero => simpa using h
  | succ j ih =>
    cases s with
    | nil => simpa using h
    | cons d t => exact .starTake (Or.inr (Or.inl rfl)) (ih (by simpa using h))

theorem star_reach {p s} (h : Matches lower fl (('*', false) :: p) false s) :
    ∃ j ≤ s.length, Matches lower fl p false (s.drop j) := by
  induction s with
  | nil =>
    rcases star_iff.1 h with h | ⟨d, t, h, _, _⟩
    · exact ⟨0, Nat.le_refl _, h⟩
    · simp at h
  | cons d t ih =>
    rcases star_iff.1 h with h | ⟨d', t', h1, _, h2⟩
    · exact ⟨0, by simp, by simpa using h⟩
    · simp only [List.cons.injEq] at h1
      obtain ⟨rfl, rfl⟩ := h1
      obtain ⟨j, hj, hm⟩ := ih h2
      exact ⟨j + 1, by simpa using hj, by simpa using hm⟩

theorem star_idem {p start s} : Matches lower fl (('*', false) :: ('*', false) :: p) start s ↔
    Matches lower fl (('*', false) :: p) start s := by
  constructor
  · intro h
    rcases star_iff.1 h with h | ⟨d, t, rfl, h1, h2⟩
    · exact h
    · obtain ⟨j, _, hm⟩ := star_reach h2
      exact .starTake h1 (star_drop j hm)
  · exact .starStop

/-! ## Paths through elements -/

/-- `q` is `p` without its first `k` elements, none of them a star. -/
inductive Path : List Atom → Nat → List Atom → Prop
  | refl {p} : Path p 0 p
  | step {p q r k} : next p = some q → Path q k r → Path p (k + 1) r

theorem Path.snoc {p k q r} (h : Path p k q) (hn : next q = some r) : Path p (k + 1) r := by
  induction h with
  | refl => exact .step hn .refl
  | step h1 _ ih => exact .step h1 (ih hn)

theorem next_not_star {p q r} (h : next p = some q) : p ≠ ('*', false) :: r := by
  rintro rfl
  simp [next] at h

theorem Path.matches {p k q start s} (h : Path p k q) (hm : Matches lower fl p start s) :
    k ≤ s.length ∧ Matches lower fl q (start && decide (k = 0)) (s.drop k) := by
  induction h generalizing start s with
  | refl => exact ⟨Nat.zero_le _, by simpa using hm⟩
  | step h1 _ ih =>
    rcases matches_inv hm (fun _ => next_not_star h1) with ⟨rfl, _⟩ | ⟨d, t, p', rfl, he, hm'⟩
    · simp [next] at h1
    · rw [he.next] at h1
      cases h1
      obtain ⟨h2, h3⟩ := ih hm'
      exact ⟨by simpa using h2, by simpa using h3⟩

/-! ## The code's tests -/

theorem guarded_iff {start : Bool} {d : Char} {t : List Char} :
    guarded fl start (d :: t) = false ↔ Free fl start d := by
  unfold guarded Free
  cases fl.dotmatch <;> cases start <;> simp

theorem same_iff {c d : Char} :
    (fold lower fl.casefold c == fold lower fl.casefold d) = true ↔ Same lower fl c d := by
  unfold fold Same
  cases fl.casefold <;> simp

theorem inR_iff {r : Char × Char} {d : Char} :
    inR lower fl.casefold (fold lower fl.casefold d) r = true ↔ InRange lower fl r d := by
  unfold inR InRange fold
  cases fl.casefold <;> simp

theorem any_inR {rs : List (Char × Char)} {d : Char} {neg : Bool} :
    xor (rs.any (inR lower fl.casefold (fold lower fl.casefold d))) neg = true ↔
      ((∃ r ∈ rs, InRange lower fl r d) ↔ neg = false) := by
  have : rs.any (inR lower fl.casefold (fold lower fl.casefold d)) = true ↔
      ∃ r ∈ rs, InRange lower fl r d := by
    rw [List.any_eq_true]
    simp only [inR_iff]
  rw [← this]
  cases rs.any (inR lower fl.casefold (fold lower fl.casefold d)) <;> cases neg <;> simp

theorem not_special {p : Char} (h1 : p ≠ '*') (h2 : p ≠ '?') (h3 : p ≠ '[') :
    ¬ Special (p, false) := by
  rintro (h | h | h)
  · exact h1 (by simpa using h)
  · exact h2 (by simpa using h)
  · exact h3 (by simpa using h)

theorem elem_det {p start d p' q} (h : Elem lower fl p start d p') (hq : next p = some q) : p' = q := by
  rw [h.next] at hq
  exact Option.some.inj hq

theorem elem_lit_iff {a : Atom} {p start d p'} (h : ¬ Special a) :
    Elem lower fl (a :: p) start d p' ↔ Same lower fl a.1 d ∧ p' = p := by
  constructor
  · intro he
    refine ⟨?_, elem_det he (next_lit h)⟩
    cases he with
    | lit _ h => exact h
    | any _ => exact absurd (Or.inr (Or.inl rfl)) h
    | cls _ _ _ => exact absurd (Or.inr (Or.inr rfl)) h
  · rintro ⟨h1, rfl⟩
    exact .lit h h1

theorem step_other {p : Char} {rest : List Char} (pos : Pos) (c : Char) (hq : p ≠ '?') (hb : p ≠ '[') :
    step lower fl (p :: rest) pos c =
      if p = '\\' ∧ fl.noescape = false then
        match rest with
        | q :: rest' =>
          if fold lower fl.casefold q == fold lower fl.casefold c then some rest' else none
        | [] => if fold lower fl.casefold p == fold lower fl.casefold c then some [] else none
      else if fold lower fl.casefold p == fold lower fl.casefold c then some rest else none := by
  rw [step.eq_def]
  split
  · rename_i heq; simp at heq
  · rename_i heq; simp at heq; exact absurd heq.1 hq
  · rename_i heq; simp at heq; exact absurd heq.1 hb
  · rename_i heq
    simp only [List.cons.injEq] at heq
    obtain ⟨rfl, rfl⟩ := heq
    rfl

/-- `step` decides `Elem`. -/
theorem step_spec (pat : List Char) (start : Bool) (c : Char) (t : List Char)
    (hp : ∀ q, pat ≠ '*' :: q) :
    (∀ pat', step lower fl pat ⟨c :: t, start⟩ c = some pat' →
      Elem lower fl (atoms fl.noescape pat) start c (atoms fl.noescape pat') ∧
        pat'.length < pat.length) ∧
    (step lower fl pat ⟨c :: t, start⟩ c = none →
      ∀ p', ¬ Elem lower fl (atoms fl.noescape pat) start c p') := by
  cases pat with
  | nil =>
    refine ⟨by simp [step], ?_⟩
    intro _ p' he
    simp only [atoms] at he
    cases he
  | cons p rest =>
    by_cases hq : p = '?'
    · subst hq
      rw [atoms_plain (by simp)]
      simp only [step]
      cases hg : guarded fl start (c :: t)
      · simp only [Bool.false_eq_true, if_false, Option.some.injEq]
        refine ⟨?_, by simp⟩
        rintro _ rfl
        exact ⟨.any (guarded_iff.1 hg), by simp⟩
      · simp only [if_true]
        refine ⟨by simp, ?_⟩
        intro _ p' he
        have hf : ¬ Free fl start c := by
          intro hf; rw [guarded_iff.2 hf] at hg; simp at hg
        cases he with
        | lit h _ => exact h (Or.inr (Or.inl rfl))
        | any h => exact hf h
    · by_cases hb : p = '['
      · subst hb
        rw [atoms_plain (by simp)]
        simp only [step]
        cases hg : guarded fl start (c :: t)
        · simp only [Bool.false_eq_true, if_false]
          have hfree := guarded_iff.1 hg
          obtain ⟨h1, h2⟩ := matchBracket_spec lower fl.noescape fl.casefold c rest
          cases hbr : bracket (atoms fl.noescape rest) with
          | none =>
            rw [h1 hbr]
            refine ⟨by simp, ?_⟩
            intro _ p' he
            cases he with
            | lit h _ => exact h (Or.inr (Or.inr rfl))
            | cls h _ _ => rw [hbr] at h; simp at h
          | some b =>
            obtain ⟨neg, rs, as⟩ := b
            obtain ⟨rest', g1, g2, g3⟩ := h2 neg rs as hbr
            rw [g1]
            cases hx : xor (rs.any (inR lower fl.casefold (fold lower fl.casefold c))) neg
            · refine ⟨by simp, ?_⟩
              intro _ p' he
              cases he with
              | lit h _ => exact h (Or.inr (Or.inr rfl))
              | cls h h' _ =>
                rw [hbr] at h
                simp only [Option.some.injEq, Prod.mk.injEq] at h
                obtain ⟨rfl, rfl, rfl⟩ := h
                rw [any_inR.2 h'] at hx
                simp at hx
            · refine ⟨?_, by simp⟩
              intro pat' h
              simp only [Option.some.injEq] at h
              subst h
              exact ⟨g2 ▸ .cls hbr (any_inR.1 hx) hfree, by simp; omega⟩
        · simp only [if_true]
          refine ⟨by simp, ?_⟩
          intro _ p' he
          have hf : ¬ Free fl start c := by
            intro hf; rw [guarded_iff.2 hf] at hg; simp at hg
          cases he with
          | lit h _ => exact h (Or.inr (Or.inr rfl))
          | cls _ _ h => exact hf h
      · have hstar : p ≠ '*' := fun h => hp rest (by rw [h])
        have hns := not_special hstar hq hb
        rw [step_other _ _ hq hb]
        have plain : ∀ (a : Atom) rest', ¬ Special a → rest'.length < (p :: rest).length →
            (∀ pat', (if (fold lower fl.casefold a.1 == fold lower fl.casefold c) = true then
                some rest' else none) = some pat' →
              Elem lower fl (a :: atoms fl.noescape rest') start c (atoms fl.noescape pat') ∧
                pat'.length < (p :: rest).length) ∧
            ((if (fold lower fl.casefold a.1 == fold lower fl.casefold c) = true then
                some rest' else none) = none →
              ∀ p', ¬ Elem lower fl (a :: atoms fl.noescape rest') start c p') := by
          intro a rest' hns hl
          constructor
          · intro pat' h
            split at h
            · rename_i heq
              simp only [Option.some.injEq] at h
              subst h
              exact ⟨.lit hns (same_iff.1 heq), hl⟩
            · simp at h
          · intro h p' he
            split at h
            · simp at h
            · rename_i hne
              exact hne (same_iff.2 ((elem_lit_iff hns).1 he).1)
        by_cases hesc : p = '\\' ∧ fl.noescape = false
        · rw [if_pos hesc]
          obtain ⟨rfl, hne⟩ := hesc
          cases rest with
          | nil =>
            rw [atoms_plain (by simp)]
            exact plain ('\\', false) [] hns (by simp)
          | cons q rest' =>
            rw [show atoms fl.noescape ('\\' :: q :: rest') = (q, true) :: atoms fl.noescape rest' by
              rw [hne]; rfl]
            refine plain (q, true) rest' ?_ (by simp; omega)
            rintro (h | h | h) <;> simp at h
        · rw [if_neg hesc, atoms_plain (fun h => hesc ⟨h.1, h.2.1⟩)]
          exact plain (p, false) rest hns (by simp)

theorem skipStars_spec (pat : List Char) :
    (∀ q, skipStars pat ≠ '*' :: q) ∧ (skipStars pat).length ≤ pat.length ∧
    ∀ ne start s, Matches lower fl (('*', false) :: atoms ne pat) start s ↔
      Matches lower fl (('*', false) :: atoms ne (skipStars pat)) start s := by
  induction pat with
  | nil => exact ⟨by simp [skipStars], by simp [skipStars], fun _ _ _ => by simp [skipStars]⟩
  | cons p rest ih =>
    by_cases hp : p = '*'
    · subst hp
      simp only [skipStars]
      refine ⟨ih.1, by simp; omega, ?_⟩
      intro ne start s
      rw [atoms_plain (by simp), star_idem]
      exact ih.2.2 ne start s
    · have : skipStars (p :: rest) = p :: rest := by
        rw [skipStars]
        intro q h
        simp at h
        exact hp h.1
      rw [this]
      exact ⟨by simp [hp], Nat.le_refl _, fun _ _ _ => Iff.rfl⟩

theorem matches_empty (pat : List Char) (start : Bool) :
    Matches lower fl (atoms fl.noescape pat) start [] ↔ skipStars pat = [] := by
  induction pat with
  | nil => simp only [atoms, skipStars, iff_true]; exact .done
  | cons p rest ih =>
    by_cases hp : p = '*'
    · subst hp
      rw [atoms_plain (by simp)]
      simp only [skipStars]
      rw [star_iff, ih]
      simp
    · have : skipStars (p :: rest) = p :: rest := by
        rw [skipStars]
        intro q h
        simp at h
        exact hp h.1
      rw [this]
      simp only [List.cons_ne_nil, iff_false]
      intro h
      by_cases hb : p = '\\' ∧ fl.noescape = false ∧ rest ≠ []
      · obtain ⟨rfl, hne, hr⟩ := hb
        obtain ⟨q, rest', rfl⟩ := List.exists_cons_of_ne_nil hr
        rw [show atoms fl.noescape ('\\' :: q :: rest') = (q, true) :: atoms fl.noescape rest' by
          rw [hne]; rfl] at h
        cases h
      · rw [atoms_plain hb] at h
        have hne : (p, false) ≠ ('*', false) := by simpa using hp
        generalize hpa : (p, false) = a at h hne
        cases h with
        | starStop _ => exact hne rfl

/-! ## The loop -/

/-- What the star kept for backtracking can still give. -/
def Alt (lower : Char → Char) (fl : Flags) : Option (List Char × Pos) → Prop
  | none => False
  | some (spat, spos) => ∃ d t, spos.rest = d :: t ∧ Free fl spos.start d ∧
      Matches lower fl (('*', false) :: atoms fl.noescape spat) false t

/-- The position is a number of elements after the star. -/
def Inv (ne : Bool) (pat : List Char) (pos : Pos) : Option (List Char × Pos) → Prop
  | none => True
  | some (spat, spos) => ∃ k ≤ spos.rest.length, Path (atoms ne spat) k (atoms ne pat) ∧
      pos.rest = spos.rest.drop k ∧ pos.start = (spos.start && decide (k = 0))

def turns (pos : Pos) : Option (List Char × Pos) → Nat
  | none => pos.rest.length + 1
  | some (_, spos) => spos.rest.length

def starPat : Option (List Char × Pos) → List Char
  | none => []
  | some (spat, _) => spat

theorem run_spec (P N : Nat) (fuel : Nat) (pat : List Char) (pos : Pos)
    (star : Option (List Char × Pos)) (hP : pat.length ≤ P) (hN : pos.rest.length ≤ N)
    (hS : (starPat star).length ≤ P) (hT : turns pos star ≤ N + 1)
    (hinv : Inv fl.noescape pat pos star)
    (hf : turns pos star * (P + N + 1) + pat.length + pos.rest.length + 1 ≤ fuel) :
    ∃ b, run lower fl fuel pat pos star = some b ∧ (b = true ↔
      Matches lower fl (atoms fl.noescape pat) pos.start pos.rest ∨ Alt lower fl star) := by
  induction fuel generalizing pat pos star with
  | zero => omega
  | succ fuel ih =>
    unfold run
    obtain ⟨rest, start⟩ := pos
    dsimp only at hN hf ⊢
    cases rest with
    | nil =>
      dsimp only
      refine ⟨_, rfl, ?_⟩
      rw [matches_empty, List.isEmpty_iff]
      constructor
      · exact Or.inl
      · rintro (h | h)
        · exact h
        · exfalso
          cases star with
          | none => exact h
          | some sp =>
            obtain ⟨spat, spos⟩ := sp
            obtain ⟨d, t, h1, _, h2⟩ := h
            obtain ⟨k, hk, hpath, hr, _⟩ := hinv
            dsimp only at hr hk
            rw [h1] at hr hk
            have hlen := congrArg List.length hr
            simp only [List.length_nil, List.length_drop] at hlen
            obtain ⟨j, hj, hm⟩ := star_reach h2
            have := (hpath.matches hm).1
            simp only [List.length_drop, List.length_cons] at this hlen
            omega
    | cons c t =>
      dsimp only
      by_cases hstar : ∃ q, pat = '*' :: q
      · obtain ⟨q, rfl⟩ := hstar
        obtain ⟨_, hlen, hcol⟩ := skipStars_spec (lower := lower) (fl := fl) q
        have hturn : (c :: t).length ≤ turns ⟨c :: t, start⟩ star := by
          cases star with
          | none => simp [turns]
          | some sp =>
            obtain ⟨spat, spos⟩ := sp
            obtain ⟨k, hk, _, hr, _⟩ := hinv
            dsimp only at hr
            rw [hr]
            simp [turns]
        show ∃ b, run lower fl fuel (skipStars q) ⟨c :: t, start⟩
          (some (skipStars q, ⟨c :: t, start⟩)) = some b ∧ _
        obtain ⟨b, hb1, hb2⟩ := (ih (skipStars q) ⟨c :: t, start⟩ (some (skipStars q, ⟨c :: t, start⟩))
          (by simp at hP; omega) hN (by simp only [starPat]; simp at hP; omega)
          (by simp only [turns]; omega)
          ⟨0, Nat.zero_le _, .refl, rfl, by simp⟩
          (by
            simp only [turns, List.length_cons] at hf hturn ⊢
            have := Nat.mul_le_mul_right (P + N + 1) hturn
            omega))
        refine ⟨b, hb1, hb2.trans ?_⟩
        rw [show atoms fl.noescape ('*' :: q) = ('*', false) :: atoms fl.noescape q from
          atoms_plain (by simp), hcol]
        refine (star_iff (lower := lower) (fl := fl)).symm.trans ⟨Or.inl, ?_⟩
        rintro (h | h)
        · exact h
        -- what the old star could give, the new one can
        cases star with
        | none => exact h.elim
        | some sp =>
          obtain ⟨spat, spos⟩ := sp
          obtain ⟨d, t', h1, h2, h3⟩ := h
          obtain ⟨k, hk, hpath, hr, hst⟩ := hinv
          dsimp only at hr hk hst
          obtain ⟨j, hj, hm⟩ := star_reach h3
          obtain ⟨hk', hm'⟩ := hpath.matches hm
          rw [Bool.false_and, List.drop_drop,
            show atoms fl.noescape ('*' :: q) = ('*', false) :: atoms fl.noescape q from
              atoms_plain (by simp), hcol] at hm'
          rw [hr, h1]
          have hfree : ∀ e, (spos.rest.drop k).head? = some e → Free fl start e := by
            intro e he
            by_cases hk0 : k = 0
            · subst hk0
              rw [h1] at he
              simp at he
              subst he
              rw [hst]
              simpa using h2
            · right; left
              rw [hst]; simp [hk0]
          rw [h1] at hfree hr
          have hlen : k < (d :: t').length := by
            have := congrArg List.length hr
            simp only [List.length_cons, List.length_drop] at this ⊢
            omega
          rw [List.drop_eq_getElem_cons hlen] at hfree ⊢
          refine .starTake (hfree _ rfl) (star_drop j ?_)
          rw [List.drop_drop]
          rw [show k + 1 + j = (j + k) + 1 by omega, List.drop_succ_cons]
          exact hm'
      · have hp : ∀ q, pat ≠ '*' :: q := fun q h => hstar ⟨q, h⟩
        obtain ⟨hs1, hs2⟩ := step_spec (lower := lower) (fl := fl) pat start c t hp
        split
        · exact absurd rfl (hp _)
        · cases hstep : step lower fl pat ⟨c :: t, start⟩ c with
          | some pat' =>
            obtain ⟨he, hl⟩ := hs1 pat' hstep
            dsimp only [Pos.next, List.tail_cons]
            have hturn : turns ⟨t, false⟩ star ≤ turns ⟨c :: t, start⟩ star := by
              cases star with
              | none => simp [turns]
              | some sp => exact Nat.le_refl _
            rw [matches_elem he]
            refine ih pat' ⟨t, false⟩ star (by omega) (by simp at hN ⊢; omega) hS (by omega) ?_ ?_
            · cases star with
              | none => trivial
              | some sp =>
                obtain ⟨spat, spos⟩ := sp
                obtain ⟨k, hk, hpath, hr, hst⟩ := hinv
                dsimp only at hr
                have hlen := congrArg List.length hr
                simp only [List.length_cons, List.length_drop] at hlen
                refine ⟨k + 1, by omega, hpath.snoc he.next, ?_, by simp⟩
                show t = spos.rest.drop (k + 1)
                rw [← List.drop_drop, ← hr]
                rfl
            · have := Nat.mul_le_mul_right (P + N + 1) hturn
              simp only [List.length_cons] at hf ⊢
              omega
          | none =>
            have hno : ¬ Matches lower fl (atoms fl.noescape pat) start (c :: t) := by
              intro hm
              have hpa : ∀ q, atoms fl.noescape pat ≠ ('*', false) :: q := by
                intro q h
                cases pat with
                | nil => simp [atoms] at h
                | cons p rest =>
                  by_cases hb : p = '\\' ∧ fl.noescape = false ∧ rest ≠ []
                  · obtain ⟨rfl, hne, hr⟩ := hb
                    obtain ⟨q', rest', rfl⟩ := List.exists_cons_of_ne_nil hr
                    rw [show atoms fl.noescape ('\\' :: q' :: rest') =
                      (q', true) :: atoms fl.noescape rest' by rw [hne]; rfl] at h
                    simp at h
                  · rw [atoms_plain hb] at h
                    simp at h
                    exact hp rest (by rw [h.1])
              rcases matches_inv hm hpa with ⟨_, h⟩ | ⟨d, t', p', h, he, _⟩
              · simp at h
              · simp only [List.cons.injEq] at h
                obtain ⟨rfl, rfl⟩ := h
                exact hs2 hstep p' he
            simp only [hno, false_or]
            cases star with
            | none => exact ⟨false, rfl, by simp [Alt]⟩
            | some sp =>
              obtain ⟨spat, ⟨srest, sstart⟩⟩ := sp
              dsimp only
              by_cases hcond : srest ≠ [] ∧ guarded fl sstart srest = false
              · rw [if_pos hcond]
                obtain ⟨hne, hg⟩ := hcond
                obtain ⟨d, t', rfl⟩ := List.exists_cons_of_ne_nil hne
                dsimp only [Pos.next, List.tail_cons]
                have hfree := guarded_iff.1 hg
                obtain ⟨b, hb1, hb2⟩ := (ih spat ⟨t', false⟩ (some (spat, ⟨t', false⟩)) hS
                  (by simp [turns] at hT; simpa using hT) hS
                  (by simp [turns] at hT ⊢; omega)
                  ⟨0, Nat.zero_le _, .refl, rfl, by simp⟩
                  (by
                    simp only [turns, List.length_cons, starPat] at hf hS hT ⊢
                    have : (t'.length + 1) * (P + N + 1) = t'.length * (P + N + 1) + (P + N + 1) := by
                      ring
                    omega))
                refine ⟨b, hb1, hb2.trans ?_⟩
                refine (star_iff (lower := lower) (fl := fl)).symm.trans ?_
                constructor
                · intro h
                  exact ⟨d, t', rfl, hfree, h⟩
                · rintro ⟨d', t'', h, _, hm⟩
                  simp only [List.cons.injEq] at h
                  rw [h.2]; exact hm
              · rw [if_neg hcond]
                refine ⟨false, rfl, ?_⟩
                simp only [Bool.false_eq_true, false_iff]
                rintro ⟨d, t', h, hfree, _⟩
                dsimp only at h hfree
                subst h
                exact hcond ⟨by simp, guarded_iff.2 hfree⟩

theorem run_whole (pat s : List Char) (fuel : Nat)
    (hf : (s.length + 2) * (s.length + pat.length + 2) ≤ fuel) :
    ∃ b, run lower fl fuel pat ⟨s, true⟩ none = some b ∧
      (b = true ↔ Matches lower fl (atoms fl.noescape pat) true s) := by
  obtain ⟨b, h1, h2⟩ := run_spec (lower := lower) (fl := fl) pat.length s.length
    fuel pat ⟨s, true⟩ none (Nat.le_refl _) (Nat.le_refl _)
    (Nat.zero_le _) (Nat.le_refl _) trivial (by
      simp only [turns]
      have h1 : (s.length + 2) * (s.length + pat.length + 2) =
        (s.length + 1) * (pat.length + s.length + 1) + (s.length + 1) + (s.length + pat.length + 2) := by
        ring
      omega)
  exact ⟨b, h1, h2.trans (by simp [Alt])⟩

/-- `match_segment_chars` decides the language. -/
theorem matchChars_iff (pat s : List Char) :
    matchChars lower fl pat s = true ↔ Matches lower fl (atoms fl.noescape pat) true s := by
  obtain ⟨b, h1, h2⟩ := run_whole (lower := lower) (fl := fl) pat s _ (Nat.le_refl _)
  unfold matchChars
  rw [h1, Option.getD_some, h2]

end Verif.Fnmatch
