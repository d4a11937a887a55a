import Verif.Fnmatch.MatchLemmas

/-!
# Paths and braces
-/

namespace Verif.Fnmatch

variable {lower : Char → Char} {fl : Flags}

/-! ## Segments -/

theorem intercalate_cons2 (x y : List Char) (r : List (List Char)) :
    List.intercalate ['/'] (x :: y :: r) = x ++ '/' :: List.intercalate ['/'] (y :: r) := by
  simp [List.intercalate]

theorem intercalate_one (x : List Char) : List.intercalate ['/'] [x] = x := by
  simp [List.intercalate]

theorem splitSlash_ne (p : List Char) : splitSlash p ≠ [] := by
  cases p with
  | nil => simp [splitSlash]
  | cons c p =>
    unfold splitSlash
    split
    · simp
    · split <;> simp

theorem splitSlash_isSegments (p : List Char) : IsSegments p (splitSlash p) := by
  induction p with
  | nil => exact ⟨by simp [splitSlash], by simp [splitSlash], rfl⟩
  | cons c p ih =>
    obtain ⟨h1, h2, h3⟩ := ih
    refine ⟨splitSlash_ne _, ?_, ?_⟩
    · unfold splitSlash
      split
      · intro x hx
        rcases List.mem_cons.1 hx with rfl | hx
        · simp
        · exact h2 x hx
      · rename_i hc
        split
        · rename_i seg segs heq
          intro x hx
          rw [heq] at h2
          rcases List.mem_cons.1 hx with rfl | hx
          · simp only [List.mem_cons, not_or]
            exact ⟨fun h => hc h.symm, h2 seg (by simp)⟩
          · exact h2 x (by simp [hx])
        · intro x hx
          simp at hx
          subst hx
          simp only [List.mem_singleton]
          exact fun h => hc h.symm
    · unfold splitSlash
      cases hs : splitSlash p with
      | nil => exact absurd hs h1
      | cons seg segs =>
        rw [hs] at h3
        split
        · rename_i hc
          subst hc
          rw [intercalate_cons2, h3]; rfl
        · cases segs with
          | nil => rw [intercalate_one] at h3 ⊢; rw [h3]
          | cons y r =>
            rw [intercalate_cons2] at h3 ⊢
            rw [← h3]; rfl

theorem splitSlash_unique {p : List Char} {segs : List (List Char)} (h : IsSegments p segs) :
    segs = splitSlash p := by
  obtain ⟨h1, h2, h3⟩ := h
  induction p generalizing segs with
  | nil =>
    cases segs with
    | nil => exact absurd rfl h1
    | cons x r =>
      cases r with
      | nil => rw [intercalate_one] at h3; subst h3; rfl
      | cons y r => rw [intercalate_cons2] at h3; simp at h3
  | cons c p ih =>
    cases segs with
    | nil => exact absurd rfl h1
    | cons x r =>
      cases x with
      | nil =>
        cases r with
        | nil => rw [intercalate_one] at h3; simp at h3
        | cons y r =>
          rw [intercalate_cons2] at h3
          simp only [List.nil_append, List.cons.injEq] at h3
          obtain ⟨rfl, h3⟩ := h3
          have := ih (by simp) (fun z hz => h2 z (by simp at hz ⊢; tauto)) h3
          unfold splitSlash
          rw [if_pos rfl, ← this]
      | cons a x =>
        have hac : a = c := by
          cases r with
          | nil => rw [intercalate_one] at h3; simp at h3; exact h3.1
          | cons y r => rw [intercalate_cons2] at h3; simp at h3; exact h3.1
        subst hac
        have ha : a ≠ '/' := by
          rintro rfl
          exact h2 _ (List.mem_cons_self ..) (by simp)
        have h3' : List.intercalate ['/'] (x :: r) = p := by
          cases r with
          | nil => rw [intercalate_one] at h3 ⊢; simpa using h3
          | cons y r => rw [intercalate_cons2] at h3 ⊢; simpa using h3
        have := ih (segs := x :: r) (by simp) (by
          intro z hz
          rcases List.mem_cons.1 hz with rfl | hz
          · intro hmem
            exact h2 (a :: z) (by simp) (by simp [hmem])
          · exact h2 z (by simp [hz])) h3'
        unfold splitSlash
        rw [if_neg ha, ← this]

theorem globstar_iff (k : List (List Char) → Bool) (ss : List (List Char)) :
    globstar fl k ss = true ↔ ∃ skipped rest, ss = skipped ++ rest ∧
      (fl.dotmatch = true ∨ ∀ x ∈ skipped, x.head? ≠ some '.') ∧ k rest = true := by
  induction ss with
  | nil =>
    simp only [globstar]
    constructor
    · intro h; exact ⟨[], [], rfl, Or.inr (by simp), h⟩
    · rintro ⟨sk, rest, h1, _, h3⟩
      have : sk = [] ∧ rest = [] := by simpa using h1.symm
      rw [this.2] at h3; exact h3
  | cons s ss ih =>
    simp only [globstar]
    by_cases hk : k (s :: ss) = true
    · rw [if_pos hk]
      simp only [true_iff]
      exact ⟨[], s :: ss, rfl, Or.inr (by simp), hk⟩
    · rw [if_neg hk]
      by_cases hd : (s.head? == some '.' && !fl.dotmatch) = true
      · rw [if_pos hd]
        simp only [Bool.false_eq_true, false_iff]
        rintro ⟨sk, rest, h1, h2, h3⟩
        simp only [Bool.and_eq_true, beq_iff_eq, Bool.not_eq_true'] at hd
        cases sk with
        | nil => simp at h1; subst h1; exact hk h3
        | cons x sk =>
          simp at h1
          rcases h2 with h2 | h2
          · rw [hd.2] at h2; simp at h2
          · exact h2 x (by simp) (h1.1 ▸ hd.1)
      · rw [if_neg hd, ih]
        simp only [Bool.and_eq_true, beq_iff_eq, Bool.not_eq_true', not_and, Bool.not_eq_false] at hd
        constructor
        · rintro ⟨sk, rest, rfl, h2, h3⟩
          refine ⟨s :: sk, rest, rfl, ?_, h3⟩
          rcases h2 with h2 | h2
          · exact Or.inl h2
          · by_cases hs : s.head? = some '.'
            · exact Or.inl (hd hs)
            · right
              intro x hx
              rcases List.mem_cons.1 hx with rfl | hx
              · exact hs
              · exact h2 x hx
        · rintro ⟨sk, rest, h1, h2, h3⟩
          cases sk with
          | nil => simp at h1; subst h1; exact absurd h3 hk
          | cons x sk =>
            simp at h1
            refine ⟨sk, rest, h1.2, ?_, h3⟩
            rcases h2 with h2 | h2
            · exact Or.inl h2
            · exact Or.inr fun y hy => h2 y (by simp [hy])

theorem matchSegments_iff (ps ss : List (List Char)) :
    matchSegments lower fl ps ss = true ↔ PathMatches lower fl ps ss := by
  induction ps generalizing ss with
  | nil =>
    simp only [matchSegments, List.isEmpty_iff]
    constructor
    · rintro rfl; exact .done
    · intro h; cases h; rfl
  | cons p ps ih =>
    simp only [matchSegments]
    by_cases hg : p = ['*', '*'] ∧ ps ≠ []
    · rw [if_pos hg, globstar_iff]
      obtain ⟨rfl, hne⟩ := hg
      constructor
      · rintro ⟨sk, rest, rfl, h2, h3⟩
        exact .globstar hne h2 ((ih rest).1 h3)
      · intro h
        cases h with
        | segment h1 _ _ => rcases h1 with h1 | h1 <;> contradiction
        | globstar _ h2 h3 => exact ⟨_, _, rfl, h2, (ih _).2 h3⟩
    · rw [if_neg hg]
      have hg' : p ≠ ['*', '*'] ∨ ps = [] := by
        by_cases h : p = ['*', '*']
        · right
          by_contra hne
          exact hg ⟨h, hne⟩
        · exact Or.inl h
      cases ss with
      | nil =>
        simp only [Bool.false_eq_true, false_iff]
        generalize hp : p :: ps = pp
        generalize hs : ([] : List (List Char)) = ss'
        intro h
        cases h with
        | done => simp at hp
        | segment _ _ _ => simp at hs
        | globstar h1 _ _ =>
          simp only [List.cons.injEq] at hp
          exact hg ⟨hp.1, hp.2 ▸ h1⟩
      | cons s ss =>
        simp only [Bool.and_eq_true, matchChars_iff, ih]
        constructor
        · rintro ⟨h1, h2⟩
          exact .segment hg' h1 h2
        · generalize hp : p :: ps = pp
          generalize hs : s :: ss = ss'
          intro h
          cases h with
          | done => simp at hp
          | segment _ h1 h2 =>
            simp only [List.cons.injEq] at hp hs
            obtain ⟨rfl, rfl⟩ := hp
            obtain ⟨rfl, rfl⟩ := hs
            exact ⟨h1, h2⟩
          | globstar h1 _ _ =>
            simp only [List.cons.injEq] at hp
            exact absurd ⟨hp.1, hp.2 ▸ h1⟩ hg

theorem fnmatchPlain_iff (pat name : List Char) :
    fnmatchPlain lower fl pat name = true ↔ Denotes lower fl pat name := by
  unfold fnmatchPlain Denotes
  split
  · rw [matchSegments_iff]
    constructor
    · intro h
      exact ⟨_, _, splitSlash_isSegments pat, splitSlash_isSegments name, h⟩
    · rintro ⟨ps, ss, h1, h2, h3⟩
      rw [splitSlash_unique h1, splitSlash_unique h2] at h3
      exact h3
  · exact matchChars_iff pat name

/-! ## Braces -/

def Pat.append : Pat → Pat → Pat
  | .nil, q => q
  | .ch c r, q => .ch c (r.append q)
  | .esc c r, q => .esc c (r.append q)
  | .group a r, q => .group a (r.append q)

theorem Pat.text_append : ∀ (p q : Pat), (p.append q).text = p.text ++ q.text
  | .nil, q => by simp [Pat.append, Pat.text]
  | .ch c r, q => by simp [Pat.append, Pat.text, Pat.text_append r q]
  | .esc c r, q => by simp [Pat.append, Pat.text, Pat.text_append r q]
  | .group a r, q => by simp [Pat.append, Pat.text, Pat.text_append r q]

theorem Pat.words_append : ∀ (p q : Pat),
    (p.append q).words = p.words.flatMap fun w => q.words.map (w ++ ·)
  | .nil, q => by simp [Pat.append, Pat.words]
  | .ch c r, q => by
    simp [Pat.append, Pat.words, Pat.words_append r q, List.map_flatMap, List.flatMap_map]
    rfl
  | .esc c r, q => by
    simp [Pat.append, Pat.words, Pat.words_append r q, List.map_flatMap, List.flatMap_map]
    rfl
  | .group a r, q => by
    simp [Pat.append, Pat.words, Pat.words_append r q, List.map_flatMap, List.flatMap_map,
      List.flatMap_assoc, Function.comp_def]

theorem Pat.ok_append {ne g : Bool} : ∀ (p q : Pat), p.Ok ne g → q.Ok ne g → (p.append q).Ok ne g
  | .nil, q, _, h => by simpa [Pat.append] using h
  | .ch c r, q, h, h' => by
    simp only [Pat.append, Pat.Ok] at h ⊢
    exact ⟨h.1, h.2.1, h.2.2.1, h.2.2.2.1, Pat.ok_append r q h.2.2.2.2 h'⟩
  | .esc c r, q, h, h' => by
    simp only [Pat.append, Pat.Ok] at h ⊢
    exact ⟨h.1, Pat.ok_append r q h.2 h'⟩
  | .group a r, q, h, h' => by
    simp only [Pat.append, Pat.Ok] at h ⊢
    exact ⟨h.1, Pat.ok_append r q h.2 h'⟩

theorem Pat.ok_outside {ne : Bool} : ∀ (p : Pat), p.Ok ne true → p.Ok ne false
  | .nil, _ => by simp [Pat.Ok]
  | .ch c r, h => by
    simp only [Pat.Ok] at h ⊢
    exact ⟨h.1, h.2.1, h.2.2.1, by simp, Pat.ok_outside r h.2.2.2.2⟩
  | .esc c r, h => by
    simp only [Pat.Ok] at h ⊢
    exact ⟨h.1, Pat.ok_outside r h.2⟩
  | .group a r, h => by
    simp only [Pat.Ok] at h ⊢
    exact ⟨h.1, Pat.ok_outside r h.2⟩

def Alts.list : Alts → List Pat
  | .one p => [p]
  | .cons p more => p :: more.list

theorem Alts.words_list : ∀ a : Alts, a.words = a.list.flatMap Pat.words
  | .one p => by simp [Alts.words, Alts.list]
  | .cons p more => by simp [Alts.words, Alts.list, Alts.words_list more]

theorem Alts.list_ok {ne : Bool} : ∀ a : Alts, a.Ok ne → ∀ p ∈ a.list, p.Ok ne true ∧
    p.text.length ≤ a.text.length
  | .one p, h => by
    intro q hq
    simp only [Alts.list, List.mem_singleton] at hq
    subst hq
    simp only [Alts.Ok] at h
    exact ⟨h, by simp [Alts.text]⟩
  | .cons p more, h => by
    intro q hq
    simp only [Alts.Ok] at h
    simp only [Alts.list, List.mem_cons] at hq
    rcases hq with rfl | hq
    · exact ⟨h.1, by simp [Alts.text]⟩
    · have := Alts.list_ok more h.2 q hq
      exact ⟨this.1, by simp [Alts.text]; omega⟩

/-! ### Scanning -/

theorem scan_ch {ne : Bool} {c : Char} (h1 : c ≠ '{') (h2 : c ≠ '}') (h3 : c ≠ '\\' ∨ ne = true)
    (before o d tail) : scan ne before o d (c :: tail) =
      scan ne (before ++ [c]) (o.map fun o => (o.1, o.2 ++ [c])) d tail := by
  by_cases hc : c = '\\'
  · subst hc
    have hne : ne = true := by rcases h3 with h | h; exact absurd rfl h; exact h
    subst hne
    cases tail with
    | nil => rw [scan.eq_def]; simp
    | cons x tail => rw [scan]; simp
  · rw [scan.eq_def]
    split
    · rename_i heq; simp at heq
    · rename_i heq; simp at heq; exact absurd heq.1 hc
    · rename_i heq
      simp only [List.cons.injEq] at heq
      obtain ⟨rfl, rfl⟩ := heq
      rw [if_neg h1, if_neg h2]

theorem scan_esc (c : Char) (before o d tail) : scan false before o d ('\\' :: c :: tail) =
    scan false (before ++ ['\\', c]) (o.map fun o => (o.1, o.2 ++ ['\\', c])) d tail := by
  rw [scan]; simp

theorem scan_open {ne : Bool} {d : Nat} (hd : d ≠ 0) (before o tail) :
    scan ne before o d ('{' :: tail) =
      scan ne (before ++ ['{']) (o.map fun o => (o.1, o.2 ++ ['{'])) (d + 1) tail := by
  rw [scan.eq_def]
  simp [hd]

theorem scan_close {ne : Bool} {d : Nat} (hd : d ≠ 0) (before o tail) :
    scan ne before o (d + 1) ('}' :: tail) =
      scan ne (before ++ ['}']) (o.map fun o => (o.1, o.2 ++ ['}'])) d tail := by
  rw [scan.eq_def]
  simp [hd]

theorem map_map_app (o : Option (List Char × List Char)) (x y : List Char) :
    ((o.map fun o => (o.1, o.2 ++ x)).map fun o => (o.1, o.2 ++ y)) =
      o.map fun o => (o.1, o.2 ++ (x ++ y)) := by
  cases o <;> simp

mutual
theorem Pat.scan_text {ne g : Bool} : ∀ (p : Pat), p.Ok ne g → ∀ (d : Nat), d ≠ 0 →
    ∀ before o tail, scan ne before o d (p.text ++ tail) =
      scan ne (before ++ p.text) (o.map fun o => (o.1, o.2 ++ p.text)) d tail
  | .nil, _, d, hd, before, o, tail => by cases o <;> simp [Pat.text]
  | .ch c r, h, d, hd, before, o, tail => by
    simp only [Pat.Ok] at h
    rw [Pat.text, List.cons_append, scan_ch h.1 h.2.1 h.2.2.1,
      Pat.scan_text r h.2.2.2.2 d hd, map_map_app]
    simp
  | .esc c r, h, d, hd, before, o, tail => by
    simp only [Pat.Ok] at h
    obtain ⟨rfl, h⟩ := h
    rw [Pat.text, List.cons_append, List.cons_append, scan_esc,
      Pat.scan_text r h d hd, map_map_app]
    simp
  | .group a r, h, d, hd, before, o, tail => by
    simp only [Pat.Ok] at h
    rw [Pat.text, List.cons_append, List.append_assoc, List.cons_append, scan_open hd,
      Alts.scan_text a h.1 (d + 1) (by omega), scan_close hd, Pat.scan_text r h.2 d hd]
    simp only [map_map_app]
    simp
theorem Alts.scan_text {ne : Bool} : ∀ (a : Alts), a.Ok ne → ∀ (d : Nat), d ≠ 0 →
    ∀ before o tail, scan ne before o d (a.text ++ tail) =
      scan ne (before ++ a.text) (o.map fun o => (o.1, o.2 ++ a.text)) d tail
  | .one p, h, d, hd, before, o, tail => by
    simp only [Alts.Ok] at h
    rw [Alts.text, Pat.scan_text p h d hd]
  | .cons p more, h, d, hd, before, o, tail => by
    simp only [Alts.Ok] at h
    rw [Alts.text, List.append_assoc, List.cons_append, Pat.scan_text p h.1 d hd,
      scan_ch (by simp) (by simp) (by simp), Alts.scan_text more h.2 d hd]
    simp only [map_map_app]
    simp
end

/-- Either no group, or the first one with what is before and after. -/
theorem Pat.first_group {ne : Bool} : ∀ (p : Pat), p.Ok ne false → ∀ before,
    (scan ne before none 0 p.text = none ∧ p.words = [p.text]) ∨
    ∃ pre a r, p = Pat.append pre (.group a r) ∧ pre.Ok ne false ∧ pre.words = [pre.text] ∧
      a.Ok ne ∧ r.Ok ne false ∧
      scan ne before none 0 p.text = some (before ++ pre.text, a.text, r.text)
  | .nil, _, before => Or.inl ⟨by simp [Pat.text, scan], by simp [Pat.words, Pat.text]⟩
  | .ch c r, h, before => by
    have h0 := h
    simp only [Pat.Ok] at h
    rw [Pat.text, scan_ch h.1 h.2.1 h.2.2.1]
    rcases Pat.first_group r h.2.2.2.2 (before ++ [c]) with ⟨h1, h2⟩ |
      ⟨pre, a, r', rfl, h2, h3, h4, h5, h6⟩
    · exact Or.inl ⟨h1, by simp [Pat.words, h2]⟩
    · refine Or.inr ⟨.ch c pre, a, r', rfl, ?_, by simp [Pat.words, Pat.text, h3], h4, h5, ?_⟩
      · simp only [Pat.Ok]
        exact ⟨h.1, h.2.1, h.2.2.1, by simp, h2⟩
      · simpa [Pat.text] using h6
  | .esc c r, h, before => by
    simp only [Pat.Ok] at h
    obtain ⟨rfl, h⟩ := h
    rw [Pat.text, scan_esc]
    rcases Pat.first_group r h (before ++ ['\\', c]) with ⟨h1, h2⟩ |
      ⟨pre, a, r', rfl, h2, h3, h4, h5, h6⟩
    · exact Or.inl ⟨h1, by simp [Pat.words, h2]⟩
    · refine Or.inr ⟨.esc c pre, a, r', rfl, ?_, by simp [Pat.words, Pat.text, h3], h4, h5, ?_⟩
      · simp only [Pat.Ok]
        exact ⟨trivial, h2⟩
      · simpa [Pat.text] using h6
  | .group a r, h, before => by
    simp only [Pat.Ok] at h
    refine Or.inr ⟨.nil, a, r, rfl, by simp [Pat.Ok], by simp [Pat.words, Pat.text], h.1, h.2, ?_⟩
    have h0 : scan ne before none 0 ('{' :: (a.text ++ '}' :: r.text)) =
        scan ne (before ++ ['{']) (some (before, [])) 1 (a.text ++ '}' :: r.text) := by
      rw [scan.eq_def]; simp
    have h1 : ∀ b ins, scan ne b (some (before, ins)) 1 ('}' :: r.text) =
        some (before, ins, r.text) := by
      intro b ins
      rw [scan.eq_def]; simp
    rw [Pat.text.eq_4, h0, Alts.scan_text a h.1 1 (by omega)]
    simp [Pat.text, h1]

/-! ### Splitting -/

theorem split_ch {ne : Bool} {c : Char} (h1 : c ≠ '{') (h2 : c ≠ '}') (h3 : c ≠ '\\' ∨ ne = true)
    {d : Nat} (h4 : c ≠ ',' ∨ d ≠ 0) (cur tail) :
    splitCommas ne cur d (c :: tail) = splitCommas ne (cur ++ [c]) d tail := by
  have h4' : ¬ (c = ',' ∧ d = 0) := by tauto
  by_cases hc : c = '\\'
  · subst hc
    have hne : ne = true := by rcases h3 with h | h; exact absurd rfl h; exact h
    subst hne
    cases tail with
    | nil => rw [splitCommas.eq_def]; simp
    | cons x tail => rw [splitCommas]; simp
  · rw [splitCommas.eq_def]
    split
    · rename_i heq; simp at heq
    · rename_i heq; simp at heq; exact absurd heq.1 hc
    · rename_i heq
      simp only [List.cons.injEq] at heq
      obtain ⟨rfl, rfl⟩ := heq
      rw [if_neg h1, if_neg h2, if_neg h4']

theorem split_esc (c : Char) (cur d tail) : splitCommas false cur d ('\\' :: c :: tail) =
    splitCommas false (cur ++ ['\\', c]) d tail := by
  rw [splitCommas]; simp

theorem split_open {ne : Bool} {d : Nat} (cur tail) :
    splitCommas ne cur d ('{' :: tail) = splitCommas ne (cur ++ ['{']) (d + 1) tail := by
  rw [splitCommas.eq_def]
  simp

theorem split_close {ne : Bool} {d : Nat} (cur tail) :
    splitCommas ne cur (d + 1) ('}' :: tail) = splitCommas ne (cur ++ ['}']) d tail := by
  rw [splitCommas.eq_def]
  simp

mutual
theorem Pat.split_text {ne : Bool} : ∀ (p : Pat), p.Ok ne true → ∀ (d : Nat),
    ∀ cur tail, splitCommas ne cur d (p.text ++ tail) = splitCommas ne (cur ++ p.text) d tail
  | .nil, _, d, cur, tail => by simp [Pat.text]
  | .ch c r, h, d, cur, tail => by
    simp only [Pat.Ok] at h
    rw [Pat.text, List.cons_append, split_ch h.1 h.2.1 h.2.2.1 (Or.inl (h.2.2.2.1 trivial)),
      Pat.split_text r h.2.2.2.2 d]
    simp
  | .esc c r, h, d, cur, tail => by
    simp only [Pat.Ok] at h
    obtain ⟨rfl, h⟩ := h
    rw [Pat.text, List.cons_append, List.cons_append, split_esc, Pat.split_text r h d]
    simp
  | .group a r, h, d, cur, tail => by
    simp only [Pat.Ok] at h
    rw [Pat.text, List.cons_append, List.append_assoc, List.cons_append, split_open,
      Alts.split_text a h.1 (d + 1) (by omega), split_close, Pat.split_text r h.2 d]
    simp
theorem Alts.split_text {ne : Bool} : ∀ (a : Alts), a.Ok ne → ∀ (d : Nat), d ≠ 0 →
    ∀ cur tail, splitCommas ne cur d (a.text ++ tail) = splitCommas ne (cur ++ a.text) d tail
  | .one p, h, d, hd, cur, tail => by
    simp only [Alts.Ok] at h
    rw [Alts.text, Pat.split_text p h d]
  | .cons p more, h, d, hd, cur, tail => by
    simp only [Alts.Ok] at h
    rw [Alts.text, List.append_assoc, List.cons_append, Pat.split_text p h.1 d,
      split_ch (by simp) (by simp) (by simp) (Or.inr hd), Alts.split_text more h.2 d hd]
    simp
end

theorem Alts.split_list {ne : Bool} : ∀ (a : Alts), a.Ok ne →
    splitCommas ne [] 0 a.text = a.list.map Pat.text
  | .one p, h => by
    simp only [Alts.Ok] at h
    have := Pat.split_text p h 0 [] []
    rw [List.append_nil] at this
    rw [Alts.text, this]
    simp [splitCommas, Alts.list]
  | .cons p more, h => by
    simp only [Alts.Ok] at h
    rw [Alts.text, Pat.split_text p h.1 0, splitCommas.eq_def]
    simp [Alts.split_list more h.2, Alts.list]

theorem expandAux_text {ne : Bool} (fuel : Nat) (p : Pat) (hp : p.Ok ne false)
    (hf : p.text.length ≤ fuel) : expandAux ne fuel p.text = p.words := by
  induction fuel generalizing p with
  | zero =>
    have h0 : p.text = [] := List.eq_nil_of_length_eq_zero (by omega)
    cases p with
    | nil => simp [expandAux, Pat.text, Pat.words]
    | ch c r => simp [Pat.text] at h0
    | esc c r => simp [Pat.text] at h0
    | group a r => simp [Pat.text] at h0
  | succ fuel ih =>
    unfold expandAux
    rcases Pat.first_group p hp [] with ⟨h1, h2⟩ | ⟨pre, a, r, rfl, h2, h3, h4, h5, h6⟩
    · rw [h1, h2]
    · rw [h6]
      dsimp only
      rw [Alts.split_list a h4, List.flatMap_map, Pat.words_append, h3]
      simp only [List.flatMap_cons, List.flatMap_nil, List.append_nil, Pat.words]
      rw [Alts.words_list, List.flatMap_assoc, List.map_flatMap]
      have key : ∀ q ∈ a.list, expandAux ne fuel ([] ++ pre.text ++ q.text ++ r.text) =
          (q.words.flatMap fun w => r.words.map (w ++ ·)).map (pre.text ++ ·) := by
        intro q hq
        obtain ⟨k1, k2⟩ := Alts.list_ok a h4 q hq
        have hlen : (pre.append (q.append r)).text.length ≤ fuel := by
          rw [Pat.text_append, Pat.text] at hf
          rw [Pat.text_append, Pat.text_append]
          simp at hf ⊢
          omega
        have := ih (pre.append (q.append r))
          (Pat.ok_append _ _ h2 (Pat.ok_append _ _ (Pat.ok_outside q k1) h5)) hlen
        rw [Pat.text_append, Pat.text_append, ← List.append_assoc] at this
        rw [List.nil_append, this, Pat.words_append, h3, Pat.words_append]
        simp
      rw [List.flatMap_def, List.flatMap_def]
      congr 1
      exact List.map_congr_left key

theorem expandBraces_text {ne : Bool} (p : Pat) (hp : p.Ok ne false) :
    expandBraces ne p.text = p.words := expandAux_text _ p hp (Nat.le_refl _)

end Verif.Fnmatch
