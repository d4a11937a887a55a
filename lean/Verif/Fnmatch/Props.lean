import Verif.Fnmatch.PathLemmas

/-!
# Theorems about glob matching (C31)

`Denotes` (`Spec.lean`) is the language documented at the head of `fnmatch.rs`, written as
inductive relations; it has no backtracking and no positions.  `lower` is any function on
characters.
-/

namespace Verif.Fnmatch

variable (lower : Char → Char) (fl : Flags)

/-- **C31.** The matcher always comes to an answer: the loop ends after at most
`(|s| + 2) * (|s| + |pattern| + 2)` turns, with any more it gives the same answer, and the answer
says whether the name is in the language of the pattern. -/
theorem C31_terminates (pattern s : List Char) (fuel : Nat)
    (h : (s.length + 2) * (s.length + pattern.length + 2) ≤ fuel) :
    ∃ b, run lower fl fuel pattern ⟨s, true⟩ none = some b ∧
      (b = true ↔ Matches lower fl (atoms fl.noescape pattern) true s) :=
  run_whole pattern s fuel h

/-- **C31.** Without `FNM_EXTGLOB`, `fnmatch` is true exactly of the names in the language of the
pattern: with `FNM_PATHNAME` segment by segment, without it as a whole. -/
theorem C31_decides (pattern name : List Char) (h : fl.extglob = false) :
    fnmatch lower fl pattern name = true ↔ Denotes lower fl pattern name := by
  unfold fnmatch
  rw [h]
  exact fnmatchPlain_iff pattern name

/-- **C31.** Brace expansion gives the alternatives of every pattern with balanced braces, nested
groups included, in the order of the source. -/
theorem C31_braces_expand (noescape : Bool) (p : Pat) (hp : p.Ok noescape false) :
    expandBraces noescape p.text = p.words := expandBraces_text p hp

/-- **C31.** With `FNM_EXTGLOB`, a pattern with balanced braces matches exactly the names one of
its alternatives matches. -/
theorem C31_decides_braces (p : Pat) (name : List Char) (h : fl.extglob = true)
    (hp : p.Ok fl.noescape false) :
    fnmatch lower fl p.text name = true ↔ ∃ w ∈ p.words, Denotes lower fl w name := by
  unfold fnmatch
  rw [if_pos h, expandBraces_text p hp, List.any_eq_true]
  exact exists_congr fun w => and_congr_right fun _ => fnmatchPlain_iff w name

/-- With `FNM_PATHNAME` a wildcard never crosses a slash: a pattern without `**` matches only
names with as many segments. -/
theorem C31_pathname_depth (pattern name : List Char) (h : fl.extglob = false)
    (hp : fl.pathname = true) (ps ss : List (List Char)) (hps : IsSegments pattern ps)
    (hss : IsSegments name ss) (hstar : ['*', '*'] ∉ ps.dropLast)
    (hm : fnmatch lower fl pattern name = true) : ps.length = ss.length := by
  rw [C31_decides lower fl pattern name h] at hm
  unfold Denotes at hm
  rw [if_pos hp] at hm
  obtain ⟨ps', ss', h1, h2, h3⟩ := hm
  rw [splitSlash_unique h1, ← splitSlash_unique hps, splitSlash_unique h2,
    ← splitSlash_unique hss] at h3
  clear hps hss h1 h2
  induction h3 with
  | done => rfl
  | @segment p ps s ss _ _ _ ih =>
    have : ['*', '*'] ∉ ps.dropLast := by
      intro hmem
      cases ps with
      | nil => simp at hmem
      | cons q ps => exact hstar (by simp [List.dropLast] at hmem ⊢; tauto)
    simp [ih this]
  | @globstar ps skipped ss hne _ _ _ =>
    cases ps with
    | nil => exact absurd rfl hne
    | cons q ps => exact absurd (by simp [List.dropLast]) hstar

/-- A pattern of ordinary characters matches itself and nothing else. -/
theorem C31_literal (pattern name : List Char) (h : fl.extglob = false) (hp : fl.pathname = false)
    (hc : fl.casefold = false)
    (hord : ∀ c ∈ pattern, c ≠ '*' ∧ c ≠ '?' ∧ c ≠ '[' ∧ c ≠ '\\') :
    fnmatch lower fl pattern name = true ↔ name = pattern := by
  rw [C31_decides lower fl pattern name h]
  unfold Denotes
  rw [if_neg (by simp [hp])]
  generalize true = start
  induction pattern generalizing name start with
  | nil =>
    constructor
    · intro hm
      generalize hq : atoms fl.noescape [] = q at hm
      cases hm <;> simp_all [atoms]
    · rintro rfl; exact .done
  | cons c pattern ih =>
    obtain ⟨h1, h2, h3, h4⟩ := hord c (by simp)
    have ih' := fun name start => ih name (fun c hc => hord c (by simp [hc])) start
    rw [atoms_plain (fun h => h4 h.1)]
    have hsp : ¬ Special (c, false) := by simp [Special, h1, h2, h3]
    constructor
    · intro hm
      generalize hq : (c, false) :: atoms fl.noescape pattern = q at hm
      cases hm with
      | done => simp at hq
      | lit hns hsame hm =>
        simp only [List.cons.injEq] at hq
        obtain ⟨rfl, rfl⟩ := hq
        simp only [Same, hc] at hsame
        rw [(ih' _ _).1 hm]
        simp at hsame
        rw [hsame]
      | any _ _ => simp at hq; exact absurd hq.1 h2
      | cls _ _ _ _ => simp at hq; exact absurd hq.1 h3
      | starStop _ => simp at hq; exact absurd hq.1 h1
      | starTake _ _ => simp at hq; exact absurd hq.1 h1
    · rintro rfl
      exact .lit hsp (by simp [Same, hc]) ((ih' _ _).2 rfl)

/-- **C31, part.** A name that begins with a period is matched only by a pattern that begins with
one – for patterns that do not begin with `*`; without `FNM_DOTMATCH`.

Missing: patterns that begin with `*`.  For these the rule fails
(`C31_star_before_period_matches_hidden`). -/
theorem C31_hidden_partial (pattern name : List Char) (h : fl.extglob = false)
    (hp : fl.pathname = false) (hd : fl.dotmatch = false) (hstar : pattern.head? ≠ some '*')
    (hm : fnmatch lower fl pattern ('.' :: name) = true) :
    ∃ a rest, atoms fl.noescape pattern = a :: rest ∧ Same lower fl a.1 '.' := by
  rw [C31_decides lower fl _ _ h] at hm
  unfold Denotes at hm
  rw [if_neg (by simp [hp])] at hm
  generalize hq : atoms fl.noescape pattern = q at hm
  have hnf : ¬ Free fl true '.' := by simp [Free, hd]
  have hns : ∀ p, q ≠ ('*', false) :: p := by
    rintro p rfl
    cases pattern with
    | nil => simp [atoms] at hq
    | cons c pattern =>
      by_cases hc : c = '\\' ∧ fl.noescape = false
      · cases pattern with
        | nil =>
          rw [hc.1] at hq
          rw [atoms.eq_def] at hq
          simp at hq
        | cons d pattern =>
          obtain ⟨rfl, hne⟩ := hc
          rw [hne, atoms_esc] at hq
          simp at hq
      · rw [atoms_plain (fun h => hc ⟨h.1, h.2.1⟩)] at hq
        simp at hq
        exact hstar (by simp [hq.1])
  cases hm with
  | lit _ hs _ => exact ⟨_, _, rfl, hs⟩
  | any hf _ => exact absurd hf hnf
  | cls _ _ hf _ => exact absurd hf hnf
  | starStop _ => exact absurd rfl (hns _)
  | starTake _ _ => exact absurd rfl (hns _)

/-- **C31 fails** for patterns that begin with `*.`: whatever follows, `*.rest` matches the hidden
name `.rest`, because `*` may stand for nothing and the period that follows it is literal.  In
CRuby a period at the start of the name is matched only by a period at the start of the pattern:
`File.fnmatch("*.x", ".x")` is false there. -/
theorem C31_star_before_period_matches_hidden (rest : List Char) (h : fl.extglob = false)
    (hp : fl.pathname = false) (hc : fl.casefold = false)
    (hord : ∀ c ∈ rest, c ≠ '*' ∧ c ≠ '?' ∧ c ≠ '[' ∧ c ≠ '\\') :
    fnmatch lower fl ('*' :: '.' :: rest) ('.' :: rest) = true := by
  have h1 := (C31_literal lower fl ('.' :: rest) ('.' :: rest) h hp hc (by
    intro c hc
    rcases List.mem_cons.1 hc with rfl | hc
    · simp
    · exact hord c hc)).2 rfl
  rw [C31_decides lower fl _ _ h] at h1 ⊢
  unfold Denotes at h1 ⊢
  rw [if_neg (by simp [hp])] at h1 ⊢
  rw [atoms_plain (fun h => by simp at h)]
  exact .starStop h1

/-- **C31 fails** for patterns with a stray closing brace: no group after it is expanded.  The
documentation says only that unmatched braces are kept verbatim. -/
theorem C31_stray_brace_disables_groups (noescape : Bool) (pre post : List Char)
    (hpre : ∀ c ∈ pre, c ≠ '{' ∧ c ≠ '}' ∧ c ≠ '\\') :
    expandBraces noescape (pre ++ '}' :: post) = [pre ++ '}' :: post] := by
  have key : ∀ before, scan noescape before none 0 (pre ++ '}' :: post) = none := by
    clear * - hpre
    induction pre with
    | nil => intro before; rw [List.nil_append, scan.eq_def]; simp
    | cons c pre ih =>
      intro before
      obtain ⟨h1, h2, h3⟩ := hpre c (by simp)
      rw [List.cons_append, scan_ch h1 h2 (Or.inl h3)]
      exact ih (fun c hc => hpre c (by simp [hc])) _
  unfold expandBraces
  cases hl : (pre ++ '}' :: post).length with
  | zero => rfl
  | succ n => rw [expandAux, key]

/-! ## Cases -/

-- `a*b*c` needs backtracking on `aXbYbc`
example : fnmatch id {} "a*b*c".toList "aXbYbc".toList = true := by decide +kernel
example : fnmatch id {} "[a-c]?[!x]".toList "b.y".toList = true := by decide +kernel
example : fnmatch id {} "[]]".toList "]".toList = false := by decide +kernel
example : fnmatch id { pathname := true } "**/x*".toList "a/b/xy".toList = true := by
  decide +kernel
example : fnmatch id { pathname := true } "**/x*".toList "a/.b/xy".toList = false := by
  decide +kernel
example : fnmatch id { pathname := true } "*".toList "a/b".toList = false := by decide +kernel
-- `C31_star_before_period_matches_hidden` and the rule it breaks
example : fnmatch id {} "*.x".toList ".x".toList = true := by decide +kernel
example : fnmatch id {} "*x".toList ".x".toList = false := by decide +kernel
-- `C31_hidden_partial` meets a match
example : fnmatch id {} ".*".toList ".x".toList = true := by decide +kernel
-- the stray brace
example : fnmatch id { extglob := true } "}{a,b}".toList "}a".toList = false := by decide +kernel
example : fnmatch id { extglob := true } "{a,b}".toList "a".toList = true := by decide +kernel

/-- `x{a{1,2},\,}y`: nested groups and an escaped comma. -/
def samplePat : Pat :=
  .ch 'x' (.group (.cons (.ch 'a' (.group (.cons (.ch '1' .nil) (.one (.ch '2' .nil))) .nil))
    (.one (.esc ',' .nil))) (.ch 'y' .nil))

example : samplePat.text = "x{a{1,2},\\,}y".toList ∧ samplePat.Ok false false ∧
    samplePat.words = ["xa1y".toList, "xa2y".toList, "x\\,y".toList] := by
  refine ⟨by decide +kernel, ?_, by decide +kernel⟩
  simp [samplePat, Pat.Ok, Alts.Ok]

-- the hypotheses of `C31_pathname_depth`
example : IsSegments "a/*".toList ["a".toList, "*".toList] ∧
    fnmatch id { pathname := true } "a/*".toList "a/b".toList = true := by
  refine ⟨⟨by simp, ?_, by decide +kernel⟩, by decide +kernel⟩
  intro x hx
  simp at hx
  rcases hx with rfl | rfl <;> decide

end Verif.Fnmatch
