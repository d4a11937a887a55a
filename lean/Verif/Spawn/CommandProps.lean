import Verif.Spawn.Command
/-!
# A command line means what the shell makes of it (C167)
-/

namespace Verif.Spawn

/-- What a shell separates words at, in a line. -/
def blank (c : Char) : Bool := c == ' ' || c == '\t'

def isAssignment (w : Str) : Bool := w.contains '=' && w.head? != some '='

/-- What happens: variables set, and the words of the command. -/
structure Meaning where
  assigns : List Str
  argv : List Str
deriving DecidableEq, Repr

/-- A shell on a line without special characters: a word that begins with `#` begins
a comment, and assignments stand before the command. -/
def shellMeaning (s : Str) : Meaning :=
  let ws := (splitOn blank s).takeWhile fun w => w.head? != some '#'
  ⟨ws.takeWhile isAssignment, ws.dropWhile isAssignment⟩

/-- What happens with a start. -/
def meaning : Start → Meaning
  | .shell t _ => shellMeaning t
  | .direct p as => ⟨[], p :: as⟩

theorem splitOn_congr (p q : Char → Bool) (s : Str) (h : ∀ c ∈ s, p c = q c) :
    splitOn p s = splitOn q s := by
  induction s with
  | nil => rfl
  | cons c cs ih =>
    have hc := h c List.mem_cons_self
    have ih := ih fun d hd => h d (List.mem_cons_of_mem _ hd)
    cases cs with
    | nil => simp [splitOn, hc]
    | cons d ds =>
      have hd := h d (List.mem_cons_of_mem _ List.mem_cons_self)
      rw [splitOn, splitOn.eq_def q (c :: d :: ds)]
      simp only [hc, hd, ih]

/-- The words have no separators, are not empty, and together are everything else. -/
theorem C167_split (p : Char → Bool) (s : Str) :
    (∀ w ∈ splitOn p s, w ≠ [] ∧ ∀ c ∈ w, p c = false) ∧
      (splitOn p s).flatten = s.filter fun c => !p c := by
  induction s with
  | nil => simp [splitOn]
  | cons c cs ih =>
    by_cases hc : p c = true
    · simp only [splitOn, hc, if_true, List.filter_cons, Bool.not_true, Bool.false_eq_true, if_false]
      exact ih
    · have hc' : p c = false := by simpa using hc
      cases cs with
      | nil => simp [splitOn, hc']
      | cons d ds =>
        rw [splitOn]
        simp only [hc', Bool.false_eq_true, if_false]
        by_cases hd : p d = true
        · simp only [hd, if_true]
          refine ⟨?_, ?_⟩
          · intro w hw
            rcases List.mem_cons.1 hw with rfl | hw
            · simp [hc']
            · exact ih.1 w hw
          · rw [List.flatten_cons, ih.2]
            simp [List.filter_cons, hc']
        · simp only [hd, Bool.false_eq_true, if_false]
          cases hs : splitOn p (d :: ds) with
          | nil =>
            rw [hs] at ih
            have hf := ih.2
            simp [List.filter_cons, hd] at hf
          | cons w ws =>
            rw [hs] at ih
            refine ⟨?_, ?_⟩
            · intro x hx
              rcases List.mem_cons.1 hx with rfl | hx
              · refine ⟨by simp, ?_⟩
                intro y hy
                rcases List.mem_cons.1 hy with rfl | hy
                · exact hc'
                · exact (ih.1 w List.mem_cons_self).2 y hy
              · exact ih.1 x (List.mem_cons_of_mem _ hx)
            · have hf := ih.2
              rw [List.flatten_cons] at hf ⊢
              rw [List.cons_append, hf, List.filter_cons (x := c)]
              simp [hc']

theorem mem_of_word {p : Char → Bool} {s w : Str} (hw : w ∈ splitOn p s) {c : Char} (hc : c ∈ w) :
    c ∈ s := by
  have : c ∈ (splitOn p s).flatten := List.mem_flatten.2 ⟨w, hw, hc⟩
  rw [(C167_split p s).2] at this
  exact (List.mem_filter.1 this).1

theorem takeWhile_all {α : Type} {p : α → Bool} {l : List α} (h : ∀ x ∈ l, p x = true) :
    l.takeWhile p = l := by
  induction l with
  | nil => rfl
  | cons a l ih =>
    rw [List.takeWhile_cons, h a List.mem_cons_self, if_pos rfl,
      ih fun x hx => h x (List.mem_cons_of_mem _ hx)]

theorem while_none {α : Type} {p : α → Bool} {l : List α} (h : ∀ x ∈ l, p x = false) :
    l.takeWhile p = [] ∧ l.dropWhile p = l := by
  cases l with
  | nil => exact ⟨rfl, rfl⟩
  | cons a l => simp [h a List.mem_cons_self]

/-- C167.  A command given as one string means what the shell makes of it, for
commands that are not blank and have no `#`, no `=` and no white space other than
space, tab and newline.  Missing: those characters. -/
theorem C167_line_partial (s : Str) (hb : splitOn uniSpace s ≠ [])
    (hs : ∀ c ∈ s, c ≠ '#' ∧ c ≠ '=' ∧ (uniSpace c = true → c = ' ' ∨ c = '\t' ∨ c = '\n')) :
    meaning (spawn s []) = shellMeaning s ∧ meaning (system s []) = shellMeaning s := by
  have hsys : system s [] = prepare s := by
    simp only [system]
    cases prepare s <;> simp
  rw [hsys]
  simp only [spawn, and_self]
  simp only [prepare]
  split
  · rfl
  · rename_i hm
    simp only [Bool.or_eq_true, not_or, Bool.not_eq_true] at hm
    have hnl : ∀ c ∈ s, c ≠ '\n' := by
      intro c hc e
      have := List.any_eq_false.1 hm.1 c hc
      subst e
      exact this (by decide)
    have he : splitOn uniSpace s = splitOn blank s := by
      apply splitOn_congr
      intro c hc
      cases hu : uniSpace c with
      | true =>
        rcases (hs c hc).2.2 hu with rfl | rfl | rfl
        · rfl
        · rfl
        · exact absurd rfl (hnl _ hc)
      | false =>
        symm
        simp only [blank, Bool.or_eq_false_iff, beq_eq_false_iff_ne]
        constructor <;> (rintro rfl; exact absurd hu (by decide))
    have h1 : (splitOn blank s).takeWhile (fun w => w.head? != some '#') = splitOn blank s := by
      apply takeWhile_all
      intro w hw
      simp only [bne_iff_ne, ne_eq]
      intro e
      exact (hs '#' (mem_of_word hw (List.mem_of_mem_head? (by rw [e]; rfl)))).1 rfl
    have h2 := while_none (p := isAssignment) (l := splitOn blank s) (by
      intro w hw
      simp only [isAssignment, List.contains_eq_mem, Bool.and_eq_false_iff, decide_eq_false_iff_not]
      exact .inl fun q => (hs '=' (mem_of_word hw q)).2.1 rfl)
    simp only [shellMeaning, h1, h2.1, h2.2, he] at hb ⊢
    cases hw : splitOn blank s with
    | nil => exact absurd hw hb
    | cons w ws => rfl

/-- C167.  A line with a special character, or that begins with a word of the shell,
goes to the shell as it is. -/
theorem C167_shell (s : Str) (h : (∃ c ∈ s, c ∈ metas) ∨ ∃ w ws, splitOn uniSpace s = w :: ws ∧
    w ∈ shCmds) : spawn s [] = .shell s [] ∧ system s [] = .shell s [] := by
  have : prepare s = .shell s [] := by
    simp only [prepare]
    rw [if_pos]
    rcases h with ⟨c, hc, hm⟩ | ⟨w, ws, hw, hm⟩
    · simp only [Bool.or_eq_true, List.any_eq_true]
      exact .inl ⟨c, hc, by simpa using hm⟩
    · simp [hw, hm]
  simp [spawn, system, this]

/-- C167.  With arguments, `spawn` and `exec` start the program that is named with
exactly these arguments and no shell, whatever the characters. -/
theorem C167_args (cmd a : Str) (args : List Str) :
    spawn cmd (a :: args) = .direct cmd (a :: args) := rfl

/-- `system` with arguments takes the name of the program apart at its spaces, and
gives it to a shell if it has special characters. -/
theorem C167_system_fails :
    system "my prog".toList ["x".toList] = .direct "my".toList ["prog".toList, "x".toList] ∧
    system "a;b".toList ["x".toList] = .shell "a;b".toList ["x".toList] := by
  decide +kernel

/-- What holds for `system` with arguments: names without white space and special
characters are started as they are. -/
theorem C167_system_partial (cmd : Str) (args : List Str) (hne : cmd ≠ [])
    (hw : ∀ c ∈ cmd, uniSpace c = false ∧ c ∉ metas) (hc : cmd ∉ shCmds) :
    system cmd args = .direct cmd args := by
  have hs : splitOn uniSpace cmd = [cmd] := by
    have : ∀ (s : Str), s ≠ [] → (∀ c ∈ s, uniSpace c = false) → splitOn uniSpace s = [s] := by
      intro s
      induction s with
      | nil => intro h; exact absurd rfl h
      | cons c cs ih =>
        intro _ h
        have h1 := h c List.mem_cons_self
        cases cs with
        | nil => simp [splitOn, h1]
        | cons d ds =>
          have h2 := h d (List.mem_cons_of_mem _ List.mem_cons_self)
          rw [splitOn]
          simp only [h1, h2, Bool.false_eq_true, if_false]
          rw [ih (by simp) fun x hx => h x (List.mem_cons_of_mem _ hx)]
    exact this cmd hne fun c h => (hw c h).1
  have hm : (cmd.any fun c => metas.contains c) = false := by
    rw [List.any_eq_false]
    intro c h
    simpa using (hw c h).2
  have hp : prepare cmd = .direct cmd [] := by
    simp only [prepare, hs, hm]
    simp [hc]
  simp [system, hp]

/-- An assignment before the command, a comment, and a no-break space. -/
theorem C167_line_fails :
    meaning (spawn "A=1 env".toList []) ≠ shellMeaning "A=1 env".toList ∧
    meaning (spawn "ls #x".toList []) ≠ shellMeaning "ls #x".toList ∧
    meaning (spawn "ls a\u00A0b".toList []) ≠ shellMeaning "ls a\u00A0b".toList := by
  decide +kernel

example : spawn "  ls  -l\ta ".toList [] = .direct "ls".toList ["-l".toList, "a".toList] ∧
    spawn "exit 3".toList [] = .shell "exit 3".toList [] := by decide +kernel

end Verif.Spawn
