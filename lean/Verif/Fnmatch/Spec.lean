import Verif.Fnmatch.Model

/-!
# The glob language

Stated over *atoms*: the characters of the pattern after escapes are resolved, each with the mark
whether it was escaped.  Only `Flags` is shared with the model.
-/

namespace Verif.Fnmatch

/-- A character of a pattern; `true`: it was escaped and stands for itself. -/
abbrev Atom := Char × Bool

/-- Resolve escapes: a backslash makes the next character literal, unless escapes are off or
nothing follows. -/
def atoms (noescape : Bool) : List Char → List Atom
  | [] => []
  | '\\' :: c :: rest =>
    if noescape then ('\\', false) :: atoms noescape (c :: rest) else (c, true) :: atoms noescape rest
  | c :: rest => (c, false) :: atoms noescape rest

/-- The contents of a bracket up to its `]`, as ranges (a single character is a range of one), and
what follows.  `none`: no closing bracket. -/
def ranges : List Atom → Option (List (Char × Char) × List Atom)
  | [] => none
  | (']', false) :: rest => some ([], rest)
  | lo :: ('-', false) :: hi :: rest =>
    if hi = (']', false) then some ([(lo.1, lo.1), ('-', '-')], rest)
    else (ranges rest).map fun r => ((lo.1, hi.1) :: r.1, r.2)
  | lo :: rest => (ranges rest).map fun r => ((lo.1, lo.1) :: r.1, r.2)

/-- A bracket expression after its `[`: negated?, ranges, and what follows. -/
def bracket : List Atom → Option (Bool × List (Char × Char) × List Atom)
  | ('!', false) :: rest => (ranges rest).map fun r => (true, r.1, r.2)
  | ('^', false) :: rest => (ranges rest).map fun r => (true, r.1, r.2)
  | rest => (ranges rest).map fun r => (false, r.1, r.2)

/-- Same character, up to case if asked. -/
def Same (lower : Char → Char) (fl : Flags) (c d : Char) : Prop :=
  if fl.casefold then lower c = lower d else c = d

/-- Is `d` in the range, up to case if asked? -/
def InRange (lower : Char → Char) (fl : Flags) (r : Char × Char) (d : Char) : Prop :=
  if fl.casefold then lower r.1 ≤ lower d ∧ lower d ≤ lower r.2 else r.1 ≤ d ∧ d ≤ r.2

/-- A wildcard may take `d`: not a period at the start of the name, unless `FNM_DOTMATCH`. -/
def Free (fl : Flags) (start : Bool) (d : Char) : Prop :=
  fl.dotmatch = true ∨ start = false ∨ d ≠ '.'

def Special (a : Atom) : Prop := a = ('*', false) ∨ a = ('?', false) ∨ a = ('[', false)

/-- The names a pattern matches.  `start`: the name has not been begun. -/
inductive Matches (lower : Char → Char) (fl : Flags) : List Atom → Bool → List Char → Prop
  | done {start} : Matches lower fl [] start []
  | lit {a p start d s} : ¬ Special a → Same lower fl a.1 d → Matches lower fl p false s →
      Matches lower fl (a :: p) start (d :: s)
  | any {p start d s} : Free fl start d → Matches lower fl p false s →
      Matches lower fl (('?', false) :: p) start (d :: s)
  | cls {p neg rs p' start d s} : bracket p = some (neg, rs, p') →
      ((∃ r ∈ rs, InRange lower fl r d) ↔ neg = false) → Free fl start d →
      Matches lower fl p' false s → Matches lower fl (('[', false) :: p) start (d :: s)
  | starStop {p start s} : Matches lower fl p start s →
      Matches lower fl (('*', false) :: p) start s
  | starTake {p start d s} : Free fl start d → Matches lower fl (('*', false) :: p) false s →
      Matches lower fl (('*', false) :: p) start (d :: s)

/-- Path patterns: segment by segment; `**` followed by more stands for any number of segments,
none of them hidden unless `FNM_DOTMATCH`. -/
inductive PathMatches (lower : Char → Char) (fl : Flags) :
    List (List Char) → List (List Char) → Prop
  | done : PathMatches lower fl [] []
  | segment {p ps s ss} : (p ≠ ['*', '*'] ∨ ps = []) →
      Matches lower fl (atoms fl.noescape p) true s →
      PathMatches lower fl ps ss → PathMatches lower fl (p :: ps) (s :: ss)
  | globstar {ps skipped ss} : ps ≠ [] →
      (fl.dotmatch = true ∨ ∀ x ∈ skipped, x.head? ≠ some '.') →
      PathMatches lower fl ps ss → PathMatches lower fl (['*', '*'] :: ps) (skipped ++ ss)

/-- The segments of a path: no slash in any, and joined by slashes they give the path. -/
def IsSegments (path : List Char) (segs : List (List Char)) : Prop :=
  segs ≠ [] ∧ (∀ x ∈ segs, '/' ∉ x) ∧ List.intercalate ['/'] segs = path

/-- The language of a pattern without braces. -/
def Denotes (lower : Char → Char) (fl : Flags) (pattern name : List Char) : Prop :=
  if fl.pathname then
    ∃ ps ss, IsSegments pattern ps ∧ IsSegments name ss ∧ PathMatches lower fl ps ss
  else Matches lower fl (atoms fl.noescape pattern) true name

mutual
/-- A pattern with balanced braces: plain characters, escaped characters, and groups of
alternatives. -/
inductive Pat where
  | nil
  | ch (c : Char) (rest : Pat)
  | esc (c : Char) (rest : Pat)
  | group (alts : Alts) (rest : Pat)
/-- The alternatives of a group. -/
inductive Alts where
  | one (p : Pat)
  | cons (p : Pat) (more : Alts)
end

mutual
/-- The text of a pattern. -/
def Pat.text : Pat → List Char
  | .nil => []
  | .ch c rest => c :: rest.text
  | .esc c rest => '\\' :: c :: rest.text
  | .group alts rest => '{' :: (alts.text ++ '}' :: rest.text)
def Alts.text : Alts → List Char
  | .one p => p.text
  | .cons p more => p.text ++ ',' :: more.text
end

mutual
/-- The patterns without braces it stands for: one alternative of each group, in order. -/
def Pat.words : Pat → List (List Char)
  | .nil => [[]]
  | .ch c rest => rest.words.map (c :: ·)
  | .esc c rest => rest.words.map fun w => '\\' :: c :: w
  | .group alts rest => alts.words.flatMap fun w => rest.words.map (w ++ ·)
def Alts.words : Alts → List (List Char)
  | .one p => p.words
  | .cons p more => p.words ++ more.words
end

mutual
/-- Plain characters are not braces, nor commas in a group, nor backslashes if those escape. -/
def Pat.Ok (noescape inGroup : Bool) : Pat → Prop
  | .nil => True
  | .ch c rest => c ≠ '{' ∧ c ≠ '}' ∧ (c ≠ '\\' ∨ noescape = true) ∧ (inGroup = true → c ≠ ',') ∧
      rest.Ok noescape inGroup
  | .esc _ rest => noescape = false ∧ rest.Ok noescape inGroup
  | .group alts rest => alts.Ok noescape ∧ rest.Ok noescape inGroup
def Alts.Ok (noescape : Bool) : Alts → Prop
  | .one p => p.Ok noescape true
  | .cons p more => p.Ok noescape true ∧ more.Ok noescape
end

end Verif.Fnmatch
