/-!
# Glob matching

Model of `builtins/fnmatch.rs` (line numbers below refer to it): `File.fnmatch?` and the parts
`Dir.glob` shares with it.  Strings are lists of characters; indices into the pattern and the name
are replaced by the suffixes they stand for.  `char::to_lowercase().next()` is a parameter `lower`,
arbitrary in every theorem.
-/

namespace Verif.Fnmatch

/-- The flags.  l.33-37 -/
structure Flags where
  noescape : Bool := false
  pathname : Bool := false
  dotmatch : Bool := false
  casefold : Bool := false
  extglob : Bool := false
  deriving DecidableEq

/-- `fold`.  l.97-103 -/
def fold (lower : Char → Char) (casefold : Bool) (c : Char) : Char := if casefold then lower c else c

/-- The closure `read_char` of `match_bracket`: the character and the rest.  l.211-223 -/
def readChar (noescape : Bool) : List Char → Option (Char × List Char)
  | [] => none
  | ch :: rest =>
    if ch = ']' then none
    else if ch = '\\' ∧ noescape = false then
      match rest with
      | next :: rest' => some (next, rest')
      | [] => some (ch, [])
    else some (ch, rest)

/-- The loop of `match_bracket` after the optional negation: whether `c` (already folded) is
matched, and the pattern after `]`.  `fuel` bounds the turns.  l.224-248 -/
def bracketLoop (lower : Char → Char) (noescape casefold negate : Bool) (c : Char) :
    Nat → Bool → List Char → Option (Bool × List Char)
  | 0, _, _ => none
  | fuel + 1, matched, pat =>
    match pat with
    | [] => none
    | p :: rest =>
      if p = ']' then some (xor matched negate, rest)
      else
        match readChar noescape pat with
        | none => none
        | some (lo, pat1) =>
          match pat1 with
          | '-' :: n :: pat2 =>
            if n ≠ ']' then
              match readChar noescape (n :: pat2) with
              | none => none
              | some (hi, pat3) =>
                bracketLoop lower noescape casefold negate c fuel
                  (matched || (decide (fold lower casefold lo ≤ c) && decide (c ≤ fold lower casefold hi)))
                  pat3
            else
              bracketLoop lower noescape casefold negate c fuel
                (matched || fold lower casefold lo == c) pat1
          | _ =>
            bracketLoop lower noescape casefold negate c fuel
              (matched || fold lower casefold lo == c) pat1

/-- `match_bracket` on the pattern after `[`; instead of a number of characters it returns the
pattern after the bracket.  l.198-249 -/
def matchBracket (lower : Char → Char) (noescape casefold : Bool) (pat : List Char) (c : Char) :
    Option (Bool × List Char) :=
  match pat with
  | '!' :: rest => bracketLoop lower noescape casefold true (fold lower casefold c) pat.length false rest
  | '^' :: rest => bracketLoop lower noescape casefold true (fold lower casefold c) pat.length false rest
  | _ => bracketLoop lower noescape casefold false (fold lower casefold c) (pat.length + 1) false pat

/-- `while pi < pat.len() && pat[pi] == '*'`. -/
def skipStars : List Char → List Char
  | '*' :: rest => skipStars rest
  | l => l

/-- Is the first character of the rest `s` of the name protected?  `atStart`: nothing of the name
has been consumed (`si == 0`).  l.112-114 (`guard_start` is `true` at both call sites) -/
def guarded (fl : Flags) (atStart : Bool) (s : List Char) : Bool :=
  !fl.dotmatch && atStart && s.head? == some '.'

/-- A position in the name: the rest, and whether it is the whole name. -/
structure Pos where
  rest : List Char
  start : Bool

def Pos.next (p : Pos) : Pos := ⟨p.rest.tail, false⟩

/-- One attempt at the current pattern character: the position after it, if it matches.  (`*` is
treated by `run`.)  l.140-180 -/
def step (lower : Char → Char) (fl : Flags) (pat : List Char) (pos : Pos) (c : Char) :
    Option (List Char) :=
  match pat with
  | [] => none
  | '?' :: rest => if guarded fl pos.start pos.rest then none else some rest
  | '[' :: rest =>
    if guarded fl pos.start pos.rest then none
    else
      match matchBracket lower fl.noescape fl.casefold rest c with
      | some (true, rest') => some rest'
      | _ => none
  | p :: rest =>
    if p = '\\' ∧ fl.noescape = false then
      match rest with
      | q :: rest' => if fold lower fl.casefold q == fold lower fl.casefold c then some rest' else none
      | [] => if fold lower fl.casefold p == fold lower fl.casefold c then some [] else none
    else if fold lower fl.casefold p == fold lower fl.casefold c then some rest else none

/-- The loop of `match_segment_chars`; `fuel` bounds the turns, `none` means that they did not
suffice.  l.116-194 -/
def run (lower : Char → Char) (fl : Flags) :
    Nat → List Char → Pos → Option (List Char × Pos) → Option Bool
  | 0, _, _, _ => none
  | fuel + 1, pat, pos, star =>
    match pos.rest with
    | [] => some (skipStars pat).isEmpty
    | c :: _ =>
      match pat with
      | '*' :: rest =>
        run lower fl fuel (skipStars rest) pos (some (skipStars rest, pos))
      | _ =>
        match step lower fl pat pos c with
        | some pat' => run lower fl fuel pat' pos.next star
        | none =>
          match star with
          | some (spat, spos) =>
            if spos.rest ≠ [] ∧ guarded fl spos.start spos.rest = false then
              run lower fl fuel spat spos.next (some (spat, spos.next))
            else some false
          | none => some false

/-- `match_segment_chars`, and `match_segment`.  The number of turns given is enough
(`C31_terminates`).  l.90-95, 105-194 -/
def matchChars (lower : Char → Char) (fl : Flags) (pat s : List Char) : Bool :=
  (run lower fl ((s.length + 2) * (s.length + pat.length + 2)) pat ⟨s, true⟩ none).getD false

/-- `str::split('/')`. -/
def splitSlash : List Char → List (List Char)
  | [] => [[]]
  | c :: rest =>
    if c = '/' then [] :: splitSlash rest
    else
      match splitSlash rest with
      | seg :: segs => (c :: seg) :: segs
      | [] => [[c]]

/-- The loop of the globstar; `rest` is `match_segments` on the following patterns.  l.71-83 -/
def globstar (fl : Flags) (rest : List (List Char) → Bool) : List (List Char) → Bool
  | [] => rest []
  | s :: srest =>
    if rest (s :: srest) then true
    else if s.head? == some '.' && !fl.dotmatch then false
    else globstar fl rest srest

/-- `match_segments`.  l.63-88 -/
def matchSegments (lower : Char → Char) (fl : Flags) : List (List Char) → List (List Char) → Bool
  | [], strs => strs.isEmpty
  | first :: rest, strs =>
    if first = ['*', '*'] ∧ rest ≠ [] then globstar fl (matchSegments lower fl rest) strs
    else
      match strs with
      | [] => false
      | s :: srest => matchChars lower fl first s && matchSegments lower fl rest srest

/-- `fnmatch_no_extglob`.  l.50-60 -/
def fnmatchPlain (lower : Char → Char) (fl : Flags) (pattern name : List Char) : Bool :=
  if fl.pathname then matchSegments lower fl (splitSlash pattern) (splitSlash name)
  else matchChars lower fl pattern name

/-- `split_top_level_commas`.  l.302-334 -/
def splitCommas (noescape : Bool) (cur : List Char) (depth : Nat) : List Char → List (List Char)
  | [] => [cur]
  | '\\' :: d :: rest =>
    if noescape then splitCommas noescape (cur ++ ['\\']) depth (d :: rest)
    else splitCommas noescape (cur ++ ['\\', d]) depth rest
  | c :: rest =>
    if c = '{' then splitCommas noescape (cur ++ [c]) (depth + 1) rest
    else if c = '}' then splitCommas noescape (cur ++ [c]) (depth - 1) rest
    else if c = ',' ∧ depth = 0 then cur :: splitCommas noescape [] depth rest
    else splitCommas noescape (cur ++ [c]) depth rest

/-- The scan of `expand_braces` for the first complete group: `(prefix, inside, suffix)`.  `before`
is what has been scanned; `opened` the split of it at the opening brace.  l.262-298 -/
def scan (noescape : Bool) (before : List Char) (opened : Option (List Char × List Char))
    (depth : Nat) : List Char → Option (List Char × List Char × List Char)
  | [] => none
  | '\\' :: d :: rest =>
    if noescape then
      scan noescape (before ++ ['\\']) (opened.map fun o => (o.1, o.2 ++ ['\\'])) depth (d :: rest)
    else
      scan noescape (before ++ ['\\', d]) (opened.map fun o => (o.1, o.2 ++ ['\\', d])) depth rest
  | c :: rest =>
    if c = '{' then
      if depth = 0 then scan noescape (before ++ [c]) (some (before, [])) 1 rest
      else scan noescape (before ++ [c]) (opened.map fun o => (o.1, o.2 ++ [c])) (depth + 1) rest
    else if c = '}' then
      if depth - 1 = 0 then
        match opened with
        | some (pre, inside) => some (pre, inside, rest)
        | none => none
      else scan noescape (before ++ [c]) (opened.map fun o => (o.1, o.2 ++ [c])) (depth - 1) rest
    else scan noescape (before ++ [c]) (opened.map fun o => (o.1, o.2 ++ [c])) depth rest

/-- `expand_braces`; `fuel` bounds the depth of the recursion.  l.257-300 -/
def expandAux (noescape : Bool) : Nat → List Char → List (List Char)
  | 0, pattern => [pattern]
  | fuel + 1, pattern =>
    match scan noescape [] none 0 pattern with
    | none => [pattern]
    | some (pre, inside, post) =>
      (splitCommas noescape [] 0 inside).flatMap fun alt =>
        expandAux noescape fuel (pre ++ alt ++ post)

/-- Every recursion removes a pair of braces, so the length is enough. -/
def expandBraces (noescape : Bool) (pattern : List Char) : List (List Char) :=
  expandAux noescape pattern.length pattern

/-- `fnmatch`.  l.40-48 -/
def fnmatch (lower : Char → Char) (fl : Flags) (pattern name : List Char) : Bool :=
  if fl.extglob then
    (expandBraces fl.noescape pattern).any fun pat => fnmatchPlain lower fl pat name
  else fnmatchPlain lower fl pattern name

end Verif.Fnmatch
