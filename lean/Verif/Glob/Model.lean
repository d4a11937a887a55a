/-!
# Dir.glob

/repo/monoruby/src/builtins/dir.rs:513-626 (patterns), 628-812 (the walk).

Simplifications for the whole file: the file system is a finite tree that does not change during the
walk and can be read everywhere; names and patterns are abstract, with the matcher of one segment
(fnmatch.rs, Verif/Fnmatch) as a parameter; a result is the list of its segments (they are joined with
`/`); doubled slashes and the final sorting are left out, and so is braces' expansion (C31).
-/

namespace Verif.Glob

/-- A file (or anything that is no directory), or a directory with its entries.  `link` tells a symbolic
link to a directory. -/
inductive Node (N : Type) where
  | file
  | dir (link : Bool) (es : List (N × Node N))

variable {N P : Type}

def Node.isDir : Node N → Bool
  | .file => false
  | .dir _ _ => true

/-- `file_type().is_dir()`: does not follow a link. -/
def Node.isPlainDir : Node N → Bool
  | .dir false _ => true
  | _ => false

/-- dir.rs:322-335 -/
inductive Comp (P : Type) where
  | name (p : P)
  | parent
  | current
  | globstar
  deriving DecidableEq

structure Cfg (N P : Type) where
  /-- `fnmatch::match_segment` with the flags -/
  mtch : P → N → Bool
  /-- `name.starts_with('.')` -/
  hidden : N → Bool
  /-- `pat.starts_with('.')` -/
  startsDot : P → Bool
  /-- `has_meta`, dir.rs:641-653 -/
  hasMeta : P → Bool
  dotmatch : Bool
  /-- the pattern ends in `/` -/
  trailing : Bool
  dot : N
  dotdot : N

/-- dir.rs:631-638 -/
structure Reached where
  wildcard : Bool := false
  globstar : Bool := false

/-- The components of a pattern: a trailing `**` without a slash is `*`.  dir.rs:589-611 -/
def components (star : P) (trailing : Bool) (cs : List (Comp P)) : List (Comp P) :=
  if trailing then cs
  else match cs.getLast? with
    | some .globstar => cs.dropLast ++ [.name star]
    | _ => cs

/-- Whether "." is among the entries.  dir.rs:784-789 -/
def allowDot (c : Cfg N P) (r : Reached) (p : P) : Bool :=
  !r.wildcard && (c.dotmatch || (c.startsDot p && !r.globstar)) && c.mtch p c.dot

/-- `traverse_dir`: the results below `node`; `up` are the directories `PathBuf::pop` goes back to.
Simplified: with a trailing slash, a result without segments is one (`base:` given).
dir.rs:655-812 -/
def traverse (c : Cfg N P) : List (Comp P) → Node N → List (Node N) → Reached → List (List N)
  | [], node, _, _ => if c.trailing && !node.isDir then [] else [[]]
  | .parent :: cs, node, up, r =>
    match up with
    | [] => (traverse c cs node [] r).map (c.dotdot :: ·)
    | n :: up' => (traverse c cs n up' r).map (c.dotdot :: ·)
  | .current :: cs, node, up, r => (traverse c cs node up r).map (c.dot :: ·)
  | .globstar :: cs, node, up, r =>
    traverse c cs node up { r with globstar := true } ++
      match node with
      | .file => []
      | .dir l es => es.attach.flatMap fun ⟨e, hmem⟩ =>
        if e.2.isPlainDir && (!c.hidden e.1 || c.dotmatch) then
          (traverse c (.globstar :: cs) e.2 (.dir l es :: up) ⟨true, true⟩).map (e.1 :: ·)
        else []
  | .name p :: cs, node, up, r =>
    match node with
    | .file => []
    | .dir l es =>
      (es.flatMap fun e =>
        if c.mtch p e.1 then
          (traverse c cs e.2 (.dir l es :: up) { r with wildcard := r.wildcard || c.hasMeta p }).map (e.1 :: ·)
        else []) ++
      (if allowDot c r p then
        (traverse c cs (.dir l es) (.dir l es :: up)
          { r with wildcard := r.wildcard || c.hasMeta p }).map (c.dot :: ·)
      else [])
termination_by cs node => (cs.length, sizeOf node)
decreasing_by
  all_goals simp_wf
  all_goals first
    | (apply Prod.Lex.left; simp; done)
    | (apply Prod.Lex.right
       have h1 := List.sizeOf_lt_of_mem hmem
       have h2 : sizeOf e.2 < sizeOf e := by cases e; simp
       simp at *
       omega)

/-- `Dir.glob(pattern)` in a directory. -/
def glob (c : Cfg N P) (star : P) (cs : List (Comp P)) (node : Node N) (up : List (Node N)) : List (List N) :=
  traverse c (components star c.trailing cs) node up {}

end Verif.Glob
