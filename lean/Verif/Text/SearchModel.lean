import Verif.Str.Model

/-!
# Searching a string for a string

`String#index`, `rindex`, `byteindex`, `byterindex` with a String argument,
`monoruby/src/builtins/string.rs` 3410-4032 (`substring_char_index`, `byte_search_fwd`,
`byte_search_rev`, `is_enc_char_boundary`, `string_rindex_string`), and `partition`, `rpartition`,
`monoruby/builtins/string.rb` 70-118.

A receiver is the list of its characters, each the list of its bytes (`iter_char_bytes`); a broken
byte is a character of its own.  The needle is its bytes.  The check that the encodings go together
comes before and is not modelled; patterns that are Regexps are not modelled.
-/

namespace Verif.Text

/-- `bounds`: the byte position where each character begins, string.rs:3907-3912 -/
def bounds : Nat → List (List Nat) → List Nat
  | _, [] => []
  | off, ch :: t => off :: bounds (off + ch.length) t

/-- `hit`, string.rs:3923-3926 -/
def hit (cs : List (List Nat)) (needle : List Nat) (cp : Nat) : Bool :=
  needle.isPrefixOf (cs.flatten.drop ((bounds 0 cs).getD cp 0))

/-- `(lo..lo + n).find(p)` -/
def findUp (p : Nat → Bool) (lo : Nat) : Nat → Option Nat
  | 0 => none
  | n + 1 => if p lo then some lo else findUp p (lo + 1) n

/-- `(0..n).rev().find(p)` -/
def findDown (p : Nat → Bool) : Nat → Option Nat
  | 0 => none
  | n + 1 => if p n then some n else findDown p n

/-- `substring_char_index`, string.rs:3900-3932 -/
def substringIndex (cs : List (List Nat)) (needle : List Nat) (anchor : Nat) (rev : Bool) :
    Option Nat :=
  let n := (bounds 0 cs).length
  if needle = [] then
    if rev then some (min anchor n) else if anchor ≤ n then some anchor else none
  else if rev then findDown (hit cs needle) (min n (anchor + 1))
  else findUp (hit cs needle) anchor (n - anchor)

/-- `conv_char_index2`, value/rvalue/string.rs:2026-2039 -/
def convCharIndex2 (n : Nat) (i : Int) : Option Nat :=
  if n = 0 ∧ i = -1 then some 0
  else if 0 ≤ i then some i.toNat
  else if (n : Int) + i < 0 then none else some ((n : Int) + i).toNat

/-- `String#index` with a String, string.rs:3417-3444 -/
def index (cs : List (List Nat)) (needle : List Nat) (pos : Int) : Option Nat :=
  (Verif.Str.convCharIndex cs.length pos).bind fun p => substringIndex cs needle p false

/-- `rmatch_indices` of Rust's `str`: the matches from the right that do not overlap one found
before; `lim` is where the match before begins (at first the end).  Positions and needle are in
characters, which for valid UTF-8 are the only places a match can begin. -/
def rmatch {α : Type} [DecidableEq α] (s n : List α) : Nat → Nat → List Nat
  | 0, _ => []
  | k + 1, lim =>
    if k + n.length ≤ lim ∧ n.isPrefixOf (s.drop k) then k :: rmatch s n k k else rmatch s n k lim

/-- the cap on the position, string.rs:3944-3953 -/
def rindexCap (len : Nat) : Option Int → Option Nat
  | none => some len
  | some i => (convCharIndex2 len i).map (min · len)

/-- `string_rindex_string` on a valid UTF-8 receiver and needle, string.rs:3935-4032: `s` and `n`
are characters -/
def rindex {α : Type} [DecidableEq α] (s n : List α) (pos : Option Int) : Option Nat :=
  (rindexCap s.length pos).bind fun cap =>
    if n = [] then some cap
    else (rmatch s n (s.length + 1) s.length).find? (· ≤ cap)

/-- `string_rindex_string` on another receiver, string.rs:3968-3975 -/
def rindexBytes (cs : List (List Nat)) (needle : List Nat) (pos : Option Int) : Option Nat :=
  (rindexCap cs.length pos).bind fun cap =>
    if needle = [] then some cap else substringIndex cs needle cap true

/-- the loop of `is_enc_char_boundary`, string.rs:3674-3682 -/
def boundaryLoop (pos : Nat) : Nat → List (List Nat) → Bool
  | off, [] => off = pos
  | off, ch :: t => if off ≥ pos then off = pos else boundaryLoop pos (off + ch.length) t

/-- `is_enc_char_boundary`, string.rs:3670-3683 -/
def isBoundary (cs : List (List Nat)) (pos : Nat) : Bool :=
  pos = 0 || pos = cs.flatten.length || boundaryLoop pos 0 cs

/-- `byte_search_fwd`, string.rs:3688-3694 -/
def byteFwd (h n : List Nat) (from_ : Nat) : Option Nat :=
  if n = [] then (if from_ ≤ h.length then some from_ else none)
  else if h.length < n.length then none
  else findUp (fun i => n.isPrefixOf (h.drop i)) from_ (h.length - n.length + 1 - from_)

/-- `byte_search_rev`, string.rs:3698-3704 -/
def byteRev (h n : List Nat) (upto : Nat) : Option Nat :=
  if n = [] then some (min upto h.length)
  else if h.length < n.length then none
  else findDown (fun i => n.isPrefixOf (h.drop i)) (min (h.length - n.length) upto + 1)

/-- answer of the byte searches: `IndexError`, or a position or `nil` -/
inductive Ans where
  | indexError
  | val (r : Option Nat)
deriving DecidableEq, Repr

/-- `String#byteindex` with a String, string.rs:3499-3540 -/
def byteindex (cs : List (List Nat)) (needle : List Nat) (offset : Int) : Ans :=
  let len := cs.flatten.length
  let off := if offset < 0 then (len : Int) + offset else offset
  if off < 0 then .val none
  else if off.toNat > len then .val none
  else if !isBoundary cs off.toNat then .indexError
  else .val (byteFwd cs.flatten needle off.toNat)

/-- `String#byterindex` with a String, string.rs:3575-3617; `none` for the argument not given -/
def byterindex (cs : List (List Nat)) (needle : List Nat) (offset : Option Int) : Ans :=
  let len := cs.flatten.length
  let off := match offset with
    | none => (len : Int)
    | some o => if o < 0 then (len : Int) + o else if o.toNat > len then (len : Int) else o
  if off < 0 then .val none
  else if !isBoundary cs off.toNat then .indexError
  else .val (byteRev cs.flatten needle off.toNat)

/-- `String#partition` with a String, string.rb:81-88: `self[0, i]`, the separator,
`self[i + sep.length..-1]`, the separator given as its characters -/
def partition (cs sep : List (List Nat)) : List (List Nat) × List (List Nat) × List (List Nat) :=
  match index cs sep.flatten 0 with
  | some i => (cs.take i, sep, cs.drop (i + sep.length))
  | none => (cs, [], [])

/-- `String#rpartition` with a String, string.rb:108-116, on valid UTF-8 -/
def rpartition {α : Type} [DecidableEq α] (s sep : List α) : List α × List α × List α :=
  match rindex s sep none with
  | some i => (s.take i, sep, s.drop (i + sep.length))
  | none => ([], [], s)

end Verif.Text
