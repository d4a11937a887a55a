import Verif.IoBuf.IoSpec

/-!
# File.readlines

`split_records` and `chomp_line` (builtins/file.rs:1935-1996, builtins/io.rs:1317-1334).  Bytes are
`UInt8`, as in Verif/IoBuf.  Reading the file and the conversion of the arguments are not modelled.
A loop has a bound on its number of rounds; `none` means that the bound was reached.
-/

namespace Verif.Records

open Verif.IoBuf

/-- `content.windows(s.len()).position(|w| w == s)`, for a non-empty `s`. -/
def position (s : List Byte) : List Byte → Option Nat
  | [] => none
  | b :: t => if s.isPrefixOf (b :: t) then some 0 else (position s t).map (· + 1)

/-- Where the first record of `content` ends: after the first `s`, or at the end.
builtins/file.rs:1967-1971, 1979-1983 -/
def recordEnd (s content : List Byte) : Nat :=
  match position s content with
  | some p => p + s.length
  | none => content.length

/-- The limit caps a record.  builtins/file.rs:1984-1988 -/
def capEnd (limit : Option Nat) (e : Nat) : Nat :=
  match limit with
  | some l => if e > l then l else e
  | none => e

/-- The loop for a separator that is not empty.  builtins/file.rs:1976-1991 -/
def sepLoop (s : List Byte) (limit : Option Nat) : Nat → List Byte → Option (List (List Byte))
  | _, [] => some []
  | 0, _ :: _ => none
  | k + 1, content =>
    let e := capEnd limit (recordEnd s content)
    (sepLoop s limit k (content.drop e)).map (content.take e :: ·)

/-- The loop of paragraph mode.  builtins/file.rs:1954-1975 -/
def paraLoop : Nat → List Byte → Option (List (List Byte))
  | _, [] => some []
  | 0, _ :: _ => none
  | k + 1, content =>
    match content.dropWhile (· == nl) with
    | [] => some []
    | b :: r =>
      let e := recordEnd [nl, nl] (b :: r)
      (paraLoop k ((b :: r).drop e)).map ((b :: r).take e :: ·)

/-- `chomp_line`.  builtins/io.rs:1317-1334 -/
def chompLine (sep : Option (List Byte)) (buf : List Byte) : List Byte :=
  match sep with
  | none => buf
  | some [] => if [nl, nl].isSuffixOf buf then buf.take (buf.length - 2) else buf
  | some s =>
    if s.isSuffixOf buf then
      let buf := buf.take (buf.length - s.length)
      if s = [nl] ∧ [13].isSuffixOf buf then buf.dropLast else buf
    else buf

/-- `split_records`, with at most `k` rounds.  builtins/file.rs:1935-1996 -/
def splitRecords (k : Nat) (content : List Byte) (sep : Option (List Byte)) (limit : Option Nat)
    (chomp : Bool) : Option (List (List Byte)) :=
  let out := match sep with
    | none => some (if content = [] then [] else [content])
    | some [] => paraLoop k content
    | some s => sepLoop s limit k content
  if chomp then out.map (·.map (chompLine sep)) else out

end Verif.Records
