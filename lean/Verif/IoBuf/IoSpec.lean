import Verif.IoBuf.RModel

/-!
# What the reading methods should return

Pure functions on the byte sequence that is still to be read: no kernel, no buffers, no
interrupts.  Each returns what the method returns and what is left.
-/

namespace Verif.IoBuf

/-- After a cut at the byte limit: up to `k` more bytes while the last character is incomplete. -/
def complSpec : Nat → List Byte → List Byte → List Byte × List Byte
  | 0, buf, rest => (buf, rest)
  | k + 1, buf, rest =>
    if utf8Missing buf = 0 then (buf, rest)
    else match rest with
      | [] => (buf, [])
      | b :: r => complSpec k (buf ++ [b]) r

/-- A line cut at the limit. -/
def limitSpec (complete : Bool) (buf rest : List Byte) : List Byte × List Byte :=
  if complete then complSpec 16 buf rest else (buf, rest)

/-- A line with separator `sep`: add bytes until the line ends in it, the limit is reached or
the stream ends. -/
def sepSpec (sep : List Byte) (limit : Option Nat) (complete : Bool) :
    List Byte → List Byte → List Byte × List Byte
  | buf, [] =>
    if limit.any (fun l => decide (buf.length ≥ l)) then limitSpec complete buf []
    else (buf, [])
  | buf, b :: r =>
    if limit.any (fun l => decide (buf.length ≥ l)) then limitSpec complete buf (b :: r)
    else if sep.isSuffixOf (buf ++ [b]) then (buf ++ [b], r)
    else sepSpec sep limit complete (buf ++ [b]) r

/-- A paragraph, after its first byte; the flag tells whether a blank line ended it. -/
def paraSpec (limit : Option Nat) (complete : Bool) :
    List Byte → List Byte → List Byte × Bool × List Byte
  | buf, [] =>
    if limit.any (fun l => decide (buf.length ≥ l)) then
      ((limitSpec complete buf []).1, false, (limitSpec complete buf []).2)
    else (buf, false, [])
  | buf, b :: r =>
    if limit.any (fun l => decide (buf.length ≥ l)) then
      ((limitSpec complete buf (b :: r)).1, false, (limitSpec complete buf (b :: r)).2)
    else if [nl, nl].isSuffixOf (buf ++ [b]) then (buf ++ [b], true, r)
    else paraSpec limit complete (buf ++ [b]) r

/-- `gets(sep, limit)`. -/
def lineSpec (sep : Option (List Byte)) (limit : Option Nat) (complete : Bool)
    (rest : List Byte) : Option (List Byte) × List Byte :=
  if limit = some 0 then (some [], rest)
  else match sep with
    | none =>
      match limit with
      | none => if rest = [] then (none, []) else (some rest, [])
      | some n =>
        if rest = [] then (none, [])
        else if n ≤ rest.length then
          (some (limitSpec complete (rest.take n) (rest.drop n)).1,
            (limitSpec complete (rest.take n) (rest.drop n)).2)
        else (some rest, [])
    | some [] =>
      match rest.dropWhile (· == nl) with
      | [] => (none, [])
      | b :: r =>
        (some (paraSpec limit complete [b] r).1,
          if (paraSpec limit complete [b] r).2.1 then
            (paraSpec limit complete [b] r).2.2.dropWhile (· == nl)
          else (paraSpec limit complete [b] r).2.2)
    | some s =>
      (if (sepSpec s limit complete [] rest).1 = [] then none
        else some (sepSpec s limit complete [] rest).1, (sepSpec s limit complete [] rest).2)

/-- `getc` on a UTF-8 stream. -/
def charSpec : List Byte → List Byte × List Byte
  | [] => ([], [])
  | b :: r => ((b :: r).take (charTotal b), (b :: r).drop (charTotal b))

end Verif.IoBuf
