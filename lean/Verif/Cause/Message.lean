/-!
# Exception#detailed_message and Exception#full_message

Modelled from `monoruby/builtins/exception.rb`.  Strings are lists of characters.
-/

namespace Verif.Cause

abbrev Str := List Char

/-- An exception as these methods see it: `self.class.name` (`none` for an
anonymous class), `self.class.to_s`, whether it is an instance of RuntimeError
itself, `message.to_s`, and the backtrace (that of the caller if it was never
raised, exception.rb:102; empty if there is none either). -/
structure Exc where
  name : Option Str
  cls : Str
  runtime : Bool
  msg : Str
  bt : List Str
deriving DecidableEq, Repr

/-- `split("\n", -1)` of a non-empty String: the pieces between the newlines. -/
def pieces : Str → List Str
  | [] => [[]]
  | c :: cs =>
    if c = '\n' then [] :: pieces cs else
    match pieces cs with
    | [] => [[c]]
    | p :: ps => (c :: p) :: ps

/-- `join("\n")`. -/
def joinNl : List Str → Str
  | [] => []
  | [p] => p
  | p :: ps => p ++ '\n' :: joinNl ps

def esc : Char := Char.ofNat 27
/-- `"\e[1m"` -/
def bold : Str := esc :: "[1m".toList
/-- `"\e[1;4m"` -/
def boldUnder : Str := esc :: "[1;4m".toList
/-- `"\e[m"` -/
def off : Str := esc :: "[m".toList

/-- Models the head line (exception.rb:149-155). -/
def headLine (hl : Bool) (e : Exc) (first : Str) : Str :=
  match e.name with
  | none => if hl then bold ++ first ++ off else first
  | some _ =>
    if hl then bold ++ first ++ " (".toList ++ boldUnder ++ e.cls ++ off ++ bold ++ ")".toList ++ off
    else first ++ " (".toList ++ e.cls ++ ")".toList

/-- Models the other lines (exception.rb:156-158). -/
def restLine (hl : Bool) (l : Str) : Str :=
  if hl then (if l.isEmpty then l else bold ++ l ++ off) else l

/-- Models `Exception#detailed_message` (exception.rb:138-160). -/
def detailed (hl : Bool) (e : Exc) : Str :=
  if e.msg.isEmpty then
    let base := if e.runtime then "unhandled exception".toList else e.name.getD e.cls
    if hl then boldUnder ++ base ++ off else base
  else
    match pieces e.msg with
    | [] => []
    | first :: rest => joinNl (headLine hl e first :: rest.map (restLine hl))

/-- `"\t ... K levels...\n"` (exception.rb:108). -/
def trailer (k : Nat) : Str := "\t ... ".toList ++ (toString k).toList ++ " levels...\n".toList

/-- Models the loop that numbers the frames (exception.rb:118-122): `i` counts
down from the number of frames. -/
def numbered : Nat → List Str → List Str
  | _, [] => []
  | i, l :: ls =>
    ("\t".toList ++ (toString i).toList ++ ": from ".toList ++ l ++ "\n".toList) ::
      numbered (i - 1) ls

/-- The callers that are shown (exception.rb:104-110). -/
def shownFrames (limit : Option Nat) (rest : List Str) : List Str :=
  match limit with
  | some n => if rest.length > n then rest.take n else rest
  | none => rest

/-- The line about those that are not (exception.rb:104-110). -/
def leftOut (limit : Option Nat) (rest : List Str) : List Str :=
  match limit with
  | some n => if rest.length > n then [trailer (rest.length - n)] else []
  | none => []

/-- Models the report of one exception (exception.rb:99-131).  `limit` is
`--backtrace-limit`, `bottom` whether `order: :bottom` is given.  A
`detailed_message` of the user is not modelled. -/
def one (hl bottom : Bool) (limit : Option Nat) (e : Exc) : Str :=
  match e.bt with
  | [] => detailed hl e ++ "\n".toList
  | loc :: rest =>
    let shown := shownFrames limit rest
    let tr := leftOut limit rest
    let head := loc ++ ": ".toList ++ detailed hl e ++ "\n".toList
    if bottom then
      (if hl then bold ++ "Traceback".toList ++ off ++ " (most recent call last):\n".toList
        else "Traceback (most recent call last):\n".toList) ++
        (numbered shown.length shown ++ tr).reverse.flatten ++ head
    else
      head ++ (shown.map (fun l => "\tfrom ".toList ++ l ++ "\n".toList) ++ tr).flatten

/-- Models `Exception#full_message` (exception.rb:77-134) of the exception
followed by its chain of causes (which ends, C160); the causes are always shown
with `order: :top`. -/
def full (hl bottom : Bool) (limit : Option Nat) : List Exc → Str
  | [] => []
  | e :: causes => one hl bottom limit e ++ full hl false limit causes

end Verif.Cause
