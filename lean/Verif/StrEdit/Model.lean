/-!
# Editing a String

/repo/monoruby/builtins/string.rb:7-68 and /repo/monoruby/src/builtins/string.rs (slice!, byteslice,
bytesplice, delete_prefix).

Simplifications for the whole file: a String is the list of its characters, for the byte methods of its
bytes; encodings are in Verif/Str; conversions of the arguments have been done; the forms with a Regexp or
a String to look for are left out.
-/

namespace Verif.StrEdit

variable {α : Type}

inductive Err where
  | frozen
  | index
  | type
  deriving DecidableEq

/-- What a method that edits in place leaves: the new contents and whether it returned `self` or nil. -/
inductive Done (α : Type) where
  | raised (e : Err)
  | nil
  | self (s : List α)
  deriving DecidableEq

/-! ### Ruby-level methods -/

/-- An argument: another String, or the receiver itself. -/
inductive Arg (α : Type) where
  | other (t : List α)
  | self

/-- What the argument holds while the receiver holds `s`. -/
def Arg.now (s : List α) : Arg α → List α
  | .other t => t
  | .self => s

/-- `insert(index, other)` on a String that is not frozen.  builtins/string.rb:7-17 -/
def insert (s : List α) (index : Int) (t : List α) : Except Err (List α) :=
  let i := if index < 0 then (s.length : Int) + 1 + index else index
  if i < 0 ∨ i > s.length then .error .index
  else .ok (s.take i.toNat ++ t ++ s.drop i.toNat)

/-- one `self << arg` -/
def push (s : List α) (a : Arg α) : List α := s ++ a.now s

/-- `concat(*args)`: `<<` raises on a frozen String.  builtins/string.rb:19-24 -/
def concat (frozen : Bool) (s : List α) (args : List (Arg α)) : Done α :=
  if frozen && !args.isEmpty then .raised .frozen
  else .self (args.foldl push s)

/-- one `self[0, 0] = arg` -/
def unshift (s : List α) (a : Arg α) : List α := a.now s ++ s

/-- `prepend(*args)`.  builtins/string.rb:27-32 -/
def prepend (frozen : Bool) (s : List α) (args : List (Arg α)) : Done α :=
  if frozen && !args.isEmpty then .raised .frozen
  else .self (args.reverse.foldl unshift s)

/-- `chop`.  builtins/string.rb:34-41 -/
def chop [DecidableEq α] (cr lf : α) (s : List α) : List α :=
  if s.isEmpty then []
  else if s[s.length - 1]? = some lf ∧ s.length > 1 ∧ s[s.length - 2]? = some cr then
    s.take (s.length - 2)
  else s.take (s.length - 1)

/-- `chop!`.  builtins/string.rb:43-48 -/
def chopBang [DecidableEq α] (cr lf : α) (frozen : Bool) (s : List α) : Done α :=
  if s.isEmpty then .nil
  else if frozen then .raised .frozen
  else .self (chop cr lf s)

/-- `end_with?` of one String -/
def endWith [DecidableEq α] (s t : List α) : Bool := t.isSuffixOf s

/-- `delete_suffix`.  builtins/string.rb:50-57 -/
def deleteSuffix [DecidableEq α] (s t : List α) : List α :=
  if endWith s t then s.take (s.length - t.length) else s

/-- `delete_suffix!`.  builtins/string.rb:59-68 -/
def deleteSuffixBang [DecidableEq α] (frozen : Bool) (s t : List α) : Done α :=
  if endWith s t then
    if frozen then .raised .frozen else .self (s.take (s.length - t.length))
  else .nil

/-- `strip_prefix` -/
def stripPrefix [DecidableEq α] (s t : List α) : Option (List α) :=
  if t.isPrefixOf s then some (s.drop t.length) else none

/-- `delete_prefix`.  string.rs:1915-1930 -/
def deletePrefix [DecidableEq α] (s t : List α) : List α :=
  match stripPrefix s t with
  | some r => r
  | none => s

/-- `delete_prefix!`.  string.rs:1890-1907 -/
def deletePrefixBang [DecidableEq α] (frozen : Bool) (s t : List α) : Done α :=
  if frozen then .raised .frozen
  else match stripPrefix s t with
  | some r => .self r
  | none => .nil

/-! ### slice! -/

/-- `conv_index`, string.rs:987-1000 -/
def convIndex (i : Int) (n : Nat) : Option Nat :=
  if i ≥ 0 then (if i ≤ n then some i.toNat else none)
  else if n + i < 0 then none
  else some (n + i).toNat

/-- `get_range`, string.rs:1002-1007: places instead of byte offsets. -/
def getRange (s : List α) (index len : Nat) : Nat × Nat :=
  (min index s.length, min (index + len) s.length)

/-- `slice_sub`: what is removed, and what is left.  string.rs:2353-2358 -/
def cut (s : List α) (r : Nat × Nat) : List α × List α :=
  ((s.take r.2).drop r.1, s.take r.1 ++ s.drop r.2)

/-- `slice!(i)`; `none` is nil.  string.rs:2413-2432 -/
def sliceAt (s : List α) (i : Int) : Option (List α × List α) :=
  match convIndex i s.length with
  | none => none
  | some k =>
    let r := getRange s k 1
    if r.1 < r.2 then some (cut s r) else none

/-- `slice!(i, len)`.  string.rs:2413-2424 -/
def sliceLen (s : List α) (i len : Int) : Option (List α × List α) :=
  match convIndex i s.length with
  | none => none
  | some k => if len < 0 then none else some (cut s (getRange s k len.toNat))

/-- An end of a Range, as an Integer: nil is no Integer.  string.rs:2435-2438 -/
def intEnd : Option Int → Except Err Int
  | some i => .ok i
  | none => .error .type

/-- `slice!(first..last)`.  string.rs:2433-2459 -/
def sliceRange (s : List α) (first last : Option Int) (excl : Bool) :
    Except Err (Option (List α × List α)) :=
  match intEnd first with
  | .error e => .error e
  | .ok a =>
    match intEnd last with
    | .error e => .error e
    | .ok b =>
      let e := b - (if excl then 1 else 0)
      let last? : Option Nat :=
        if e ≥ 0 then some e.toNat
        else if s.length + e ≥ 0 then some (s.length + e).toNat
        else none
      match convIndex a s.length, last? with
      | some st, some en =>
        .ok (some (cut s (getRange s st (if st > en then 0 else en - st + 1))))
      | _, _ => .ok none

/-! ### byteslice and bytesplice -/

/-- the start of the forms with a length or a Range.  string.rs:4555-4569, 4607-4621 -/
def byteStart (i : Int) (n : Nat) : Option Nat :=
  if i ≥ 0 then (if i.toNat ≤ n then some i.toNat else none)
  else if n + i < 0 then none
  else some (n + i).toNat

/-- `byteslice(i)`.  string.rs:4518-4529, 4626-4634 -/
def byteAt (s : List α) (i : Int) : Option (List α) :=
  let k : Option Nat :=
    if i ≥ 0 then (if i.toNat < s.length then some i.toNat else none)
    else if s.length + i < 0 then none
    else some (s.length + i).toNat
  match k with
  | some k => some ((s.take (k + 1)).drop k)
  | none => none

/-- `byteslice(i, len)`.  string.rs:4600-4624 -/
def byteLen (s : List α) (i len : Int) : Option (List α) :=
  if len < 0 then none
  else match byteStart i s.length with
  | none => none
  | some st => some ((s.take (min (st + len.toNat) s.length)).drop st)

/-- The end of a Range over `n` bytes, not included; `none`: below 0.
string.rs:4570-4590, 4675-4695 -/
def byteEnd (n : Nat) (last : Int) (excl : Bool) : Option Nat :=
  if last ≥ 0 then some (min (if excl then last.toNat else last.toNat + 1) n)
  else if n + last < 0 then none
  else some (min (if excl then (n + last).toNat else (n + last).toNat + 1) n)

/-- `byteslice(first..last)`.  string.rs:4541-4598 -/
def byteRange (s : List α) (first last : Option Int) (excl : Bool) : Option (List α) :=
  match byteStart (first.getD 0) s.length with
  | none => none
  | some st =>
    let en : Option Nat := match last with
      | none => some s.length
      | some l => byteEnd s.length l excl
    match en with
    | none => none
    | some en => if st > en then some [] else some ((s.take en).drop st)

/-- `bytesplice_with` -/
def splice (s : List α) (start len : Nat) (t : List α) : List α :=
  s.take start ++ t ++ s.drop (start + len)

/-- The place and the length `bytesplice(i, len, …)` replaces.  string.rs:4705-4712, 4859-4880 -/
def placeLen (n : Nat) (i len : Int) : Except Err (Nat × Nat) :=
  if len < 0 then .error .index
  else match byteStart i n with
  | none => .error .index
  | some st => .ok (st, min len.toNat (n - st))

/-- The place and the length `bytesplice(first..last, …)` replaces.  string.rs:4671-4697 -/
def placeRange (n : Nat) (first last : Option Int) (excl : Bool) : Except Err (Nat × Nat) :=
  match intEnd first with
  | .error e => .error e
  | .ok a =>
    match intEnd last with
    | .error e => .error e
    | .ok b =>
      match byteStart a n with
      | none => .error .index
      | some st =>
        let en := (byteEnd n b excl).getD 0
        .ok (st, if en > st then en - st else 0)

/-- `bytesplice` with all of `t`; `bnd` tells the offsets of `s` at which a character begins or the String
ends.  string.rs:4649-4855 -/
def bytesplice (bnd : Nat → Bool) (s : List α) (place : Except Err (Nat × Nat)) (t : List α) :
    Except Err (List α) :=
  match place with
  | .error e => .error e
  | .ok (st, len) =>
    if !bnd st then .error .index
    else if !bnd (st + len) then .error .index
    else .ok (splice s st len t)

/-- `bytesplice(i, len, t, ti, tlen)`: the offsets into `t` are looked at only if something is taken.
string.rs:4764-4827 -/
def bytespliceFrom (bnd : Nat → Bool) (s : List α) (place : Except Err (Nat × Nat))
    (tbnd : Nat → Bool) (t : List α) (tplace : Except Err (Nat × Nat)) : Except Err (List α) :=
  match place with
  | .error e => .error e
  | .ok (st, len) =>
    match tplace with
    | .error e => .error e
    | .ok (ts, tl) =>
      let part := (t.drop ts).take tl
      let rs := if part.isEmpty then 0 else ts
      if !bnd st then .error .index
      else if !bnd (st + len) then .error .index
      else if !tbnd rs then .error .index
      else if !tbnd (rs + part.length) then .error .index
      else .ok (splice s st len part)

end Verif.StrEdit
