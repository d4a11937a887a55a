import Verif.Text.SearchModel

/-!
# Cutting a string into pieces

`String#split` with a String, `monoruby/src/builtins/string.rs` 1980-2335; `lines`/`each_line`
(`line_ranges` and the three splitters), 4950-5169; `chomp` (`chomp_byte_end`), 2525-2560; `strip`,
`lstrip`, `rstrip`, 2646-2745.

A string is the list of its characters as code points (bytes for `chomp` and `strip`, as in the
code).  The code keeps positions into the string; the model keeps what stands from the position on.
Separators that are Regexps, `$;` and `$/`, and blocks are not modelled.
-/

namespace Verif.Text

/-- `str::find`: the first place where `n` stands in `s` -/
def findSub (n s : List Nat) : Option Nat :=
  findUp (fun i => n.isPrefixOf (s.drop i)) 0 (s.length + 1)

/-! ## split -/

/-- the closure `push`, string.rs:2157-2169, on the fields so far and `empty_count` -/
def push (st : List (List Nat) × Int) (x : List Nat) : List (List Nat) × Int :=
  if st.2 ≥ 0 ∧ x = [] then (st.1, st.2 + 1)
  else if st.2 > 0 then (st.1 ++ List.replicate st.2.toNat [] ++ [x], 0)
  else (st.1 ++ [x], st.2)

/-- the fields pushed one after another and then the rest, string.rs:2156, 2319-2323 -/
def emit (lim : Int) (s : List Nat) (r : List (List Nat) × List Nat) : List (List Nat) :=
  ((r.1 ++ if s ≠ [] ∧ (lim > 0 ∨ r.2 ≠ [] ∨ lim < 0) then [r.2] else []).foldl push
    ([], if lim = 0 then 0 else -1)).1

/-- `is_awk_space`, string.rs:2177-2179 -/
def awkSpace (c : Nat) : Bool := c = 32 || c = 9 || c = 10 || c = 11 || c = 12 || c = 13

/-- the loop for whitespace, string.rs:2183-2212: `cur` is `none` while skipping, otherwise
`string[beg..end]`; gives the fields pushed and what stands from `beg` on -/
def awkLoop (lim : Int) : Int → Option (List Nat) → List Nat → List (List Nat) × List Nat
  | _, none, [] => ([], [])
  | _, some cur, [] => ([], cur)
  | i, none, c :: t =>
    if awkSpace c then awkLoop lim i none t
    else if lim > 0 ∧ lim ≤ i then ([], c :: t)
    else awkLoop lim i (some [c]) t
  | i, some cur, c :: t =>
    if awkSpace c then
      let r := awkLoop lim (if lim > 0 then i + 1 else i) none t
      (cur :: r.1, r.2)
    else awkLoop lim i (some (cur ++ [c])) t

/-- the loop for the empty separator, string.rs:2213-2235 -/
def charsLoop (lim : Int) : Int → List Nat → List (List Nat) × List Nat
  | _, [] => ([], [])
  | i, c :: t =>
    if lim > 0 ∧ lim ≤ i + 1 then ([[c]], t)
    else
      let r := charsLoop lim (if lim > 0 then i + 1 else i) t
      ([c] :: r.1, r.2)

/-- the loop for another separator, string.rs:2236-2262; as many turns as `fuel`, of which one more
than the length of the string suffices -/
def strLoop (sep : List Nat) (lim : Int) : Nat → Int → List Nat → List (List Nat) × List Nat
  | 0, _, rest => ([], rest)
  | f + 1, i, rest =>
    match findSub sep rest with
    | none => ([], rest)
    | some k =>
      if lim > 0 ∧ lim ≤ i + 1 then ([rest.take k], rest.drop (k + sep.length))
      else
        let r := strLoop sep lim f (if lim > 0 then i + 1 else i) (rest.drop (k + sep.length))
        (rest.take k :: r.1, r.2)

/-- `String#split` with a String separator on a UTF-8 receiver; `lim` is 0 when not given (the
counter of fields, which starts at 0 then, is consulted only for a positive limit) -/
def split (s sep : List Nat) (lim : Int) : List (List Nat) :=
  if lim = 1 then (if s = [] then [] else [s])
  else emit lim s
    (if sep = [] then charsLoop lim 1 s
     else if sep = [32] then awkLoop lim 1 none s
     else strLoop sep lim (s.length + 1) 1 s)

/-- `split("", lim)` on a receiver that is not UTF-8, string.rs:1987-2040 -/
def splitCharsBytes (s : List Nat) (lim : Int) : List (List Nat) :=
  (if lim > 0 ∧ lim < s.length then
    (s.take (lim.toNat - 1)).map ([·]) ++ [s.drop (lim.toNat - 1)]
   else s.map ([·])) ++ if lim < 0 then [[]] else []

/-! ## lines -/

/-- `str::split_inclusive` -/
def inclLoop (sep : List Nat) : Nat → List Nat → List (List Nat)
  | 0, _ => []
  | f + 1, rest =>
    if rest = [] then []
    else match findSub sep rest with
      | none => [rest]
      | some k => rest.take (k + sep.length) :: inclLoop sep f (rest.drop (k + sep.length))

/-- `str::ends_with` -/
def endsWith (s e : List Nat) : Bool := e.reverse.isPrefixOf s.reverse

/-- the end of a line under `chomp: true`, string.rs:5085-5091 -/
def chompLine (piece : List Nat) : List Nat :=
  if endsWith piece [13, 10] then piece.take (piece.length - 2)
  else if endsWith piece [10] ∨ endsWith piece [13] then piece.take (piece.length - 1)
  else piece

/-- `split_with_default_newline_ranges`, string.rs:5079-5096 -/
def linesDefault (s : List Nat) (chomp : Bool) : List (List Nat) :=
  (inclLoop [10] (s.length + 1) s).map fun p => if chomp then chompLine p else p

/-- `split_with_separator_ranges`, string.rs:5098-5110 -/
def linesSep (s sep : List Nat) (chomp : Bool) : List (List Nat) :=
  (inclLoop sep (s.length + 1) s).map fun p =>
    if chomp ∧ endsWith p sep then p.take (p.length - sep.length) else p

/-- the search for two or more newlines, string.rs:5138-5156: what stands before them and what after
all of them -/
def paraCut : List Nat → Option (List Nat × List Nat)
  | [] => none
  | c :: t =>
    if c = 10 ∧ t.head? = some 10 then some ([], t.dropWhile (· = 10))
    else (paraCut t).map fun r => (c :: r.1, r.2)

/-- the loop of `split_paragraph_ranges`, string.rs:5132-5169 -/
def paraLoop (chomp : Bool) : Nat → List Nat → List (List Nat)
  | 0, _ => []
  | f + 1, rest =>
    if rest = [] then []
    else match paraCut rest with
      | some (a, r) => (if chomp then a else a ++ [10, 10]) :: paraLoop chomp f r
      | none => [rest]

/-- a separator argument of `lines`, string.rs:4957-5008 -/
inductive Sep where
  | whole | dflt | str (s : List Nat)

/-- `line_ranges`, string.rs:4950-5035; an explicit `"\n"` is a separator like any other -/
def lines (s : List Nat) (chomp : Bool) : Sep → List (List Nat)
  | .whole => if s = [] then [] else [s]
  | .dflt => linesDefault s chomp
  | .str sep => if sep = [] then paraLoop chomp (s.length + 1) s else linesSep s sep chomp

/-! ## chomp and strip -/

/-- `chomp("")` from the end, string.rs:2526-2541 -/
def chompPara : List Nat → List Nat
  | 10 :: 13 :: t => chompPara t
  | 10 :: t => chompPara t
  | l => l

/-- the default, from the end, string.rs:2542-2551 -/
def chompOne : List Nat → List Nat
  | 10 :: 13 :: t => t
  | 10 :: t => t
  | 13 :: t => t
  | l => l

/-- an explicit separator, from the end, string.rs:2552-2559; `rs` reversed too -/
def chompAll (rs : List Nat) : Nat → List Nat → List Nat
  | 0, l => l
  | f + 1, l => if rs.isPrefixOf l then chompAll rs f (l.drop rs.length) else l

/-- `chomp_byte_end`, string.rs:2525-2560 -/
def chomp (s rs : List Nat) : List Nat :=
  (if rs = [] then chompPara s.reverse
   else if rs = [10] then chompOne s.reverse
   else chompAll rs.reverse (s.length + 1) s.reverse).reverse

/-- `STRIP_BYTES`, string.rs:2649 -/
def stripByte (b : Nat) : Bool := [32, 10, 9, 13, 12, 11, 0].contains b

/-- the loop of `strip_end`, string.rs:2652-2658 -/
def stripEnd (s : List Nat) : Nat → Nat
  | 0 => 0
  | e + 1 => if stripByte (s.getD e 0) then stripEnd s e else e + 1

/-- the loop of `strip_start`, string.rs:2661-2667, `n` turns left -/
def stripStart (s : List Nat) : Nat → Nat → Nat
  | 0, st => st
  | n + 1, st => if stripByte (s.getD st 0) then stripStart s n (st + 1) else st

/-- `String#strip`, string.rs:2701-2712, without the errors for broken receivers -/
def strip (s : List Nat) : List Nat :=
  let e := stripEnd s s.length
  (s.take e).drop (stripStart s e 0)

/-- `String#strip!`, string.rs:2721-2737: `none` is `nil` -/
def stripBang (s : List Nat) : Option (List Nat) :=
  let e := stripEnd s s.length
  let b := stripStart s e 0
  if e - b = s.length then none else some ((s.take e).drop b)

end Verif.Text
