import Verif.Text.SetModel

/-!
# `String#succ` and ranges of strings

`str_next` and `byte_succ_no_alnum`, `monoruby/src/builtins/string.rs` 1575-1715 and 7556-7580;
`String#upto`, `monoruby/builtins/string.rb` 129-193; `Range#each` on Strings,
`monoruby/builtins/range.rb` 4-112; `Range#minmax`, `monoruby/src/builtins/range.rs` 1085-1100.

A character is its code point.  The Unicode general category is a parameter `cat` (the crate
`unicode_general_category`); the theorems about ASCII ask of it only what it says below 128.
-/

namespace Verif.Text

/-- `Category`, string.rs:1636-1641 -/
inductive Cat where
  | alpha | digit | other
deriving DecidableEq, Repr

/-- `Type`, string.rs:1643-1648 -/
inductive Ty where
  | alpha | digit | notDetermined
deriving DecidableEq, Repr

/-- the categories of ASCII: decimal digits, upper and lower case letters, all else `Other` -/
def asciiCat (c : Nat) : Cat :=
  if 48 ≤ c ∧ c ≤ 57 then .digit
  else if (65 ≤ c ∧ c ≤ 90) ∨ (97 ≤ c ∧ c ≤ 122) then .alpha
  else .other

/-- `succ`, string.rs:1607-1609: `none` is the panic of `expect` on a surrogate or past the last
code point -/
def chSucc (c : Nat) : Option Nat := if isScalar (c + 1) then some (c + 1) else none

/-- `pred`, string.rs:1611-1613 -/
def chPred (c : Nat) : Option Nat :=
  if c = 0 then none else if isScalar (c - 1) then some (c - 1) else none

/-- `while next.category() == cat { next = next.pred() }` and the `succ` after it,
string.rs:1627-1630.  `fuel` bounds the steps; `c + 1` suffices. -/
def runStart (cat : Nat → Cat) (k : Cat) : Nat → Nat → Option Nat
  | 0, _ => none
  | n + 1, c => if cat c = k then (chPred c).bind (runStart cat k n) else chSucc c

/-- `succ_char`, string.rs:1615-1632: the next character of the same category, at most two away,
else the first of the run, with a carry -/
def succChar (cat : Nat → Cat) (c : Nat) : Option (Nat × Bool) :=
  (chSucc c).bind fun n1 =>
    if cat c = cat n1 then some (n1, false)
    else (chSucc n1).bind fun n2 =>
      if cat c = cat n2 then some (n2, false)
      else (runStart cat (cat c) (c + 1) c).map (·, true)

/-- the local variables of the loop of `str_next`, string.rs:1652-1672; `buf` in the order pushed -/
structure SuccSt where
  buf : List Nat := []
  carry : Bool := true
  finish : Bool := false
  pad : Bool := false
  state : Ty := .notDetermined
  lastAlnum : Nat := 0
deriving Repr

/-- one turn of the loop, string.rs:1673-1706 -/
def succStep (cat : Nat → Cat) (st : SuccSt) (c : Nat) : Option SuccSt :=
  if st.finish || !st.carry then some { st with buf := st.buf ++ [c] }
  else if cat c = .other then some { st with pad := true, buf := st.buf ++ [c] }
  else if st.pad && ((cat c = .digit && st.state = .alpha) || (cat c = .alpha && st.state = .digit)) then
    some { st with finish := true, buf := st.buf ++ [c] }
  else
    let st := if st.pad then { st with pad := false }
      else { st with state := if cat c = .alpha then .alpha else .digit }
    (succChar cat c).map fun (next, isCarry) =>
      let st := if isCarry then { st with lastAlnum := st.buf.length } else { st with carry := false }
      { st with buf := st.buf ++ [next] }

/-- the loop over the characters from the last to the first -/
def succLoop (cat : Nat → Cat) : SuccSt → List Nat → Option SuccSt
  | st, [] => some st
  | st, c :: t => (succStep cat st c).bind fun st => succLoop cat st t

/-- `buf.insert(i, x)` -/
def insertAt (l : List Nat) (i x : Nat) : List Nat := l.take i ++ x :: l.drop i

/-- the end of `str_next`, string.rs:1707-1715 -/
def succFinish (cat : Nat → Cat) (st : SuccSt) : Option (List Nat) :=
  if st.carry then
    let c := st.buf.getD st.lastAlnum 0
    if cat c = .digit then
      (succChar cat c).map fun r => (insertAt st.buf (st.lastAlnum + 1) r.1).reverse
    else some (insertAt st.buf (st.lastAlnum + 1) c).reverse
  else some st.buf.reverse

/-- `str_next`, string.rs:1575-1715; `none` is a panic -/
def strNext (cat : Nat → Cat) (s : List Nat) : Option (List Nat) :=
  if s = [] then some []
  else if s.all fun c => cat c = .other then
    match s.reverse with
    | [] => some []
    | c :: t => (chSucc c).map fun d => (d :: t).reverse
  else (succLoop cat {} s.reverse).bind (succFinish cat)

/-- the loop of `byte_succ_no_alnum` from the last byte, string.rs:7568-7578: the bytes from the
last to the first -/
def byteSuccLoop : List Nat → List Nat
  | [] => [1]
  | b :: t => if b = 255 then 0 :: byteSuccLoop t else (b + 1) :: t

/-- `byte_succ_no_alnum`, string.rs:7556-7580, on a byte string without ASCII alphanumerics -/
def byteSucc (s : List Nat) : List Nat := (byteSuccLoop s.reverse).reverse

/-! ## Ranges of strings -/

/-- `String#<=>` of valid UTF-8 strings: by bytes, which is the order of code points -/
def strCmp : List Nat → List Nat → Ordering
  | [], [] => .eq
  | [], _ :: _ => .lt
  | _ :: _, [] => .gt
  | a :: s, b :: t => if a < b then .lt else if b < a then .gt else strCmp s t

/-- the characters from `a` to `b` as strings: `(from..stop).each { |b| b.chr }`, string.rb:173-178,
and `while __c <= __last`, range.rb:59-70 -/
def charRun (a b : Nat) : List (List Nat) := (List.range (b + 1 - a)).map fun k => [a + k]

/-- Elements yielded, or still running when `fuel` was spent, or a panic of `succ`. -/
inductive Walk where
  | done (l : List (List Nat)) | running | panic
deriving DecidableEq, Repr

/-- put an element in front -/
def Walk.cons (x : List Nat) : Walk → Walk
  | .done l => .done (x :: l)
  | w => w

/-- the loop of `String#upto`, string.rb:180-191 -/
def uptoLoop (succ : List Nat → Option (List Nat)) (excl : Bool) (max : List Nat) :
    Nat → List Nat → Walk
  | 0, _ => .running
  | n + 1, cur =>
    if (if excl then strCmp cur max = .lt else strCmp cur max ≠ .gt) ∧ cur.length ≤ max.length then
      match succ cur with
      | none => .panic
      | some nx => (uptoLoop succ excl max n nx).cons cur
    else .done []

/-- the digits of `i.to_s` as codes -/
def decimal (n : Nat) : List Nat :=
  if n < 10 then [48 + n] else decimal (n / 10) ++ [48 + n % 10]
termination_by n

/-- `to_i` of a string of digits -/
def numVal (s : List Nat) : Nat := s.foldl (fun acc c => 10 * acc + (c - 48)) 0

/-- `!empty? && bytes.all? { |b| (48..57).cover?(b) }`, string.rb:161-162 -/
def allDigits (s : List Nat) : Bool := !s.isEmpty && s.all fun c => 48 ≤ c && c ≤ 57

/-- `i.to_s.rjust(width, "0")` for the integers from `a` to `b`, string.rb:163-170 -/
def digitRun (width a b : Nat) : List (List Nat) :=
  (List.range (b + 1 - a)).map fun k =>
    let d := decimal (a + k)
    List.replicate (width - d.length) 48 ++ d

/-- `String#upto`, string.rb:129-193: strings of digits walk as integers (161-172), single ASCII
characters by code (173-179), the others by the loop -/
def upto (succ : List Nat → Option (List Nat)) (excl : Bool) (fuel : Nat) (b e : List Nat) : Walk :=
  if allDigits b ∧ allDigits e then
    .done (if excl then (if numVal e = 0 then [] else digitRun b.length (numVal b) (numVal e - 1))
      else digitRun b.length (numVal b) (numVal e))
  else match b, e with
  | [x], [y] =>
    if x < 128 ∧ y < 128 then .done (if excl then (if y = 0 then [] else charRun x (y - 1)) else charRun x y)
    else uptoLoop succ excl e fuel b
  | _, _ => uptoLoop succ excl e fuel b

/-- the loop of `Range#each` on Strings, range.rb:83-109 -/
def eachLoop (succ : List Nat → Option (List Nat)) (excl : Bool) (e : List Nat) :
    Nat → List Nat → Walk
  | 0, _ => .running
  | n + 1, cur =>
    if cur.length > e.length then .done []
    else if cur.length < e.length then
      match succ cur with
      | none => .panic
      | some nx => (eachLoop succ excl e n nx).cons cur
    else
      let c := strCmp cur e
      if (if excl then c ≠ .lt else c = .gt) then .done []
      else if !excl && c = .eq then .done [cur]
      else
        match succ cur with
        | none => .panic
        | some nx => (eachLoop succ excl e n nx).cons cur

/-- `Range#each` on Strings, range.rb:49-111: single ASCII characters walk by code (56-71); nothing
when the begin sorts after the end (72-80) -/
def rangeEach (succ : List Nat → Option (List Nat)) (excl : Bool) (fuel : Nat) (b e : List Nat) :
    Walk :=
  let walk :=
    if strCmp b e = .gt ∨ (excl ∧ strCmp b e = .eq) then .done []
    else eachLoop succ excl e fuel b
  match b, e with
  | [x], [y] =>
    if x < 128 ∧ y < 128 then .done (if excl then (if y = 0 then [] else charRun x (y - 1)) else charRun x y)
    else walk
  | _, _ => walk

/-- The search of `Range#minmax` for the element before the end of an exclusive range of Strings,
range.rs:1093-1100: `some none` is a panic of `succ`, `none` not finished after `fuel` turns. -/
def minmaxLoop (succ : List Nat → Option (List Nat)) (e : List Nat) :
    Nat → List Nat → List Nat → Option (Option (List Nat))
  | 0, _, _ => none
  | n + 1, cur, prev =>
    if cur = e then some (some prev)
    else match succ cur with
      | none => some none
      | some nx => minmaxLoop succ e n nx cur

end Verif.Text
