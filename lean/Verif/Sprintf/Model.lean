/-!
# Kernel#format with integers and strings

/repo/monoruby/src/executor/format.rs

Simplifications for the whole file: strings are lists of characters, valid and in UTF-8 (no `byte_space`);
arguments are Integers and Strings and no conversion methods are called; the references `%1$d`, `%<a>d`,
`%{a}` and the conversions `%c %p %f %e %g %a` are left out (`other`); digits of numbers as Rust prints them
are lists of digit values until they are put into the text.
-/

namespace Verif.Sprintf

inductive Err where
  | malformed
  | tooFew
  | tooBig
  | other
  deriving DecidableEq

inductive Arg where
  | int (n : Int)
  | str (cs : List Char)

structure Flags where
  zero : Bool := false
  minus : Bool := false
  plus : Bool := false
  space : Bool := false
  hash : Bool := false
  deriving DecidableEq

inductive Conv where
  | d
  | b (upper : Bool)
  | o
  | x (upper : Bool)
  | s
  deriving DecidableEq

/-! ### Numbers -/

/-- The digits of `n`, as Rust's `format!("{:b}")` and its kin give them. -/
def digs (b n : Nat) : List Nat :=
  if h : b < 2 ∨ n < b then [n] else digs b (n / b) ++ [n % b]
termination_by n
decreasing_by
  have : 0 < n := by omega
  exact Nat.div_lt_self this (by omega)

def dchar (upper : Bool) (d : Nat) : Char :=
  if d < 10 then Char.ofNat (48 + d) else Char.ofNat ((if upper then 55 else 87) + d)

/-- `str::len`: bytes. -/
def blen (s : List Char) : Nat := (s.map Char.utf8Size).sum

/-- `apply_int_precision`; the sign is kept apart.  format.rs:263-283 -/
def applyPrec (ds : List Char) : Option Nat → List Char
  | none => ds
  | some p => if p = 0 ∧ ds = ['0'] then [] else List.replicate (p - ds.length) '0' ++ ds

/-- `apply_width`.  format.rs:286-297 -/
def applyWidth (s : List Char) (width : Nat) (left : Bool) : List Char :=
  if blen s ≥ width then s
  else if left then s ++ List.replicate (width - blen s) ' '
  else List.replicate (width - blen s) ' ' ++ s

/-- format.rs:314-322, 702-710 -/
def signOf (neg : Bool) (f : Flags) : List Char :=
  if neg then ['-'] else if f.plus then ['+'] else if f.space then [' '] else []

/-- `format_integer_with_flags` (without prefix) and `format_int_with_prefix`.  format.rs:300-330, 692-720 -/
def intWithPrefix (neg : Bool) (ds pre : List Char) (width : Nat) (f : Flags) : List Char :=
  let sign := signOf neg f
  let body := sign ++ pre ++ ds
  if f.zero ∧ width > blen body then
    sign ++ pre ++ List.replicate (width - sign.length - pre.length - ds.length) '0' ++ ds
  else applyWidth body width f.minus

/-- Adding one with carry, from the right.  format.rs:629-634 -/
def addOne (b : Nat) : List Nat → List Nat × Nat
  | [] => ([], 1)
  | d :: t =>
    let r := addOne b t
    ((d + r.2) % b :: r.1, (d + r.2) / b)

/-- `neg_tc_minimal_from_abs`.  format.rs:616-648 -/
def negDigits (b n : Nat) : List Nat :=
  let comp := (digs b n).map (b - 1 - ·)
  (b - 1) :: (addOne b comp).1.dropWhile (· == b - 1)

/-- `format_neg_tc`.  format.rs:654-684 -/
def negTc (n b : Nat) (upper : Bool) (prec : Option Nat) (pre : List Char) (width : Nat) (f : Flags) :
    List Char :=
  let fill := dchar upper (b - 1)
  let ds := (negDigits b n).map (dchar upper)
  let ds := match prec with
    | some p => List.replicate (max ds.length (p - 2) - ds.length) fill ++ ds
    | none => ds
  let total := pre.length + 2 + ds.length
  if f.zero ∧ !f.minus ∧ width > total then
    pre ++ ['.', '.'] ++ List.replicate (width - total) fill ++ ds
  else applyWidth (pre ++ ['.', '.'] ++ ds) width f.minus

/-- The arms `d`/`i`/`u`, `b`/`B`, `o`, `x`/`X`.  format.rs:1384-1545 -/
def emitInt (c : Conv) (f : Flags) (width : Nat) (prec : Option Nat) (n : Int) : List Char :=
  let pos (b : Nat) (upper : Bool) := applyPrec ((digs b n.natAbs).map (dchar upper)) prec
  let radix (b : Nat) (upper : Bool) (p : List Char) :=
    if n < 0 then
      let pre := if f.hash then p else []
      if f.plus || f.space then intWithPrefix true (pos b upper) pre width f
      else negTc n.natAbs b upper prec pre width f
    else
      let ds := pos b upper
      let isZero := ds.isEmpty || ds == ['0']
      intWithPrefix false ds (if f.hash && !isZero then p else []) width f
  match c with
  | .d => intWithPrefix (n < 0) (pos 10 false) [] width f
  | .b upper => radix 2 upper (if upper then ['0', 'B'] else ['0', 'b'])
  | .x upper => radix 16 upper (if upper then ['0', 'X'] else ['0', 'x'])
  | .o =>
    if n < 0 then
      if f.plus || f.space then intWithPrefix true (pos 8 false) (if f.hash then ['0'] else []) width f
      else negTc n.natAbs 8 false prec [] width f
    else
      let ds := pos 8 false
      intWithPrefix false ds (if f.hash && ds.head? != some '0' then ['0'] else []) width f
  | .s => []

/-- The arm `s`.  format.rs:1317-1366 -/
def emitStr (f : Flags) (width : Nat) (prec : Option Nat) (cs : List Char) : List Char :=
  let cs := match prec with
    | some p => if cs.length > p then cs.take p else cs
    | none => cs
  applyWidth cs width f.minus

/-- `Integer#to_s` for `%s`. -/
def decimal (n : Int) : List Char :=
  (if n < 0 then ['-'] else []) ++ (digs 10 n.natAbs).map (dchar false)

def emit (c : Conv) (f : Flags) (width : Nat) (prec : Option Nat) : Arg → Except Err (List Char)
  | .int n => .ok (if c = .s then emitStr f width prec (decimal n) else emitInt c f width prec n)
  | .str cs => if c = .s then .ok (emitStr f width prec cs) else .error .other

/-! ### The format string -/

/-- The loop over the flags.  format.rs:970-1011 -/
def takeFlags (f : Flags) : List Char → Flags × List Char
  | '0' :: t => takeFlags { f with zero := true } t
  | '-' :: t => takeFlags { f with minus := true } t
  | '+' :: t => takeFlags { f with plus := true } t
  | ' ' :: t => takeFlags { f with space := true } t
  | '#' :: t => takeFlags { f with hash := true } t
  | t => (f, t)

/-- A number, refused if it does not fit a `usize`.  format.rs:1075-1087, 1153-1166 -/
def takeNum (acc : Nat) : List Char → Except Err (Nat × List Char)
  | [] => .error .malformed
  | c :: t =>
    if c.isDigit then
      if acc * 10 + (c.toNat - 48) < 2 ^ 64 then takeNum (acc * 10 + (c.toNat - 48)) t else .error .tooBig
    else .ok (acc, c :: t)

def takeArg : List Arg → Except Err (Arg × List Arg)
  | [] => .error .tooFew
  | a :: as => .ok (a, as)

/-- `coerce_to_integer` of the argument of a `*`; `BigInt` is too big.  format.rs:1056-1069, 1135-1146 -/
def starArg : List Arg → Except Err (Int × List Arg)
  | [] => .error .tooFew
  | .str _ :: _ => .error .other
  | .int n :: as => if -2 ^ 63 ≤ n ∧ n < 2 ^ 63 then .ok (n, as) else .error .tooBig

/-- The width.  format.rs:1032-1088 -/
def takeWidth (f : Flags) (t : List Char) (as : List Arg) :
    Except Err (Flags × Nat × List Char × List Arg) :=
  match t with
  | '*' :: t => do
    let (v, as) ← starArg as
    if t.isEmpty then .error .malformed
    else if v < 0 then .ok ({ f with minus := true, zero := false }, v.natAbs, t, as)
    else .ok (f, v.toNat, t, as)
  | t => do
    let (w, t) ← takeNum 0 t
    .ok (f, w, t, as)

/-- The precision.  format.rs:1108-1168 -/
def takePrec (t : List Char) (as : List Arg) : Except Err (Option Nat × List Char × List Arg) :=
  match t with
  | '.' :: '*' :: t => do
    let (v, as) ← starArg as
    if t.isEmpty then .error .malformed
    else .ok (if v ≥ 0 then some v.toNat else none, t, as)
  | '.' :: t => do
    let (p, t) ← takeNum 0 t
    .ok (some p, t, as)
  | t => .ok (none, t, as)

/-- format.rs:1252-1279 -/
def takeConv : List Char → Except Err (Conv × List Char)
  | 'd' :: t => .ok (.d, t)
  | 'i' :: t => .ok (.d, t)
  | 'u' :: t => .ok (.d, t)
  | 'b' :: t => .ok (.b false, t)
  | 'B' :: t => .ok (.b true, t)
  | 'o' :: t => .ok (.o, t)
  | 'x' :: t => .ok (.x false, t)
  | 'X' :: t => .ok (.x true, t)
  | 's' :: t => .ok (.s, t)
  | _ => .error .malformed

/-- Left-align overrides zero-fill, plus overrides space.  format.rs:1024-1031 -/
def settle (f : Flags) : Flags :=
  { f with zero := f.zero && !f.minus, space := f.space && !f.plus }

/-- One directive behind its `%`.  format.rs:895-1302 -/
def directive (t : List Char) (as : List Arg) : Except Err (List Char × List Char × List Arg) := do
  let (f, t) := takeFlags {} t
  let (f, w, t, as) ← takeWidth (settle f) t as
  let (p, t, as) ← takePrec t as
  let (c, t) ← takeConv t
  let (a, as) ← takeArg as
  let out ← emit c f w p a
  .ok (out, t, as)

/-- `format_by_args`; `n` bounds the length of the text.  format.rs:803-894 -/
def format : Nat → List Char → List Arg → Except Err (List Char)
  | 0, _, _ => .ok []
  | _, [], _ => .ok []
  | _ + 1, ['%'], _ => .error .malformed
  | n + 1, '%' :: '%' :: t, as => do
    let r ← format n t as
    .ok ('%' :: r)
  | n + 1, '%' :: t, as => do
    let (out, t, as) ← directive t as
    let r ← format n t as
    .ok (out ++ r)
  | n + 1, c :: t, as => do
    let r ← format n t as
    .ok (c :: r)

end Verif.Sprintf
