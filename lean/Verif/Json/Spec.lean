import Verif.Json.Model
import Mathlib.Data.List.Dedup

/-
  JSON as RFC 8259 defines it: which texts are JSON, and what they stand for. None of the
  parser's or generator's functions is used here.
-/
namespace Verif.Json

/-- the white space of RFC 8259, section 2 -/
def Ws (w : List Char) : Prop := ∀ c ∈ w, c = ' ' ∨ c = '\t' ∨ c = '\n' ∨ c = '\r'

/-! ### Numbers (section 6) -/

def Dig (c : Char) : Prop := 48 ≤ c.toNat ∧ c.toNat ≤ 57

/-- one or more digits -/
def Digs (ds : List Char) : Prop := ds ≠ [] ∧ ∀ c ∈ ds, Dig c

/-- positional value -/
def place : List Char → Nat
  | [] => 0
  | c :: cs => (c.toNat - 48) * 10 ^ cs.length + place cs

/-- `int`: no leading zeros -/
def NatTok (t : List Char) : Prop := Digs t ∧ (t.head? = some '0' → t = ['0'])

inductive IntTok : List Char → Int → Prop where
  | pos {t : List Char} : NatTok t → IntTok t (place t : Int)
  | neg {t : List Char} : NatTok t → IntTok ('-' :: t) (-(place t : Int))

def FracTok (t : List Char) : Prop := ∃ ds, Digs ds ∧ t = '.' :: ds

def ExpTok (t : List Char) : Prop :=
  ∃ e sign ds, (e = 'e' ∨ e = 'E') ∧ (sign = [] ∨ sign = ['+'] ∨ sign = ['-']) ∧ Digs ds ∧ t = e :: (sign ++ ds)

/-- a number with a fraction or an exponent -/
def FloTok (t : List Char) : Prop :=
  ∃ a i f e, IntTok a i ∧ (f = [] ∨ FracTok f) ∧ (e = [] ∨ ExpTok e) ∧ (f ≠ [] ∨ e ≠ []) ∧ t = a ++ f ++ e

/-- What a number stands for: an Integer if it has neither fraction nor exponent, else
the Float that the float reader gives. -/
inductive Num (P : FloatIO) : List Char → JV P.F → Prop where
  | int {t : List Char} {i : Int} : IntTok t i → Num P t (.int i)
  | flo {t : List Char} : FloTok t → Num P t (.flo (P.read t))

/-- the numbers whose integers have 64 bits -/
inductive Num64 (P : FloatIO) : List Char → JV P.F → Prop where
  | int {t : List Char} {i : Int} : IntTok t i → -(2 ^ 63) ≤ i → i < 2 ^ 63 → Num64 P t (.int i)
  | flo {t : List Char} : FloTok t → Num64 P t (.flo (P.read t))

/-- the numbers, with integers of more than 64 bits standing for Floats -/
inductive NumF (P : FloatIO) : List Char → JV P.F → Prop where
  | int {t : List Char} {i : Int} : IntTok t i → -(2 ^ 63) ≤ i → i < 2 ^ 63 → NumF P t (.int i)
  | big {t : List Char} {i : Int} : IntTok t i → ¬ (-(2 ^ 63) ≤ i ∧ i < 2 ^ 63) → NumF P t (.flo (P.read t))
  | flo {t : List Char} : FloTok t → NumF P t (.flo (P.read t))

/-! ### Strings (section 7) -/

/-- hexadecimal digits -/
inductive Hex : Char → Nat → Prop where
  | num {c : Char} : 48 ≤ c.toNat → c.toNat ≤ 57 → Hex c (c.toNat - 48)
  | low {c : Char} : 97 ≤ c.toNat → c.toNat ≤ 102 → Hex c (c.toNat - 97 + 10)
  | up {c : Char} : 65 ≤ c.toNat → c.toNat ≤ 70 → Hex c (c.toNat - 65 + 10)

inductive Hex4 : List Char → Nat → Prop where
  | mk {a b c d : Char} {i j k l : Nat} : Hex a i → Hex b j → Hex c k → Hex d l →
      Hex4 [a, b, c, d] (i * 4096 + j * 256 + k * 16 + l)

/-- the two-character escapes -/
def escapes : List (Char × Char) :=
  [('"', '"'), ('\\', '\\'), ('/', '/'), ('b', '\x08'), ('f', '\x0c'), ('n', '\n'), ('r', '\r'), ('t', '\t')]

/-- What stands between the quotes, and the characters it stands for. A lone surrogate
stands for no character. -/
inductive JStr : List Char → List Char → Prop where
  | nil : JStr [] []
  | plain {c : Char} {t s : List Char} : c ≠ '"' → c ≠ '\\' → 0x20 ≤ c.toNat → JStr t s → JStr (c :: t) (c :: s)
  | esc {e c : Char} {t s : List Char} : (e, c) ∈ escapes → JStr t s → JStr ('\\' :: e :: t) (c :: s)
  | uni {h t s : List Char} {c : Char} : Hex4 h c.toNat → JStr t s → JStr ('\\' :: 'u' :: (h ++ t)) (c :: s)
  | pair {h l t s : List Char} {i j : Nat} {c : Char} : Hex4 h i → Hex4 l j → 0xD800 ≤ i → i < 0xDC00 →
      0xDC00 ≤ j → j < 0xE000 → c.toNat = 0x10000 + (i - 0xD800) * 0x400 + (j - 0xDC00) → JStr t s →
      JStr ('\\' :: 'u' :: (h ++ '\\' :: 'u' :: (l ++ t))) (c :: s)

/-- strings written without escapes, of characters allowed by `Q` -/
def RawStr (Q : Char → Prop) (t s : List Char) : Prop :=
  t = s ∧ ∀ c ∈ t, c ≠ '"' ∧ c ≠ '\\' ∧ Q c

/-! ### Values -/

/-- A Hash made of `kvs`: each key once, where it first came, with the last of its
values. -/
def Collapsed {V : Type} (kvs m : List (List Char × V)) : Prop :=
  m.map (·.1) = (kvs.map (·.1)).reverse.dedup.reverse ∧ ∀ k, m.lookup k = kvs.reverse.lookup k

section
variable {F : Type} (N : List Char → JV F → Prop) (S : List Char → List Char → Prop)

mutual
/-- a JSON value, without white space around it, and what it stands for -/
inductive JText : List Char → JV F → Prop where
  | null : JText "null".toList .null
  | tru : JText "true".toList (.bool true)
  | fals : JText "false".toList (.bool false)
  | num {t : List Char} {v : JV F} : N t v → JText t v
  | str {b s : List Char} : S b s → JText ('"' :: (b ++ ['"'])) (.str s)
  | arr0 {w : List Char} : Ws w → JText ('[' :: (w ++ [']'])) (.arr [])
  | arr {t : List Char} {vs : List (JV F)} : JItems t vs → JText ('[' :: (t ++ [']'])) (.arr vs)
  | obj0 {w : List Char} : Ws w → JText ('{' :: (w ++ ['}'])) (.obj [])
  | obj {t : List Char} {kvs m : List (List Char × JV F)} : JPairs t kvs → Collapsed kvs m →
      JText ('{' :: (t ++ ['}'])) (.obj m)

/-- elements separated by commas -/
inductive JItems : List Char → List (JV F) → Prop where
  | one {w w' t : List Char} {v : JV F} : Ws w → Ws w' → JText t v → JItems (w ++ (t ++ w')) [v]
  | cons {w w' t r : List Char} {v : JV F} {vs : List (JV F)} : Ws w → Ws w' → JText t v → JItems r vs →
      JItems (w ++ (t ++ (w' ++ ',' :: r))) (v :: vs)

/-- members separated by commas -/
inductive JPairs : List Char → List (List Char × JV F) → Prop where
  | one {w w' w'' w3 b s t : List Char} {v : JV F} : Ws w → Ws w' → Ws w'' → Ws w3 → S b s → JText t v →
      JPairs (w ++ '"' :: (b ++ '"' :: (w' ++ ':' :: (w'' ++ (t ++ w3))))) [(s, v)]
  | cons {w w' w'' w3 b s t r : List Char} {v : JV F} {kvs : List (List Char × JV F)} :
      Ws w → Ws w' → Ws w'' → Ws w3 → S b s → JText t v → JPairs r kvs →
      JPairs (w ++ '"' :: (b ++ '"' :: (w' ++ ':' :: (w'' ++ (t ++ (w3 ++ ',' :: r)))))) ((s, v) :: kvs)
end
end

/-- a JSON text (section 2): a value with white space around it -/
def JDoc {F : Type} (N : List Char → JV F → Prop) (t : List Char) (v : JV F) : Prop :=
  ∃ w t' w', Ws w ∧ Ws w' ∧ JText N JStr t' v ∧ t = w ++ (t' ++ w')

end Verif.Json
