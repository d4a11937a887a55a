import Verif.Eql.Model

/-!
# What `eql?` should be

The values a program can hold (`WF`), structural equality (`Same`), and the classes of values
on which the hash agrees with it.
-/

namespace Verif.Eql

/-- Is the Float kept in the word?  value.rs:3412-3428 -/
def isFlonum (b : BitVec 64) : Bool :=
  if isZero b then b == 0 else (b.toNat / 2 ^ 60 % 8 + 1) / 2 % 4 == 2

mutual
/-- A value of a program whose heap is `hp`: the object at an address is one object, a Float is
on the heap only if it does not fit the word, the elements of a Set are stored with `true`,
and a key was added to a Hash only when the lookup did not find it. -/
def WF (h : Hashers) (hp : Nat → Option Val) : Val → Prop
  | .fix _ => True
  | .flo b => isFlonum b = true
  | .imm _ => True
  | .big a i => hp a = some (.big a i)
  | .hflo a b => hp a = some (.hflo a b) ∧ isFlonum b = false
  | .str a l => hp a = some (.str a l)
  | .arr a es => hp a = some (.arr a es) ∧ WFList h hp es
  | .hash a s ident ps => hp a = some (.hash a s ident ps) ∧ WFPairs h hp ps ∧
      ps.Pairwise (fun p q => hit h ident q.1 p = false) ∧
      (s = true → ∀ p ∈ ps, p.2 = .imm 1)
  | .range a b e x => hp a = some (.range a b e x) ∧ WF h hp b ∧ WF h hp e
  | .obj a => hp a = some (.obj a)

def WFList (h : Hashers) (hp : Nat → Option Val) : List Val → Prop
  | [] => True
  | x :: xs => WF h hp x ∧ WFList h hp xs

def WFPairs (h : Hashers) (hp : Nat → Option Val) : List (Val × Val) → Prop
  | [] => True
  | (k, v) :: ps => WF h hp k ∧ WF h hp v ∧ WFPairs h hp ps
end

mutual
/-- Structural equality: the same object, or the same kind of object with the same content.
Two Hashes have the same content when each pair of one has an equal pair in the other,
wherever it stands. -/
def Same : Val → Val → Prop
  | .fix i, y => y = .fix i
  | .flo b, y => y = .flo b
  | .imm n, y => y = .imm n
  | .big a i, y => y = .big a i ∨ ∃ c, y = .big c i
  | .hflo a b, y => y = .hflo a b ∨ ∃ c, isNaN b = false ∧ y = .hflo c b
  | .str a l, y => y = .str a l ∨ ∃ c, y = .str c l
  | .arr a xs, y => y = .arr a xs ∨ ∃ c ys, y = .arr c ys ∧ SameList xs ys
  | .hash a s ident ps, y => y = .hash a s ident ps ∨
      ∃ c t qs, y = .hash c t ident qs ∧ ps.length = qs.length ∧ SamePairs ident ps qs
  | .range a b e x, y => y = .range a b e x ∨
      ∃ c b' e', y = .range c b' e' x ∧ Same b b' ∧ Same e e'
  | .obj a, y => y = .obj a

def SameList : List Val → List Val → Prop
  | [], ys => ys = []
  | x :: xs, ys => ∃ y ys', ys = y :: ys' ∧ Same x y ∧ SameList xs ys'

def SamePairs (ident : Bool) : List (Val × Val) → List (Val × Val) → Prop
  | [], _ => True
  | (k, v) :: ps, qs =>
    (∃ k' v', (k', v') ∈ qs ∧ (if ident then k = k' else Same k k') ∧ Same v v') ∧
      SamePairs ident ps qs
end

mutual
/-- Inside the value there are only Sets (`s = true`), or only Hashes of at most one pair
(`s = false`). -/
def Narrow (s : Bool) : Val → Prop
  | .arr _ es => NarrowList s es
  | .hash _ t _ ps => t = s ∧ (s = false → ps.length ≤ 1) ∧ NarrowPairs s ps
  | .range _ b e _ => Narrow s b ∧ Narrow s e
  | _ => True

def NarrowList (s : Bool) : List Val → Prop
  | [] => True
  | x :: xs => Narrow s x ∧ NarrowList s xs

def NarrowPairs (s : Bool) : List (Val × Val) → Prop
  | [] => True
  | (k, v) :: ps => Narrow s k ∧ Narrow s v ∧ NarrowPairs s ps
end

mutual
/-- The keys of the Hashes inside the value are narrow; the Hashes themselves are of any
size. -/
def Tame (s : Bool) : Val → Prop
  | .arr _ es => TameList s es
  | .hash _ _ _ ps => TamePairs s ps
  | .range _ b e _ => Tame s b ∧ Tame s e
  | _ => True

def TameList (s : Bool) : List Val → Prop
  | [] => True
  | x :: xs => Tame s x ∧ TameList s xs

def TamePairs (s : Bool) : List (Val × Val) → Prop
  | [] => True
  | (k, v) :: ps => Narrow s k ∧ Tame s v ∧ TamePairs s ps
end

/-- An endpoint of a Range: not a container, and not minus zero. -/
def Endpoint : Val → Prop
  | .arr .. | .hash .. | .range .. => False
  | .hflo _ b => isZero b = false
  | _ => True

mutual
/-- Hashes of any size whose keys are narrow and whose values are again such; Arrays and Sets
with narrow elements; Ranges of plain endpoints.  Hashes and Sets are not mixed: all of the
outer ones are Sets (`t = true`) or all are Hashes. -/
def Outer (s t : Bool) : Val → Prop
  | .arr _ es => NarrowList s es
  | .hash _ r _ ps => r = t ∧ OuterPairs s t ps
  | .range _ b e _ => Endpoint b ∧ Endpoint e
  | _ => True

def OuterPairs (s t : Bool) : List (Val × Val) → Prop
  | [] => True
  | (k, v) :: ps => Narrow s k ∧ Outer s t v ∧ OuterPairs s t ps
end

end Verif.Eql
