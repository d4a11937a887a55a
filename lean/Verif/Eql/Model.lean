/-!
# `eql?` and `hash`

Models `monoruby/src/value.rs` (`ruby_hash_packed`, `ruby_hash`, `RubyEql::eql`,
`calculate_hash`), the structural arms in `value/rvalue/{array,hash,range,string}.rs`, and the
Ruby-level methods `hash` and `eql?` of Integer, Float, String, Array, Hash, Set, Range and
plain objects (`builtins/numeric/{integer,float}.rs`, `builtins/{string,array,hash,set,kernel}.rs`,
`builtins/range.rb`).

Simplifications.  Values are finite trees, so a container that contains itself (and with it
the recursion guards, value.rs:207-330) is not modelled.  No program redefines `hash`, `eql?`
or `to_str`.  Encodings of Strings are not modelled.  Rational, Complex, Time, Struct and the
like, which have methods of their own, are not modelled.  Symbols, `nil`, `true` and `false`
are `imm`.
-/

namespace Verif.Eql

/-- A value.  `a` is the address of a heap object. -/
inductive Val where
  /-- a small Integer -/
  | fix (i : Int)
  /-- a Float kept in the word, by its bits -/
  | flo (bits : BitVec 64)
  /-- `nil` (0), `true` (1), `false` (2), a Symbol -/
  | imm (n : Nat)
  /-- `ObjTy::BIGNUM` -/
  | big (a : Nat) (i : Int)
  /-- `ObjTy::FLOAT` -/
  | hflo (a : Nat) (bits : BitVec 64)
  /-- `ObjTy::STRING` -/
  | str (a : Nat) (bytes : List UInt8)
  /-- `ObjTy::ARRAY` -/
  | arr (a : Nat) (es : List Val)
  /-- `ObjTy::HASH`: a Hash, or a Set, which is a Hash from its elements to `true`
  (set.rs:127); `ident` is `compare_by_identity` -/
  | hash (a : Nat) (isSet ident : Bool) (ps : List (Val × Val))
  /-- `ObjTy::RANGE` -/
  | range (a : Nat) (b e : Val) (excl : Bool)
  /-- an object that inherits `Kernel#hash` and `Kernel#eql?` -/
  | obj (a : Nat)

/-- `Value::id`: the word itself.  That different small values have different words is C01
and C02. -/
inductive Id where
  | fix (i : Int)
  | flo (bits : BitVec 64)
  | imm (n : Nat)
  | addr (a : Nat)
deriving DecidableEq, Repr

/-- `Value::id`, value.rs -/
def Val.id : Val → Id
  | .fix i => .fix i
  | .flo b => .flo b
  | .imm n => .imm n
  | .big a _ | .hflo a _ | .str a _ | .arr a _ | .hash a _ _ _ | .range a _ _ _ | .obj a => .addr a

/-! ## Floats -/

/-- exponent all ones, fraction not zero -/
def isNaN (b : BitVec 64) : Bool :=
  b.toNat / 2 ^ 52 % 2 ^ 11 == 2 ^ 11 - 1 && b.toNat % 2 ^ 52 != 0

/-- plus or minus zero -/
def isZero (b : BitVec 64) : Bool := b.toNat % 2 ^ 63 == 0

/-- `==` of `f64` -/
def fEq (x y : BitVec 64) : Bool :=
  !isNaN x && !isNaN y && (x == y || (isZero x && isZero y))

/-- `if f == 0.0 { f = 0.0 }`, value.rs:368-371 and float.rs:392-394 -/
def normZero (b : BitVec 64) : BitVec 64 := if isZero b then 0 else b

/-! ## What is fed to the hasher -/

/-- One item given to a `Hasher`. -/
inductive Tok where
  | i64 (n : Int)
  | u64 (b : BitVec 64)
  | id (i : Id)
  | big (n : Int)
  | bytes (l : List UInt8)
  | bool (b : Bool)
deriving DecidableEq, Repr

/-- The two hashers: `D` is the one keyed once per process (`seeded_hasher`, value.rs:566),
`T` is the one of the tables.  Nothing is assumed about them. -/
structure Hashers where
  D : List Tok → Nat
  T : List Tok → Nat

/-- `(d as i64) >> 1`, value.rs:584-586 -/
def half (d : Nat) : Int := (if d < 2 ^ 63 then (d : Int) else (d : Int) - 2 ^ 64) / 2

/-- the start value of set.rs:1441 -/
def setSeed : Nat := 0x5e75e75e75e7

mutual
/-- `ruby_hash`, value.rs:345-470, as the list of items given to the hasher -/
def tok (h : Hashers) : Val → List Tok
  | .fix i => [.i64 (half (h.D [.i64 i]))]
  | .flo b => [.i64 (half (h.D [.u64 (normZero b)]))]
  | .imm n => [.id (.imm n)]
  | .big _ i => [.big i]
  | .hflo _ b => [.u64 b]
  | .str _ l => [.bytes l]
  | .arr _ es => tokList h es
  | .hash _ false ident ps => tokPairs h ident ps
  | .hash _ true _ ps => [.i64 (half (tokXor h ps setSeed))]
  | .range _ b e x => tok h b ++ (tok h e ++ [.bool x])
  | .obj a => [.i64 (half (h.D [.id (.addr a)]))]

/-- the elements one after the other, without their number, value/rvalue/array.rs:167 -/
def tokList (h : Hashers) : List Val → List Tok
  | [] => []
  | e :: es => tok h e ++ tokList h es

/-- the pairs in insertion order, value/rvalue/hash.rs:1114-1150 -/
def tokPairs (h : Hashers) (ident : Bool) : List (Val × Val) → List Tok
  | [] => []
  | (k, v) :: ps => (if ident then [.id k.id] else tok h k) ++ (tok h v ++ tokPairs h ident ps)

/-- the loop of `Set#hash`, set.rs:1437-1446 -/
def tokXor (h : Hashers) : List (Val × Val) → Nat → Nat
  | [], acc => acc
  | (k, _) :: ps, acc => tokXor h ps (acc ^^^ h.D (tok h k))
end

mutual
/-- `Value::eql`, value.rs:475-552: the equality of Hash keys and of elements of Arrays.
Different types of heap objects reach the `eql?` of the left one, which says no. -/
def eql (h : Hashers) : Val → Val → Bool
  | .fix i, y => y.id == .fix i
  | .flo b, y => y.id == .flo b
  | .imm n, y => y.id == .imm n
  | .big a i, y => y.id == .addr a || (match y with | .big _ j => i == j | _ => false)
  | .hflo a b, y => y.id == .addr a || (match y with | .hflo _ c => fEq b c | _ => false)
  | .str a l, y => y.id == .addr a || (match y with | .str _ m => l == m | _ => false)
  | .arr a xs, y => y.id == .addr a ||
      (match y with | .arr _ ys => xs.length == ys.length && eqlList h xs ys | _ => false)
  | .hash a _ ident ps, y => y.id == .addr a ||
      (match y with
        | .hash _ _ jdent qs =>
          ident == jdent && ps.length == qs.length && eqlPairs h ident ps qs
        | _ => false)
  | .range a b e x, y => y.id == .addr a ||
      (match y with | .range _ c f z => eql h b c && eql h e f && x == z | _ => false)
  | .obj a, y => y.id == .addr a

/-- the loop over the elements, value.rs:503-508 -/
def eqlList (h : Hashers) : List Val → List Val → Bool
  | x :: xs, y :: ys => eql h x y && eqlList h xs ys
  | _, _ => true

/-- the loop over the pairs, value/rvalue/hash.rs:1098-1108.  The lookup `other.get(k)` finds
the entry with the same digest in the table (C03) that is `eql?`; with `compare_by_identity`,
the one with the same word. -/
def eqlPairs (h : Hashers) (ident : Bool) : List (Val × Val) → List (Val × Val) → Bool
  | [], _ => true
  | (k, v) :: ps, qs =>
    (match qs.find? (fun q =>
        if ident then k.id == q.1.id else h.T (tok h k) == h.T (tok h q.1) && eql h k q.1) with
      | none => false
      | some q => eql h v q.2) && eqlPairs h ident ps qs
end

/-- Does the lookup of `k` stop at the entry `q`?  hash.rs:797-817, 1735-1745 and
`rubymap/src/map/core.rs:266` -/
def hit (h : Hashers) (ident : Bool) (k : Val) (q : Val × Val) : Bool :=
  if ident then k.id == q.1.id else h.T (tok h k) == h.T (tok h q.1) && eql h k q.1

/-- `Hash#[]` on the pairs of a Hash without a default, hash.rs:797-817.  A Hash of at most
three small keys is searched by word (hash.rs:655-690), which is the same: see
`hit_packed`. -/
def get (h : Hashers) (ident : Bool) (qs : List (Val × Val)) (k : Val) : Option Val :=
  (qs.find? (hit h ident k)).map (·.2)

/-! ## The methods -/

/-- `acc.wrapping_add(kpart ^ vpart)` and the constants, hash.rs:784-804; on `u64`, which is
the same as wrapping `i64` arithmetic -/
def pairMix (kh vh : Int) : BitVec 64 :=
  ((BitVec.ofInt 64 kh + 0x9e3779b97f4a7c15#64) * 0x100000001b3#64) ^^^
    ((BitVec.ofInt 64 vh * 0xc6bc279692b5c323#64).rotateLeft 13)

/-- `h.len().wrapping_mul(..)`, hash.rs:787 -/
def lenMix (n : Nat) : BitVec 64 := BitVec.ofNat 64 n * 0x9ddfea08eb382d69#64

/-- the accumulator of `Hash#hash`, hash.rs:787-808, for `n` pairs with these hashes -/
def mixAll (n : Nat) (l : List (Int × Int)) : Int :=
  half (l.foldl (fun acc p => acc + pairMix p.1 p.2) (lenMix n)).toNat

mutual
/-- the method `hash`: integer.rs:172, float.rs:386, string.rs:373, array.rs:683, hash.rs:765,
set.rs:1428, range.rb:989, kernel.rs:5480 -/
def pubHash (h : Hashers) : Val → Int
  | .fix i => half (h.D [.i64 i])
  | .big _ i => half (h.D [.big i])
  | .flo b | .hflo _ b => half (h.D [.u64 (normZero b)])
  | .imm n => half (h.D [.id (.imm n)])
  | .obj a => half (h.D [.id (.addr a)])
  | .str _ l => half (h.D [.bytes l])
  | .arr _ es => half (h.D (tokList h es))
  | .hash _ true _ ps => half (tokXor h ps setSeed)
  | .hash _ false _ ps => mixAll ps.length (pubPairs h ps)
  | .range _ b e x => half (h.D (tok h b ++ (tok h e ++ tok h (.imm (if x then 1 else 2)))))

/-- the hashes of keys and values, hash.rs:790-798 -/
def pubPairs (h : Hashers) : List (Val × Val) → List (Int × Int)
  | [] => []
  | (k, v) :: ps => (pubHash h k, pubHash h v) :: pubPairs h ps
end

/-- the bits of a Float, `RV::Float` -/
def Val.float? : Val → Option (BitVec 64)
  | .flo b | .hflo _ b => some b
  | _ => none

mutual
/-- the method `eql?`: integer.rs:515-528, float.rs:1107-1120, string.rs:463-500,
array.rs:1095-1120, hash.rs:714-753, set.rs:631-654, range.rb:983-987, kernel.rs:5498 -/
def pubEql (h : Hashers) : Val → Val → Bool
  | .fix i, y => y.id == .fix i
  | .big a i, y => y.id == .addr a || (match y with | .big _ j => i == j | _ => false)
  | .flo b, y => (match y.float? with | some c => fEq b c | none => false)
  | .hflo _ b, y => (match y.float? with | some c => fEq b c | none => false)
  | .imm n, y => y.id == .imm n
  | .obj a, y => y.id == .addr a
  | .str _ l, y => (match y with | .str _ m => l == m | _ => false)
  | .arr _ xs, y =>
      (match y with | .arr _ ys => xs.length == ys.length && eqlList h xs ys | _ => false)
  | .hash _ true ident ps, y =>
      (match y with
        | .hash _ true jdent qs =>
          ident == jdent && ps.length == qs.length && ps.all (fun p => qs.any (hit h ident p.1))
        | _ => false)
  | .hash _ false ident ps, y =>
      (match y with
        | .hash _ _ jdent qs =>
          ps.length == qs.length && (ps.length == 0 || ident == jdent) &&
            pubEqlPairs h jdent ps qs
        | _ => false)
  | .range _ b e x, y =>
      (match y with | .range _ c f z => x == z && (pubEql h b c && pubEql h e f) | _ => false)

/-- the loop of `Hash#eql?`, hash.rs:734-749; `ident` is the mode of the right Hash -/
def pubEqlPairs (h : Hashers) (ident : Bool) : List (Val × Val) → List (Val × Val) → Bool
  | [], _ => true
  | (k, v) :: ps, qs =>
    (match get h ident qs k with
      | none => false
      | some w => pubEql h v w) && pubEqlPairs h ident ps qs
end

end Verif.Eql
