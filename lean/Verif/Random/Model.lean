import Mathlib.Logic.Function.Basic

/-!
# Random numbers: `monoruby/src/globals/prng.rs`, `builtins/random.rs`, `builtins/kernel.rs`

The Mersenne Twister, bounded integers by rejection, and `Random` instances, which keep only a
seed and the number of words drawn.
-/

namespace Verif.Random

abbrev W := BitVec 32

/-! ## The generator -/

/-- prng.rs:17-18 -/
def MT_N : Nat := 624
def MT_M : Nat := 397

/-- `Mt`, prng.rs:11-15.  Only the entries below `MT_N` exist. -/
structure Mt where
  mt : Nat → W
  mti : Nat

/-- the loop of `init_genrand`, prng.rs:27-31; `n` rounds are left -/
def initLoop : Nat → Nat → (Nat → W) → (Nat → W)
  | 0, _, m => m
  | n + 1, i, m =>
    initLoop n (i + 1) (Function.update m i
      (1812433253#32 * (m (i - 1) ^^^ (m (i - 1) >>> 30)) + BitVec.ofNat 32 i))

/-- `init_genrand`, prng.rs:24-33 -/
def initGenrand (seed : W) : Mt :=
  ⟨initLoop (MT_N - 1) 1 (Function.update (fun _ => 0#32) 0 seed), MT_N⟩

/-- moving to the next index, prng.rs:45-50 and 60-63 -/
def wrapIndex (m : Nat → W) (i : Nat) : (Nat → W) × Nat :=
  if MT_N ≤ i + 1 then (Function.update m 0 (m (MT_N - 1)), 1) else (m, i + 1)

/-- the first loop of `new_with_key`, prng.rs:40-54 -/
def keyLoop1 (key : List W) : Nat → Nat → Nat → (Nat → W) → (Nat → W) × Nat
  | 0, i, _, m => (m, i)
  | k + 1, i, j, m =>
    let v := ((m i ^^^ ((m (i - 1) ^^^ (m (i - 1) >>> 30)) * 1664525#32)) + key.getD j 0#32) +
      BitVec.ofNat 32 j
    let r := wrapIndex (Function.update m i v) i
    keyLoop1 key k r.2 (if key.length ≤ j + 1 then 0 else j + 1) r.1

/-- the second loop, prng.rs:56-66 -/
def keyLoop2 : Nat → Nat → (Nat → W) → (Nat → W)
  | 0, _, m => m
  | k + 1, i, m =>
    let v := (m i ^^^ ((m (i - 1) ^^^ (m (i - 1) >>> 30)) * 1566083941#32)) - BitVec.ofNat 32 i
    let r := wrapIndex (Function.update m i v) i
    keyLoop2 k r.2 r.1

/-- `new_with_key`, prng.rs:35-69 -/
def newWithKey (key : List W) : Mt :=
  let s := initGenrand 19650218#32
  let r := keyLoop1 key (max MT_N key.length) 1 0 s.mt
  ⟨Function.update (keyLoop2 (MT_N - 1) r.2 r.1) 0 0x80000000#32, s.mti⟩

/-- one step of the regeneration: `y` from two words, prng.rs:74-75 -/
def twist (a b : W) : W :=
  let y := (a &&& 0x80000000#32) ||| (b &&& 0x7fffffff#32)
  (y >>> 1) ^^^ (if y &&& 1#32 ≠ 0#32 then 0x9908b0df#32 else 0#32)

/-- the three parts of the regeneration, prng.rs:71-86: `n` entries from `kk` on are left -/
def regenLoop : Nat → Nat → (Nat → W) → (Nat → W)
  | 0, _, m => m
  | n + 1, kk, m =>
    let v :=
      if kk < MT_N - MT_M then m (kk + MT_M) ^^^ twist (m kk) (m (kk + 1))
      else if kk < MT_N - 1 then m (kk + MT_M - MT_N) ^^^ twist (m kk) (m (kk + 1))
      else m (MT_M - 1) ^^^ twist (m (MT_N - 1)) (m 0)
    regenLoop n (kk + 1) (Function.update m kk v)

/-- tempering, prng.rs:89-92 -/
def temper (y0 : W) : W :=
  let y1 := y0 ^^^ (y0 >>> 11)
  let y2 := y1 ^^^ ((y1 <<< 7) &&& 0x9d2c5680#32)
  let y3 := y2 ^^^ ((y2 <<< 15) &&& 0xefc60000#32)
  y3 ^^^ (y3 >>> 18)

/-- `next_u32`, prng.rs:70-93 -/
def Mt.next (s : Mt) : W × Mt :=
  let s' : Mt := if MT_N ≤ s.mti then ⟨regenLoop MT_N 0 s.mt, 0⟩ else s
  (temper (s'.mt s'.mti), ⟨s'.mt, s'.mti + 1⟩)

/-- the derived `PartialEq` of `Mt` -/
def Mt.eq (a b : Mt) : Bool := (List.range MT_N).all (fun i => a.mt i == b.mt i) && a.mti == b.mti

/-! ## Seeds -/

/-- `to_le_digits`, prng.rs:231-245, and the body of `seed_words`, l.111-131: little-endian
`u32` digits, `[0]` for zero.  (The code goes through `to_bytes_le` and chunks of four.) -/
def leDigits (n : Nat) : List W :=
  if n < 4294967296 then [BitVec.ofNat 32 n]
  else BitVec.ofNat 32 n :: leDigits (n / 4294967296)
decreasing_by exact Nat.div_lt_self (by omega) (by omega)

/-- `digits_to_value`, prng.rs:247-254 -/
def digitsVal : List W → Nat
  | [] => 0
  | d :: ds => d.toNat + 4294967296 * digitsVal ds

/-- `build_mt`, prng.rs:135-142, with `seed_words` -/
def buildMt (seed : Int) : Mt :=
  let words := leDigits seed.natAbs
  if words.length ≤ 1 then initGenrand (words.getD 0 0#32) else newWithKey words

/-! ## Draws, from any source of words -/

variable {S : Type}

/-- `make_mask`, prng.rs:152-159 -/
def makeMask (x : W) : W :=
  let x := x ||| (x >>> 1)
  let x := x ||| (x >>> 2)
  let x := x ||| (x >>> 4)
  let x := x ||| (x >>> 8)
  x ||| (x >>> 16)

/-- One pass of the loop of `limited_rand_into`, prng.rs:176-205, most significant digit first.
`none` is `retry`; the buffer that a failed pass leaves behind is not modelled, since the
next pass overwrites it. -/
def pass (next : S → W × S) : List W → W → Bool → S → Nat → Option (List W) × S × Nat
  | [], _, _, s, cnt => (some [], s, cnt)
  | lim :: rest, mask, boundary, s, cnt =>
    let mask := if mask ≠ 0#32 then 0xffffffff#32 else makeMask lim
    if mask ≠ 0#32 then
      let r := (next s).1 &&& mask
      if boundary && decide (lim < r) then (none, (next s).2, cnt + 1)
      else
        match pass next rest mask (boundary && !decide (r < lim)) (next s).2 (cnt + 1) with
        | (some ds, s', c) => (some (r :: ds), s', c)
        | (none, s', c) => (none, s', c)
    else
      match pass next rest mask boundary s cnt with
      | (some ds, s', c) => (some (0#32 :: ds), s', c)
      | (none, s', c) => (none, s', c)

/-- `limited_rand_into` / `limited_rand`, prng.rs:174-215.  The loop is unbounded; `none`
means that it has not ended after `fuel` passes. -/
def limitedRand (next : S → W × S) (limit : List W) : Nat → S → Nat → Option (List W × S × Nat)
  | 0, _, _ => none
  | fuel + 1, s, cnt =>
    match pass next limit.reverse 0#32 true s cnt with
    | (some ds, s', c) => some (ds.reverse, s', c)
    | (none, s', c) => limitedRand next limit fuel s' c

/-- `ulong_limited`, prng.rs:219-229 -/
def ulongLimited (next : S → W × S) (fuel : Nat) (max : BitVec 64) (s : S) (cnt : Nat) :
    Option (BitVec 64 × S × Nat) :=
  if max = 0#64 then some (0#64, s, cnt)
  else
    let lo := max.setWidth 32
    let hi := (max >>> 32).setWidth 32
    let limit := if hi = 0#32 then [lo] else [lo, hi]
    match limitedRand next limit fuel s cnt with
    | some (ds, s', c) =>
      some ((ds.getD 0 0#32).setWidth 64 ||| ((ds.getD 1 0#32).setWidth 64 <<< 32), s', c)
    | none => none

/-- `rand_int`, prng.rs:257-264, for `max ≥ 1` -/
def randInt (next : S → W × S) (fuel : Nat) (max : Nat) (s : S) (cnt : Nat) :
    Option (Nat × S × Nat) :=
  match limitedRand next (leDigits (max - 1)) fuel s cnt with
  | some (ds, s', c) => some (digitsVal ds, s', c)
  | none => none

/-- `next_real`, prng.rs:145-150: the numerator over 2^53 (the float operations are exact) -/
def nextReal (next : S → W × S) (s : S) (cnt : Nat) : Nat × S × Nat :=
  let a := ((next s).1 >>> 5).toNat
  let b := ((next (next s).2).1 >>> 6).toNat
  (a * 67108864 + b, (next (next s).2).2, cnt + 2)

/-- the bytes of a word, little-endian -/
def leBytes (w : W) : List (BitVec 8) :=
  [w.setWidth 8, (w >>> 8).setWidth 8, (w >>> 16).setWidth 8, (w >>> 24).setWidth 8]

/-- `fill_bytes`, prng.rs:97-108, for a buffer of `n` bytes -/
def fillBytes (next : S → W × S) : Nat → S → List (BitVec 8) × S
  | 0, s => ([], s)
  | n + 1, s =>
    if 4 ≤ n + 1 then
      let r := fillBytes next (n + 1 - 4) (next s).2
      (leBytes (next s).1 ++ r.1, r.2)
    else ((leBytes (next s).1).take (n + 1), (next s).2)
termination_by n => n
decreasing_by omega

/-! ## `Random` instances -/

/-- What can be drawn: a Float in 0...1, an Integer below a positive bound, bytes, or a
session of `ulong_limited` draws (`RandomDraw`, used by `shuffle` and `sample`). -/
inductive Draw where
  | real
  | int (max : Nat)
  | bytes (n : Nat)
  | session (maxes : List (BitVec 64))
deriving DecidableEq, Repr

inductive Res where
  | real (num : Nat)
  | int (v : Nat)
  | bytes (bs : List (BitVec 8))
  | session (vs : List (BitVec 64))
deriving DecidableEq, Repr

/-- a session of draws, random.rs:84-106 -/
def sessionDraw (next : S → W × S) (fuel : Nat) : List (BitVec 64) → S → Nat →
    Option (List (BitVec 64) × S × Nat)
  | [], s, cnt => some ([], s, cnt)
  | m :: ms, s, cnt =>
    match ulongLimited next fuel m s cnt with
    | none => none
    | some (v, s', c) =>
      match sessionDraw next fuel ms s' c with
      | none => none
      | some (vs, s'', c') => some (v :: vs, s'', c')

/-- The body of `Random#rand` (`inst_rand_op`, random.rs:320-384) and `Random#bytes`
(l.457-487, where the count is computed apart from the draws). -/
def draw (next : S → W × S) (fuel : Nat) (s : S) (cnt : Nat) : Draw → Option (Res × S × Nat)
  | .real => let r := nextReal next s cnt; some (.real r.1, r.2.1, r.2.2)
  | .int max =>
    match randInt next fuel max s cnt with
    | some (v, s', c) => some (.int v, s', c)
    | none => none
  | .bytes n => let r := fillBytes next n s; some (.bytes r.1, r.2, cnt + (n + 3) / 4)
  | .session ms =>
    match sessionDraw next fuel ms s cnt with
    | some (vs, s', c) => some (.session vs, s', c)
    | none => none

/-- A `Random` instance: the two instance variables. -/
structure Rnd where
  seed : Int
  cnt : Nat
deriving DecidableEq, Repr

/-- `load_state`, random.rs:47-59: a count that is not a fixnum reads as 0 -/
def Rnd.load (r : Rnd) : Int × Nat := (r.seed, if r.cnt < 2 ^ 62 then r.cnt else 0)

/-- skipping words -/
def skip (next : S → W × S) : Nat → S → S
  | 0, s => s
  | n + 1, s => skip next n (next s).2

/-- `mt_at`, random.rs:60-66 -/
def mtAt (seed : Int) (cnt : Nat) : Mt := skip Mt.next cnt (buildMt seed)

/-- `Random#rand` and the like: rebuild, draw, store the count, random.rs:307-317 -/
def Rnd.draw (fuel : Nat) (d : Draw) (r : Rnd) : Option (Res × Rnd) :=
  let st := r.load
  match Random.draw Mt.next fuel (mtAt st.1 st.2) st.2 d with
  | some (res, _, c) => some (res, { r with cnt := c })
  | none => none

/-- `Random#==`, random.rs:196-212 -/
def Rnd.eq (a b : Rnd) : Bool :=
  (mtAt a.load.1 a.load.2).eq (mtAt b.load.1 b.load.2)

/-- `Random#rand(obj)`, random.rs:307-317 and 365-384: the generator is rebuilt first, then the
argument's `to_int` runs (`conv`, which may use the same instance), then the word is drawn and
the count overwritten. -/
def Rnd.randObj (fuel : Nat) (conv : Rnd → Option (Nat × Rnd)) (r : Rnd) : Option (Res × Rnd) :=
  let st := r.load
  let mt := mtAt st.1 st.2
  match conv r with
  | none => none
  | some (max, r1) =>
    match Random.draw Mt.next fuel mt st.2 (.int max) with
    | some (res, _, c) => some (res, { r1 with cnt := c })
    | none => none

/-! ## Ranges -/

/-- two's complement on 64 bits: what a release build computes -/
def wrap64 (x : Int) : Int := (BitVec.ofInt 64 x).toInt

def inFix (x : Int) : Prop := -2 ^ 62 ≤ x ∧ x < 2 ^ 62

instance (x : Int) : Decidable (inFix x) := by unfold inFix; infer_instance

/-- `Kernel#rand(s..e)` for fixnum ends, kernel.rs:1751-1764, in a release build.
The outer `Option` is the unbounded rejection loop, the inner one `nil`. -/
def kernelRandRange (next : S → W × S) (fuel : Nat) (s e : Int) (excl : Bool) (st : S) (cnt : Nat) :
    Option (Option Int × S × Nat) :=
  let span := wrap64 (wrap64 (e - s) + (if excl then 0 else 1))
  if span ≤ 0 then some (none, st, cnt)
  else
    match ulongLimited next fuel (BitVec.ofInt 64 (span - 1)) st cnt with
    | some (r, st', c) => some (some (wrap64 (s + r.toInt)), st', c)
    | none => none

/-- `Random#rand(s..e)` for fixnum ends, random.rs:332-346, in a release build -/
def instRandRange (next : S → W × S) (fuel : Nat) (s e : Int) (excl : Bool) (st : S) (cnt : Nat) :
    Option (Option Int × S × Nat) :=
  let span := wrap64 (wrap64 (e - s) + (if excl then 0 else 1))
  if span ≤ 0 then some (none, st, cnt)
  else
    match randInt next fuel span.toNat st cnt with
    | some (v, st', c) => some (some (wrap64 (s + (if inFix v then (v : Int) else 0))), st', c)
    | none => none

end Verif.Random
