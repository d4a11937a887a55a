import Verif.Rubymap.Spec

/-!
# Ruby's Hash

Models `monoruby/src/value/rvalue/hash.rs`: the inline representation (up to three pairs in
the object), the boxed one (the ordered map of `rubymap`, keyed by `Option` so that `none`
is a deleted entry), the switches between them, the iteration counter, and the loop of
`Hash#each` (`monoruby/builtins/hash.rb`).

Simplifications: `hash` and `eql?` are functions (they do not raise or run other code; what
happens when they do is treated with the ordered map); a default proc is not run, only a
default value is; freezing and the copy of a String key (builtins/hash.rs:897-918) are not
modelled.  `none` is a panic.
-/

namespace Verif.Hash

open Verif.Rubymap (Table Core Bucket KeyEq Res)

/-- Keys as the Hash sees them: `eqb` is `eql?`, `hash` is `hash`; equality of `K` is object
identity. -/
structure Env (K V : Type) where
  /-- `is_packed_value`: an immediate -/
  packed : K → Bool
  eqb : K → K → Bool
  hash : K → Nat
  /-- the digest of the object id, hash.rs:1712-1722 -/
  idHash : K → Nat
  /-- `Value::nil()`, stored in deleted entries -/
  nilV : V

variable {Tb : Table} {K V : Type} [DecidableEq K]

/-- The error of a forbidden modification. -/
inductive Err where
  /-- "can't add a new key into hash during iteration" -/
  | add
  /-- "can't modify hash during iteration" -/
  | modify
deriving DecidableEq, Repr

/-- `INLINE_CAP`, hash.rs -/
def INLINE_CAP : Nat := 3
/-- `ITER_MAX`, hash.rs:41 -/
def ITER_MAX : Nat := 3

/-- A Hash object: header flags and body, hash.rs:16-60.  `dflt` is the default value. -/
inductive H (Tb : Table) (K V : Type) where
  | inline (pairs : List (K × V)) (ident : Bool) (depth : Nat)
  | boxed (core : Core Tb (Option K) V) (ident : Bool) (iterLev : Nat) (dead : Nat)
      (dflt : Option V)

/-- Comparison of a stored key with a query, hash.rs:1735-1760 and 1724-1733.  A query is
always `some`; the first two cases only make it an equivalence. -/
def optEq (env : Env K V) (ident : Bool) : Option K → Option K → Bool
  | none, none => true
  | none, some _ => false
  | some _, none => false
  | some a, some b => if ident then decide (a = b) else env.eqb a b

/-- The digest of a key in either mode, hash.rs:145-180 and 1712-1722. -/
def optHash (env : Env K V) (ident : Bool) : Option K → Nat
  | none => 0
  | some a => if ident then env.idHash a else env.hash a

def kEq (env : Env K V) (ident : Bool) : KeyEq Unit Empty (Option K) :=
  fun _ a b => ((), .ok (optEq env ident a b))

/-! ## The boxed map -/

/-- `RubyMap::get_index_of` and its prehashed variants, map.rs:440-497, 830 -/
def bFind (env : Env K V) (ident : Bool) (c : Core Tb (Option K) V) (k : K) :
    Option (Option Nat) :=
  match c.getIndexOf (kEq env ident) (optHash env ident (some k)) (some k) () with
  | (_, .ok r) => some r
  | _ => none

/-- `RubyMap::insert` and its prehashed variants -/
def bInsert (env : Env K V) (ident : Bool) (c : Core Tb (Option K) V) (k : K) (v : V) :
    Option (Core Tb (Option K) V) :=
  match c.insertFull (kEq env ident) (optHash env ident (some k)) (some k) v () with
  | (c', _, .ok _) => some c'
  | _ => none

/-- `RubyMap::shift_remove`, map.rs:1108-1133: a map of one entry compares without
hashing. -/
def bRemove (env : Env K V) (ident : Bool) (c : Core Tb (Option K) V) (k : K) :
    Option (Core Tb (Option K) V × Option V) :=
  match c.entries with
  | [] => some (c, none)
  | [x] =>
    if optEq env ident (some k) x.key then c.pop.map (fun r => (r.1, r.2.map (·.2)))
    else some (c, none)
  | _ =>
    match c.shiftRemoveFull (kEq env ident) (optHash env ident (some k)) (some k) () with
    | (c', _, .ok r) => some (c', r.map (fun x => x.2.2))
    | _ => none

/-- `RubyMap::tombstone_remove`, map.rs -/
def bTombstone (env : Env K V) (ident : Bool) (c : Core Tb (Option K) V) (k : K) :
    Option (Core Tb (Option K) V × Option V) :=
  match c.tombstoneRemoveFull (kEq env ident) (optHash env ident (some k)) (some k) none
      env.nilV () with
  | (c', _, .ok r) => some (c', r.map (fun x => x.2.2))
  | _ => none

/-- a loop of `map.insert` -/
def bInsertAll (env : Env K V) (ident : Bool) :
    Core Tb (Option K) V → List (K × V) → Option (Core Tb (Option K) V)
  | c, [] => some c
  | c, (k, v) :: ps =>
    match bInsert env ident c k v with
    | some c' => bInsertAll env ident c' ps
    | none => none

/-! ## Reading -/

/-- `inline_pos`/`inline_pos_noobs`, hash.rs:655-690 -/
def inlinePos (env : Env K V) (ident : Bool) (ps : List (K × V)) (k : K) : Option Nat :=
  if ident || env.packed k then ps.findIdx? (fun p => decide (p.1 = k)) else none

/-- `is_compare_by_identity`, hash.rs:757 -/
def H.ident : H Tb K V → Bool
  | .inline _ i _ => i
  | .boxed _ i _ _ _ => i

/-- `default_ref`, hash.rs:634 -/
def H.dflt : H Tb K V → Option V
  | .inline _ _ _ => none
  | .boxed _ _ _ _ d => d

/-- `len`, hash.rs:703-709 -/
def H.len : H Tb K V → Nat
  | .inline ps _ _ => ps.length
  | .boxed c _ _ dead _ => c.entries.length - dead

/-- `entry_count`, hash.rs:714-720 -/
def H.entryCount : H Tb K V → Nat
  | .inline ps _ _ => ps.length
  | .boxed c _ _ _ _ => c.entries.length

/-- `entry_at`, hash.rs:746-756; `live_at` (l.725-731) is its definedness -/
def H.entryAt (h : H Tb K V) (i : Nat) : Option (K × V) :=
  match h with
  | .inline ps _ _ => ps[i]?
  | .boxed c _ _ _ _ => c.entries[i]?.bind (fun b => b.key.map (fun k => (k, b.val)))

/-- The pairs of `iter`, hash.rs:847 and 1762-1800 -/
def H.content : H Tb K V → List (K × V)
  | .inline ps _ _ => ps
  | .boxed c _ _ _ _ => c.entries.filterMap (fun b => b.key.map (fun k => (k, b.val)))

/-- `get`, hash.rs:797-819 -/
def H.get (env : Env K V) (h : H Tb K V) (k : K) : Option (Option V) :=
  match h with
  | .inline ps ident _ => some ((inlinePos env ident ps k).bind (fun i => ps[i]?.map (·.2)))
  | .boxed c ident _ _ _ =>
    (bFind env ident c k).map (fun r => r.bind (fun i => c.entries[i]?.map (·.val)))

/-- `contains_key`, hash.rs:821-846 -/
def H.containsKey (env : Env K V) (h : H Tb K V) (k : K) : Option Bool :=
  match h with
  | .inline ps ident _ => some (inlinePos env ident ps k).isSome
  | .boxed c ident _ _ _ => (bFind env ident c k).map (·.isSome)

/-- `iter_active`, hash.rs:863-869 -/
def H.iterActive : H Tb K V → Bool
  | .inline _ _ d => decide (d ≠ 0)
  | .boxed _ _ lev _ _ => decide (lev > 0)

/-- `iter_incr`, hash.rs:909-928: the new state and whether the reference was recorded -/
def H.iterIncr : H Tb K V → H Tb K V × Bool
  | .inline ps i d => if d < ITER_MAX then (.inline ps i (d + 1), true) else (.inline ps i d, false)
  | .boxed c i lev dead df => (.boxed c i (lev + 1) dead df, true)

/-- `iter_decr`, hash.rs:934-951; `none` if the counter would go below zero -/
def H.iterDecr (h : H Tb K V) (real : Bool) : Option (H Tb K V) :=
  if real then
    match h with
    | .inline ps i d => if d = 0 then none else some (.inline ps i (d - 1))
    | .boxed c i lev dead df => if lev = 0 then none else some (.boxed c i (lev - 1) dead df)
  else some h

/-! ## Writing -/

/-- `promote`, hash.rs:1238-1267 -/
def H.promote (env : Env K V) (ident : Bool) (h : H Tb K V) : Option (H Tb K V) :=
  match h with
  | .inline ps _ d => (bInsertAll env ident Core.new ps).map (fun c => .boxed c ident d 0 none)
  | .boxed .. => none

/-- the inline form is given up before a deletion during iteration, hash.rs:1385-1388,
1513-1516 -/
def H.toBoxed (env : Env K V) (h : H Tb K V) : Option (H Tb K V) :=
  match h with
  | .inline .. => h.promote env h.ident
  | .boxed .. => some h

/-- `compact_if_dirty`, hash.rs:1350-1364 -/
def H.compactIfDirty (h : H Tb K V) : Option (H Tb K V) :=
  match h with
  | .inline .. => some h
  | .boxed c i lev dead df =>
    if dead = 0 then some h
    else (c.compactTombstones (·.isNone)).map (fun c' => .boxed c' i lev 0 df)

/-- the storing half of `insert`, hash.rs:1291-1343 -/
def H.store (env : Env K V) (h : H Tb K V) (k : K) (v : V) : Option (H Tb K V) :=
  match h with
  | .inline ps ident d =>
    match inlinePos env ident ps k with
    | some i => some (.inline (ps.modify i (fun p => (p.1, v))) ident d)
    | none =>
      if (ident || env.packed k) ∧ ps.length < INLINE_CAP then
        some (.inline (ps ++ [(k, v)]) ident d)
      else
        match H.promote env ident (.inline ps ident d) with
        | some (.boxed c i lev dead df) =>
          (bInsert env i c k v).map (fun c' => .boxed c' i lev dead df)
        | _ => none
  | .boxed c i lev dead df => (bInsert env i c k v).map (fun c' => .boxed c' i lev dead df)

/-- `insert`, hash.rs:1269-1343 -/
def H.insert (env : Env K V) (h : H Tb K V) (k : K) (v : V) : Option (Except Err (H Tb K V)) :=
  if h.iterActive then
    match h.containsKey env k with
    | none => none
    | some false => some (.error .add)
    | some true => (h.store env k v).map .ok
  else
    match h.compactIfDirty with
    | none => none
    | some h' => (h'.store env k v).map .ok

/-- `remove`, hash.rs:1366-1418, with `inline_remove_at`, l.1447-1461 -/
def H.remove (env : Env K V) (h : H Tb K V) (k : K) : Option (H Tb K V × Option V) :=
  if h.iterActive then
    match h.toBoxed env with
    | some (.boxed c i lev dead df) =>
      (bTombstone env i c k).map (fun r =>
        (.boxed r.1 i lev (if r.2.isSome then dead + 1 else dead) df, r.2))
    | _ => none
  else
    match h with
    | .inline ps ident d =>
      match inlinePos env ident ps k with
      | some i => some (.inline (ps.eraseIdx i) ident d, ps[i]?.map (·.2))
      | none => some (h, none)
    | .boxed .. =>
      match h.compactIfDirty with
      | some (.boxed c i lev dead df) =>
        (bRemove env i c k).map (fun r => (.boxed r.1 i lev dead df, r.2))
      | _ => none

/-- `set_value_at`, hash.rs:1424-1445 -/
def H.setValueAt (h : H Tb K V) (i : Nat) (v : V) : H Tb K V :=
  match h with
  | .inline ps ident d => .inline (ps.modify i (fun p => (p.1, v))) ident d
  | .boxed c ident lev dead df =>
    .boxed ⟨c.indices, c.linear, c.entries.modify i
      (fun b => if b.key.isSome then ⟨b.hash, b.key, v⟩ else b)⟩ ident lev dead df

/-- `clear`, hash.rs:1463-1501 -/
def H.clear (h : H Tb K V) : Except Err (H Tb K V) :=
  if h.iterActive then .error .modify
  else
    match h with
    | .inline _ ident d => .ok (.inline [] ident d)
    | .boxed c ident lev _ (some df) => .ok (.boxed c.clear ident lev 0 (some df))
    | .boxed _ ident _ _ none => .ok (.inline [] ident 0)

/-- the first live entry, hash.rs:1518-1520 -/
def firstLive (es : List (Bucket (Option K) V)) : Option Nat :=
  es.findIdx? (fun b => b.key.isSome)

/-- `shift`, hash.rs:1503-1558 -/
def H.shift (env : Env K V) (h : H Tb K V) : Option (H Tb K V × Option (K × V)) :=
  if h.len = 0 then some (h, none)
  else if h.iterActive then
    match h.toBoxed env with
    | some (.boxed c i lev dead df) =>
      match firstLive c.entries with
      | none => none
      | some j =>
        match c.tombstoneIndex j none env.nilV with
        | some (c', some (some k, v)) => some (.boxed c' i lev (dead + 1) df, some (k, v))
        | some (c', none) => some (.boxed c' i lev dead df, none)
        | _ => none
    | _ => none
  else
    match h with
    | .inline ps ident d => some (.inline (ps.eraseIdx 0) ident d, ps[0]?)
    | .boxed .. =>
      match h.compactIfDirty with
      | some (.boxed c i lev dead df) =>
        match c.shiftRemoveIndex 0 with
        | some (c', some (some k, v)) => some (.boxed c' i lev dead df, some (k, v))
        | some (c', none) => some (.boxed c' i lev dead df, none)
        | _ => none
      | _ => none

/-- `set_defalut_value`, hash.rs:1564-1583 (`none` is nil) -/
def H.setDefault (env : Env K V) (h : H Tb K V) (d : Option V) : Option (H Tb K V) :=
  match d, h with
  | none, .inline .. => some h
  | none, .boxed c i lev dead _ => some (.boxed c i lev dead none)
  | some v, .boxed c i lev dead _ => some (.boxed c i lev dead (some v))
  | some v, .inline .. =>
    match h.promote env h.ident with
    | some (.boxed c i lev dead _) => some (.boxed c i lev dead (some v))
    | _ => none

/-- `compare_by_identity`, hash.rs:1608-1633 -/
def H.compareByIdentity (env : Env K V) (h : H Tb K V) : Option (Except Err (H Tb K V)) :=
  if h.iterActive then some (.error .modify)
  else
    match h.compactIfDirty with
    | none => none
    | some (.inline ps _ d) => some (.ok (.inline ps true d))
    | some (.boxed c true lev dead df) => some (.ok (.boxed c true lev dead df))
    | some (.boxed c false lev dead df) =>
      (bInsertAll env true Core.new
        (c.entries.filterMap (fun b => b.key.map (fun k => (k, b.val))))).map
        (fun c' => .ok (.boxed c' true lev dead df))

/-- `set_compare_by_identity_empty`, hash.rs:1646-1683; a non-empty map fails its
assertion -/
def H.setModeEmpty (h : H Tb K V) (ident : Bool) : Option (Except Err (H Tb K V)) :=
  if h.iterActive then some (.error .modify)
  else if h.len ≠ 0 then none
  else
    match h with
    | .inline ps _ d => some (.ok (.inline ps ident d))
    | .boxed c i lev dead df =>
      if ident = i then some (.ok (.boxed c i lev dead df))
      else if ident then some (.ok (.boxed Core.new true lev dead df))
      else
        match df with
        | some _ => some (.ok (.boxed Core.new false lev dead df))
        | none => some (.ok (.inline [] false 0))

/-- `clear` followed by `set_compare_by_identity_empty`, the way `Set#replace`, `#map!` and
`#flatten!` use them, builtins/set.rs:477-480, 1073-1076, 1151-1152 -/
def H.resetMode (h : H Tb K V) (ident : Bool) : Option (Except Err (H Tb K V)) :=
  match h.clear with
  | .error e => some (.error e)
  | .ok h' => h'.setModeEmpty ident

/-- `clone_inner`/`clone_body` with `sanitize_dup_flags`, hash.rs:143-145, 955-990 -/
def H.dup (h : H Tb K V) : Option (H Tb K V) :=
  match h with
  | .inline ps i _ => some (.inline ps i 0)
  | .boxed c i _ dead df =>
    if dead > 0 then (c.compactTombstones (·.isNone)).map (fun c' => .boxed c' i 0 0 df)
    else some (.boxed c i 0 0 df)

/-- a loop of `[]=` -/
def H.insertAll (env : Env K V) : H Tb K V → List (K × V) → Option (Except Err (H Tb K V))
  | h, [] => some (.ok h)
  | h, (k, v) :: ps =>
    match h.insert env k v with
    | some (.ok h') => insertAll env h' ps
    | r => r

/-- `Hash#rehash`, builtins/hash.rb:462-468 -/
def H.rehash (env : Env K V) (h : H Tb K V) : Option (Except Err (H Tb K V)) :=
  match h.clear with
  | .error e => some (.error e)
  | .ok h' => h'.insertAll env h.content

/-! ## Traversals -/

/-- One running `each` (builtins/hash.rb:26-47): the loop variable, whether the iteration
reference was recorded, and the position of the entry last handed to the block. -/
structure Cursor where
  pos : Nat
  real : Bool
  cur : Option Nat
deriving DecidableEq, Repr

/-- The loop `while i < __entry_count` up to the next yield: positions `i ..` are inspected
until a live one is found.  `fuel` is the number of positions left. -/
def H.seek (h : H Tb K V) : Nat → Nat → Option (Nat × K × V)
  | 0, _ => none
  | fuel + 1, i =>
    match h.entryAt i with
    | some p => some (i, p)
    | none => H.seek h fuel (i + 1)

/-- A Hash and the traversals running on it, the innermost first. -/
structure Sys (Tb : Table) (K V : Type) where
  h : H Tb K V
  curs : List Cursor

/-- What the program does next. -/
inductive Op (K V : Type) where
  | get (k : K)
  | has (k : K)
  | size
  | toA
  | put (k : K) (v : V)
  | del (k : K)
  | shift
  | clear
  | setDefault (d : Option V)
  | compareByIdentity
  | resetMode (ident : Bool)
  | rehash
  | dup
  /-- enter `each` -/
  | iterBegin
  /-- run traversal number `j` up to its next yield or to its end -/
  | iterNext (j : Nat)
  /-- `transform_values!`: store into the entry traversal `j` is at -/
  | iterSet (j : Nat) (v : V)
  /-- leave traversal `j`, whether it is finished or not -/
  | iterEnd (j : Nat)

/-- What the program sees. -/
inductive Out (K V : Type) where
  | val (v : Option V)
  | bool (b : Bool)
  | num (n : Nat)
  | pair (p : Option (K × V))
  | list (l : List (K × V))
  | done
  | raised (e : Err)
deriving DecidableEq, Repr

/-- an operation that may raise -/
def Sys.upd (s : Sys Tb K V) : Option (Except Err (H Tb K V)) → Option (Sys Tb K V × Out K V)
  | none => none
  | some (.error e) => some (s, .raised e)
  | some (.ok h) => some ({ s with h := h }, .done)

/-- One step. -/
def step (env : Env K V) (s : Sys Tb K V) : Op K V → Option (Sys Tb K V × Out K V)
  | .get k => (s.h.get env k).map (fun r => (s, .val (r.or s.h.dflt)))
  | .has k => (s.h.containsKey env k).map (fun r => (s, .bool r))
  | .size => some (s, .num s.h.len)
  | .toA => some (s, .list s.h.content)
  | .put k v => s.upd (s.h.insert env k v)
  | .del k => (s.h.remove env k).map (fun r => ({ s with h := r.1 }, .val r.2))
  | .shift => (s.h.shift env).map (fun r => ({ s with h := r.1 }, .pair r.2))
  | .clear => s.upd (some s.h.clear)
  | .setDefault d => (s.h.setDefault env d).map (fun h => ({ s with h := h }, .done))
  | .compareByIdentity => s.upd (s.h.compareByIdentity env)
  | .resetMode b => s.upd (s.h.resetMode b)
  | .rehash => s.upd (s.h.rehash env)
  | .dup => s.h.dup.map (fun h => (⟨h, []⟩, .done))
  | .iterBegin => let r := s.h.iterIncr; some (⟨r.1, ⟨0, r.2, none⟩ :: s.curs⟩, .done)
  | .iterNext j =>
    match s.curs[j]? with
    | none => some (s, .done)
    | some c =>
      match s.h.seek (s.h.entryCount - c.pos) c.pos with
      | some (i, p) => some ({ s with curs := s.curs.set j ⟨i + 1, c.real, some i⟩ }, .pair (some p))
      | none => some ({ s with curs := s.curs.set j ⟨s.h.entryCount, c.real, none⟩ }, .pair none)
  | .iterSet j v =>
    match s.curs[j]? with
    | some ⟨_, _, some i⟩ => some ({ s with h := s.h.setValueAt i v }, .done)
    | _ => some (s, .done)
  | .iterEnd j =>
    match s.curs[j]? with
    | none => some (s, .done)
    | some c => (s.h.iterDecr c.real).map (fun h => (⟨h, s.curs.eraseIdx j⟩, .done))

/-- A history; `none` if a step panics. -/
def run (env : Env K V) : Sys Tb K V → List (Op K V) → Option (Sys Tb K V × List (Out K V))
  | s, [] => some (s, [])
  | s, op :: ops =>
    match step env s op with
    | none => none
    | some (s', o) => (run env s' ops).map (fun r => (r.1, o :: r.2))

/-- `Hash.new` / `{}`, and `HashmapInner::with_capacity(n)`, hash.rs:381-396 -/
def H.new (n : Nat) : H Tb K V :=
  if n ≤ INLINE_CAP then .inline [] false 0 else .boxed (Core.withCapacity n) false 0 0 none

end Verif.Hash
