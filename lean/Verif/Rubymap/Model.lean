import Mathlib.Data.List.Perm.Basic
import Mathlib.Data.List.Nodup

/-!
# The insertion-ordered map (`rubymap`)

Models `rubymap/src/map/core.rs` (`IndexMapCore`) and the wrappers of
`rubymap/src/map.rs` that Ruby's Hash uses.

* The raw hash table (`/repo/hashbrown`) is not modelled bucket by bucket.  It is the
  parameter `Table` below: a bag of `(hash, index)` pairs with an *arbitrary* probing
  order, an arbitrary capacity policy and an arbitrary choice of when to rebuild
  itself.  All theorems hold for every such table.  As in SwissTable, probing for a
  hash visits every stored pair with that hash and may visit others.
* Key comparison (`eql?`) is arbitrary user code: it has a state `σ`, may raise an `ε`,
  and is passed to each operation.
* A Rust panic is the outcome `panic`.
-/

namespace Verif.Rubymap

/-- The contract of `hashbrown::HashTable<usize>` (`/repo/hashbrown/src/table.rs`). -/
structure Table where
  T : Type
  /-- `HashTable::new` -/
  empty : T
  /-- The stored `(hash, index)` pairs. -/
  items : T → List (Nat × Nat)
  /-- `capacity()`, table.rs:516 -/
  cap : T → Nat
  /-- The pairs whose slot a probe for a hash inspects, in probing order
  (`find_inner`, raw/mod.rs:1705-1745: slots with the same 7-bit tag). -/
  probe : T → Nat → List (Nat × Nat)
  /-- `insert_unique`, table.rs:356, with the item's hash -/
  insert : T → Nat → Nat → T
  /-- `OccupiedEntry::remove` -/
  erase : T → Nat × Nat → T
  /-- overwriting the index stored in an occupied slot (`*find_mut(..) = new`) -/
  setIdx : T → Nat × Nat → Nat → T
  /-- `retain` (table.rs:775) / `iter_mut`: rewrite or drop every stored index -/
  mapIdx : T → (Nat → Option Nat) → T
  /-- `clear`, table.rs:392 -/
  clear : T → T
  /-- `reserve(additional, hasher)`, table.rs:501 -/
  reserve : T → Nat → (Nat → Nat) → T
  items_empty : items empty = []
  probe_sub : ∀ t h x, x ∈ probe t h → x ∈ items t
  probe_all : ∀ t h x, x ∈ items t → x.1 = h → x ∈ probe t h
  items_insert : ∀ t h i, (items (insert t h i)).Perm ((h, i) :: items t)
  items_erase : ∀ t x, x ∈ items t → (items (erase t x)).Perm ((items t).erase x)
  items_setIdx : ∀ t x j, x ∈ items t → (items (setIdx t x j)).Perm ((x.1, j) :: (items t).erase x)
  items_mapIdx : ∀ t f, (items (mapIdx t f)).Perm
    ((items t).filterMap (fun x => (f x.2).map (fun j => (x.1, j))))
  items_clear : ∀ t, items (clear t) = []
  /-- a rebuild places each item by the hash the hasher gives for it -/
  items_reserve : ∀ t n f, (items (reserve t n f)).Perm (items t) ∨
    (items (reserve t n f)).Perm ((items t).map (fun x => (f x.2, x.2)))
  len_le_cap : ∀ t, (items t).length ≤ cap t
  cap_reserve : ∀ t n f, (items t).length + n ≤ cap (reserve t n f)
  cap_clear : ∀ t, cap t ≤ cap (clear t)
  cap_insert : ∀ t h i, cap t ≤ cap (insert t h i)

/-- `Bucket`, `rubymap/src/lib.rs` -/
structure Bucket (K V : Type) where
  hash : Nat
  key : K
  val : V
deriving DecidableEq, Repr

/-- `IndexMapCore`, core.rs:32-50 -/
structure Core (Tb : Table) (K V : Type) where
  indices : Tb.T
  linear : Bool
  entries : List (Bucket K V)

/-- How an operation ends. -/
inductive Res (ε : Type) (α : Type) where
  | ok (a : α)
  | raise (e : ε)
  | panic
deriving DecidableEq, Repr

/-- `Equivalent::equivalent(query, stored)` -/
abbrev KeyEq (σ ε K : Type) := σ → K → K → σ × Except ε Bool

variable {Tb : Table} {K V σ ε : Type}

/-- `AR_MAX`, core.rs:182 -/
def AR_MAX : Nat := 8

/-- `IndexMapCore::new`, core.rs:190 -/
def Core.new : Core Tb K V := ⟨Tb.empty, true, []⟩

/-- `IndexMapCore::with_capacity`, core.rs:204-221 -/
def Core.withCapacity (n : Nat) : Core Tb K V :=
  if n ≤ AR_MAX then ⟨Tb.empty, true, []⟩
  else ⟨Tb.reserve Tb.empty n (fun _ => 0), false, []⟩

/-! ## Finding -/

/-- `get_hash(entries)`, core.rs:77; an index past the end would panic in Rust; the
callers' invariant excludes it (`hasherOk`). -/
def hasher (es : List (Bucket K V)) (i : Nat) : Nat := (es[i]?.map (·.hash)).getD 0

/-- `RawTable::find` / `find_or_find_insert_slot` with a fallible comparison,
raw/mod.rs:996-1029 and 1082-1107: an error of the comparison is turned into `false`
(`unwrap_or(false) // TO_BE_FIXED`).  `none` is a panic (index out of range). -/
def probeFind (eq : KeyEq σ ε K) (es : List (Bucket K V)) (k : K) :
    List (Nat × Nat) → σ → σ × Option (Option (Nat × Nat))
  | [], s => (s, some none)
  | x :: xs, s =>
    match es[x.2]? with
    | none => (s, none)
    | some b =>
      match eq s k b.key with
      | (s', .ok true) => (s', some (some x))
      | (s', _) => probeFind eq es k xs s'

/-- `linear_find`, core.rs:255-271 (starting at position `i`) -/
def linearFind (eq : KeyEq σ ε K) (h : Nat) (k : K) :
    List (Bucket K V) → Nat → σ → σ × Except ε (Option Nat)
  | [], _, s => (s, .ok none)
  | b :: bs, i, s =>
    if b.hash = h then
      match eq s k b.key with
      | (s', .error e) => (s', .error e)
      | (s', .ok true) => (s', .ok (some i))
      | (s', .ok false) => linearFind eq h k bs (i + 1) s'
    else linearFind eq h k bs (i + 1) s

/-- `get_index_of`, core.rs:386-402 -/
def Core.getIndexOf (c : Core Tb K V) (eq : KeyEq σ ε K) (h : Nat) (k : K) (s : σ) :
    σ × Res ε (Option Nat) :=
  if c.linear then
    match linearFind eq h k c.entries 0 s with
    | (s', .ok r) => (s', .ok r)
    | (s', .error e) => (s', .raise e)
  else
    match probeFind eq c.entries k (Tb.probe c.indices h) s with
    | (s', some r) => (s', .ok (r.map (·.2)))
    | (s', none) => (s', .panic)

/-! ## Index maintenance -/

/-- first visited slot holding index `i` -/
def findIdx (Tb : Table) (t : Tb.T) (h i : Nat) : Option (Nat × Nat) :=
  (Tb.probe t h).find? (fun x => x.2 == i)

/-- `erase_index`, core.rs:99-113 (not found: debug panic) -/
def eraseIndex (t : Tb.T) (h i : Nat) : Option Tb.T :=
  (findIdx Tb t h i).map (fun x => Tb.erase t x)

/-- `update_index`, core.rs:116-129 (`expect("index not found")`) -/
def updateIndex (t : Tb.T) (h old new : Nat) : Option Tb.T :=
  (findIdx Tb t h old).map (fun x => Tb.setIdx t x new)

/-- the loop of `insert_bulk_no_grow`, core.rs:137-139 -/
def bulkLoop (t : Tb.T) : List (Bucket K V) → Tb.T
  | [] => t
  | b :: bs => bulkLoop (Tb.insert t b.hash (Tb.items t).length) bs

/-- `insert_bulk_no_grow`, core.rs:135-140; `none` is the failed assertion -/
def insertBulkNoGrow (t : Tb.T) (es : List (Bucket K V)) : Option Tb.T :=
  if es.length ≤ Tb.cap t - (Tb.items t).length then some (bulkLoop t es) else none

/-- `ensure_indexed`, core.rs:244-251 -/
def Core.ensureIndexed (c : Core Tb K V) : Option (Core Tb K V) :=
  if c.linear then
    (insertBulkNoGrow (Tb.reserve c.indices c.entries.length (hasher c.entries)) c.entries).map
      (fun t => { c with indices := t, linear := false })
  else some c

/-- `rebuild_hash_table`, core.rs:960-967 -/
def Core.rebuild (c : Core Tb K V) : Option (Core Tb K V) :=
  if c.linear then some c
  else (insertBulkNoGrow (Tb.clear c.indices) c.entries).map (fun t => { c with indices := t })

/-- the lookup loop of `decrement_indices`, core.rs:1146-1149: positions `i, i+1, ..` of
the listed entries go down by one -/
def decLoop (t : Tb.T) : List (Bucket K V) → Nat → Option Tb.T
  | [], _ => some t
  | b :: bs, i =>
    match updateIndex t b.hash i (i - 1) with
    | some t' => decLoop t' bs (i + 1)
    | none => none

/-- `decrement_indices(start, end)`, core.rs:1129-1152 -/
def decrementIndices (t : Tb.T) (es : List (Bucket K V)) (start stop : Nat) : Option Tb.T :=
  let shifted := (es.take stop).drop start
  if shifted.length > Tb.cap t / 2 then
    some (Tb.mapIdx t (fun i => some (if start ≤ i ∧ i < stop then i - 1 else i)))
  else decLoop t shifted start

/-- the reversed lookup loop of `increment_indices`, core.rs:1176-1178; the list is
reversed, `i` is the position after the first listed entry -/
def incLoop (t : Tb.T) : List (Bucket K V) → Nat → Option Tb.T
  | [], _ => some t
  | b :: bs, i =>
    match updateIndex t b.hash (i - 1) i with
    | some t' => incLoop t' bs (i - 1)
    | none => none

/-- `increment_indices(start, end)`, core.rs:1158-1181 -/
def incrementIndices (t : Tb.T) (es : List (Bucket K V)) (start stop : Nat) : Option Tb.T :=
  let shifted := (es.take stop).drop start
  if shifted.length > Tb.cap t / 2 then
    some (Tb.mapIdx t (fun i => some (if start ≤ i ∧ i < stop then i + 1 else i)))
  else incLoop t shifted.reverse stop

/-- the first loop of `erase_indices`, core.rs:923-925 -/
def eraseLoop (t : Tb.T) : List (Bucket K V) → Nat → Option Tb.T
  | [], _ => some t
  | b :: bs, i =>
    match eraseIndex t b.hash i with
    | some t' => eraseLoop t' bs (i + 1)
    | none => none

/-- the second loop of `erase_indices`, core.rs:928-930 -/
def shiftLoop (t : Tb.T) : List (Bucket K V) → Nat → Nat → Option Tb.T
  | [], _, _ => some t
  | b :: bs, new, old =>
    match updateIndex t b.hash old new with
    | some t' => shiftLoop t' bs (new + 1) (old + 1)
    | none => none

/-- `erase_indices(start, end)`, core.rs:899-947 -/
def Core.eraseIndices (c : Core Tb K V) (start stop : Nat) : Option Tb.T :=
  if c.linear then some c.indices
  else
    let startE := c.entries.take start
    let erasedE := (c.entries.take stop).drop start
    let shiftedE := c.entries.drop stop
    let half := Tb.cap c.indices / 2
    if erasedE.length = 0 then some c.indices
    else if start + shiftedE.length < half ∧ start < erasedE.length then
      match insertBulkNoGrow (Tb.clear c.indices) startE with
      | some t => insertBulkNoGrow t shiftedE
      | none => none
    else if erasedE.length + shiftedE.length < half then
      match eraseLoop c.indices erasedE start with
      | some t => shiftLoop t shiftedE start stop
      | none => none
    else
      some (Tb.mapIdx c.indices (fun i =>
        if stop ≤ i then some (i - (stop - start)) else if i < start then some i else none))

/-! ## Operations -/

/-- overwriting the value of entry `i` (`mem::replace(&mut self.entries[i].value, value)`) -/
def setVal (es : List (Bucket K V)) (i : Nat) (v : V) : List (Bucket K V) :=
  es.modify i (fun b => { b with val := v })

/-- the indexed half of `insert_full`, core.rs:436-449 -/
def Core.insertIndexed (c : Core Tb K V) (eq : KeyEq σ ε K) (h : Nat) (k : K) (v : V) (s : σ) :
    Core Tb K V × σ × Res ε (Nat × Option V) :=
  let t := Tb.reserve c.indices 1 (hasher c.entries)
  match probeFind eq c.entries k (Tb.probe t h) s with
  | (s', none) => ({ c with indices := t }, s', .panic)
  | (s', some (some x)) =>
    ({ c with indices := t, entries := setVal c.entries x.2 v }, s',
      .ok (x.2, c.entries[x.2]?.map (·.val)))
  | (s', some none) =>
    ({ c with indices := Tb.insert t h c.entries.length, entries := c.entries ++ [⟨h, k, v⟩] }, s',
      .ok (c.entries.length, none))

/-- `insert_full`, core.rs:414-450; the `_sym`, `_prehashed` and `_prehashed_with` variants
(core.rs:452-629) are the same function with a comparison that never raises. -/
def Core.insertFull (c : Core Tb K V) (eq : KeyEq σ ε K) (h : Nat) (k : K) (v : V) (s : σ) :
    Core Tb K V × σ × Res ε (Nat × Option V) :=
  if c.linear then
    match linearFind eq h k c.entries 0 s with
    | (s', .error e) => (c, s', .raise e)
    | (s', .ok (some i)) =>
      ({ c with entries := setVal c.entries i v }, s', .ok (i, c.entries[i]?.map (·.val)))
    | (s', .ok none) =>
      if c.entries.length < AR_MAX then
        ({ c with entries := c.entries ++ [⟨h, k, v⟩] }, s', .ok (c.entries.length, none))
      else
        match c.ensureIndexed with
        | some c' => c'.insertIndexed eq h k v s'
        | none => (c, s', .panic)
  else c.insertIndexed eq h k v s

/-- `replace_full`, core.rs:639-671 -/
def Core.replaceFull (c : Core Tb K V) (eq : KeyEq σ ε K) (h : Nat) (k : K) (v : V) (s : σ) :
    Core Tb K V × σ × Res ε (Nat × Option (K × V)) :=
  match c.ensureIndexed with
  | none => (c, s, .panic)
  | some c =>
    let t := Tb.reserve c.indices 1 (hasher c.entries)
    match probeFind eq c.entries k (Tb.probe t h) s with
    | (s', none) => ({ c with indices := t }, s', .panic)
    | (s', some (some x)) =>
      ({ c with indices := t,
                entries := c.entries.modify x.2 (fun b => { b with key := k, val := v }) }, s',
        .ok (x.2, c.entries[x.2]?.map (fun b => (b.key, b.val))))
    | (s', some none) =>
      ({ c with indices := Tb.insert t h c.entries.length,
                entries := c.entries ++ [⟨h, k, v⟩] }, s', .ok (c.entries.length, none))

/-- `pop`, core.rs:373-383 -/
def Core.pop (c : Core Tb K V) : Option (Core Tb K V × Option (K × V)) :=
  match c.entries.getLast? with
  | none => some (c, none)
  | some b =>
    if c.linear then some ({ c with entries := c.entries.dropLast }, some (b.key, b.val))
    else (eraseIndex c.indices b.hash (c.entries.length - 1)).map
      (fun t => ({ c with indices := t, entries := c.entries.dropLast }, some (b.key, b.val)))

/-- `shift_remove_finish`, core.rs:1083-1090 -/
def Core.shiftFinish (c : Core Tb K V) (t : Tb.T) (i : Nat) : Option (Core Tb K V × K × V) :=
  match decrementIndices t c.entries (i + 1) c.entries.length, c.entries[i]? with
  | some t', some b => some ({ c with indices := t', entries := c.entries.eraseIdx i }, b.key, b.val)
  | _, _ => none

/-- `shift_remove_full`, core.rs:773-802 -/
def Core.shiftRemoveFull (c : Core Tb K V) (eq : KeyEq σ ε K) (h : Nat) (k : K) (s : σ) :
    Core Tb K V × σ × Res ε (Option (Nat × K × V)) :=
  if c.linear then
    match linearFind eq h k c.entries 0 s with
    | (s', .error e) => (c, s', .raise e)
    | (s', .ok none) => (c, s', .ok none)
    | (s', .ok (some i)) =>
      match c.entries[i]? with
      | some b => ({ c with entries := c.entries.eraseIdx i }, s', .ok (some (i, b.key, b.val)))
      | none => (c, s', .panic)
  else
    match probeFind eq c.entries k (Tb.probe c.indices h) s with
    | (s', none) => (c, s', .panic)
    | (s', some none) => (c, s', .ok none)
    | (s', some (some x)) =>
      match c.shiftFinish (Tb.erase c.indices x) x.2 with
      | some (c', k', v') => (c', s', .ok (some (x.2, k', v')))
      | none => (c, s', .panic)

/-- `shift_remove_index`, core.rs:805-820 and 1065-1078 -/
def Core.shiftRemoveIndex (c : Core Tb K V) (i : Nat) : Option (Core Tb K V × Option (K × V)) :=
  match c.entries[i]? with
  | none => some (c, none)
  | some b =>
    if c.linear then some ({ c with entries := c.entries.eraseIdx i }, some (b.key, b.val))
    else
      match eraseIndex c.indices b.hash i with
      | none => none
      | some t => (c.shiftFinish t i).map (fun r => (r.1, some r.2))

/-- `Vec::swap_remove` -/
def swapRemove (es : List (Bucket K V)) (i : Nat) : List (Bucket K V) :=
  match es.getLast? with
  | some b => (es.set i b).dropLast
  | none => es

/-- `swap_remove_finish`, core.rs:1111-1126 -/
def Core.swapFinish (c : Core Tb K V) (t : Tb.T) (i : Nat) : Option (Core Tb K V × K × V) :=
  match c.entries[i]? with
  | none => none
  | some b =>
    let es := swapRemove c.entries i
    match es[i]? with
    | some m => (updateIndex t m.hash es.length i).map
        (fun t' => ({ c with indices := t', entries := es }, b.key, b.val))
    | none => some ({ c with indices := t, entries := es }, b.key, b.val)

/-- `swap_remove_full`, core.rs:846-875 -/
def Core.swapRemoveFull (c : Core Tb K V) (eq : KeyEq σ ε K) (h : Nat) (k : K) (s : σ) :
    Core Tb K V × σ × Res ε (Option (Nat × K × V)) :=
  if c.linear then
    match linearFind eq h k c.entries 0 s with
    | (s', .error e) => (c, s', .raise e)
    | (s', .ok none) => (c, s', .ok none)
    | (s', .ok (some i)) =>
      match c.entries[i]? with
      | some b => ({ c with entries := swapRemove c.entries i }, s', .ok (some (i, b.key, b.val)))
      | none => (c, s', .panic)
  else
    match probeFind eq c.entries k (Tb.probe c.indices h) s with
    | (s', none) => (c, s', .panic)
    | (s', some none) => (c, s', .ok none)
    | (s', some (some x)) =>
      match c.swapFinish (Tb.erase c.indices x) x.2 with
      | some (c', k', v') => (c', s', .ok (some (x.2, k', v')))
      | none => (c, s', .panic)

/-- `swap_remove_index`, core.rs:878-893 and 1093-1106 -/
def Core.swapRemoveIndex (c : Core Tb K V) (i : Nat) : Option (Core Tb K V × Option (K × V)) :=
  match c.entries[i]? with
  | none => some (c, none)
  | some b =>
    if c.linear then some ({ c with entries := swapRemove c.entries i }, some (b.key, b.val))
    else
      match eraseIndex c.indices b.hash i with
      | none => none
      | some t => (c.swapFinish t i).map (fun r => (r.1, some r.2))

/-- `entries[from..=to].rotate_left(1)` / `entries[to..=from].rotate_right(1)`: the entry
at `from` ends at `to`, the ones in between move by one. -/
def moveList (es : List (Bucket K V)) (i j : Nat) : List (Bucket K V) :=
  match es[i]? with
  | some b => (es.eraseIdx i).insertIdx j b
  | none => es

/-- The sentinel index `usize::MAX`. -/
def USIZE_MAX : Nat := 2 ^ 64 - 1

/-- `move_index(from, to)`, core.rs:824-843 and 1184-1205 -/
def Core.moveIndex (c : Core Tb K V) (i j : Nat) : Option (Core Tb K V) :=
  match c.entries[i]?, c.entries[j]? with
  | some b, some _ =>
    if c.linear then some { c with entries := moveList c.entries i j }
    else if i = j then some c
    else
      match updateIndex c.indices b.hash i USIZE_MAX with
      | none => none
      | some t =>
        match (if i < j then decrementIndices t c.entries (i + 1) (j + 1)
               else incrementIndices t c.entries j i) with
        | none => none
        | some t =>
          (updateIndex t b.hash USIZE_MAX j).map
            (fun t => { c with indices := t, entries := moveList c.entries i j })
  | _, _ => none

/-- `reverse`, core.rs:970-979 -/
def Core.reverse (c : Core Tb K V) : Core Tb K V :=
  { c with entries := c.entries.reverse,
           indices := Tb.mapIdx c.indices (fun i => some (c.entries.length - i - 1)) }

/-- `clear`, core.rs:273-277 -/
def Core.clear (c : Core Tb K V) : Core Tb K V := ⟨Tb.clear c.indices, true, []⟩

/-- `truncate`, core.rs:279-285 -/
def Core.truncate (c : Core Tb K V) (n : Nat) : Option (Core Tb K V) :=
  if n < c.entries.length then
    (c.eraseIndices n c.entries.length).map
      (fun t => { c with indices := t, entries := c.entries.take n })
  else some c

/-- `drain(start..end)`, core.rs:288-300 (the drained entries are removed when the iterator
is dropped) -/
def Core.drain (c : Core Tb K V) (start stop : Nat) : Option (Core Tb K V) :=
  if start ≤ stop ∧ stop ≤ c.entries.length then
    (c.eraseIndices start stop).map
      (fun t => { c with indices := t, entries := c.entries.take start ++ c.entries.drop stop })
  else none

/-- `split_off(at)`, core.rs:303-327: the remaining map and the split-off one -/
def Core.splitOff (c : Core Tb K V) (n : Nat) : Option (Core Tb K V × Core Tb K V) :=
  if n ≤ c.entries.length then
    match c.eraseIndices n c.entries.length with
    | none => none
    | some t =>
      let tail := c.entries.drop n
      if c.linear then
        some ({ c with indices := t, entries := c.entries.take n }, ⟨Tb.empty, true, tail⟩)
      else
        match insertBulkNoGrow (Tb.reserve Tb.empty tail.length (fun _ => 0)) tail with
        | some t2 =>
          some ({ c with indices := t, entries := c.entries.take n }, ⟨t2, false, tail⟩)
        | none => none
  else none

/-- `retain_in_order`, core.rs:950-958 (the predicate may change the value) -/
def Core.retain (c : Core Tb K V) (keep : K → V → Option V) : Option (Core Tb K V) :=
  let es := c.entries.filterMap (fun b => (keep b.key b.val).map (fun v => { b with val := v }))
  if c.linear = false ∧ es.length < (Tb.items c.indices).length then
    ({ c with entries := es } : Core Tb K V).rebuild
  else some { c with entries := es }

/-- `with_entries` (sorting), core.rs:171-177: any rearrangement of the entries -/
def Core.withEntries (c : Core Tb K V) (es : List (Bucket K V)) : Option (Core Tb K V) :=
  ({ c with entries := es } : Core Tb K V).rebuild

/-- `shift_insert_unique`, core.rs:1033-1062 (after `ensure_indexed`) -/
def Core.shiftInsertUnique (c : Core Tb K V) (i : Nat) (h : Nat) (k : K) (v : V) :
    Option (Core Tb K V) :=
  match c.ensureIndexed with
  | none => none
  | some c =>
    if i ≤ (Tb.items c.indices).length then
      match incrementIndices c.indices c.entries i (Tb.items c.indices).length with
      | none => none
      | some t =>
        let t := Tb.reserve t 1 (fun j => hasher c.entries (if j < i then j else j - 1))
        some { c with indices := Tb.insert t h i, entries := c.entries.insertIdx i ⟨h, k, v⟩ }
    else none

/-! ## Tombstones -/

/-- `tombstone_remove_full`, core.rs:691-716 -/
def Core.tombstoneRemoveFull (c : Core Tb K V) (eq : KeyEq σ ε K) (h : Nat) (k : K) (dk : K)
    (dv : V) (s : σ) : Core Tb K V × σ × Res ε (Option (Nat × K × V)) :=
  match c.ensureIndexed with
  | none => (c, s, .panic)
  | some c =>
    match probeFind eq c.entries k (Tb.probe c.indices h) s with
    | (s', none) => (c, s', .panic)
    | (s', some none) => (c, s', .ok none)
    | (s', some (some x)) =>
      match c.entries[x.2]? with
      | none => (c, s', .panic)
      | some b =>
        ({ c with indices := Tb.erase c.indices x,
                  entries := c.entries.set x.2 ⟨b.hash, dk, dv⟩ }, s',
          .ok (some (x.2, b.key, b.val)))

/-- `tombstone_index`, core.rs:719-737 -/
def Core.tombstoneIndex (c : Core Tb K V) (i : Nat) (dk : K) (dv : V) :
    Option (Core Tb K V × Option (K × V)) :=
  match c.entries[i]? with
  | none => some (c, none)
  | some b =>
    match c.ensureIndexed with
    | none => none
    | some c =>
      (eraseIndex c.indices b.hash i).map
        (fun t => ({ c with indices := t, entries := c.entries.set i ⟨b.hash, dk, dv⟩ },
          some (b.key, b.val)))

/-- `compact_tombstones`, core.rs:762-770 -/
def Core.compactTombstones (c : Core Tb K V) (dead : K → Bool) : Option (Core Tb K V) :=
  let es := c.entries.filter (fun b => !dead b.key)
  if c.linear then some { c with entries := es }
  else
    (insertBulkNoGrow (Tb.reserve (Tb.clear c.indices) es.length (hasher es)) es).map
      (fun t => { c with indices := t, entries := es })

end Verif.Rubymap
