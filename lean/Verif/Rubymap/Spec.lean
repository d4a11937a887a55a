import Verif.Rubymap.Model
import Mathlib.Data.List.Sort

/-!
# What the ordered map is supposed to do

The specification speaks of a list of key/value pairs only; hashes and index tables do not
occur in it.
-/

namespace Verif.Rubymap

/-- The operations of the ordered map. -/
inductive Op (K V : Type) where
  | get (k : K)
  | insert (k : K) (v : V)
  | replace (k : K) (v : V)
  | shiftRemove (k : K)
  | swapRemove (k : K)
  | shiftRemoveAt (i : Nat)
  | swapRemoveAt (i : Nat)
  | pop
  | move (i j : Nat)
  | reverse
  | clear
  | truncate (n : Nat)
  | drain (i j : Nat)
  | splitHead (n : Nat)
  | splitTail (n : Nat)
  | retain (keep : K → V → Option V)
  | sort (le : K × V → K × V → Bool)
  | shiftInsert (i : Nat) (k : K) (v : V)
  | tombstone (k : K)
  | tombstoneAt (i : Nat)
  | compact

/-- What an operation returns. -/
inductive Out (K V : Type) where
  | found (i : Option Nat)
  | inserted (i : Nat) (old : Option V)
  | replaced (i : Nat) (old : Option (K × V))
  | removed (r : Option (Nat × K × V))
  | popped (r : Option (K × V))
  | done
deriving DecidableEq, Repr

variable {K V σ ε : Type}

/-- Where the pair with a key equal to `k` is; tombstones do not count. -/
def find (dead : K → Bool) (eqb : K → K → Bool) (k : K) (l : List (K × V)) : Option Nat :=
  l.findIdx? (fun p => !dead p.1 && eqb k p.1)

/-- Remove at `i`, moving the last pair into the hole. -/
def swapOut (l : List (K × V)) (i : Nat) : List (K × V) :=
  match l.getLast? with
  | some p => l.dropLast.set i p
  | none => l

/-- Move the pair at `i` to position `j`. -/
def moveTo (l : List (K × V)) (i j : Nat) : List (K × V) :=
  match l[i]? with
  | some p => (l.eraseIdx i).insertIdx j p
  | none => l

/-- The effect and the answer of an operation on a list of pairs; `(dk, dv)` is the
tombstone. -/
def spec (dead : K → Bool) (dk : K) (dv : V) (eqb : K → K → Bool) (l : List (K × V)) :
    Op K V → List (K × V) × Out K V
  | .get k => (l, .found (find dead eqb k l))
  | .insert k v =>
    match find dead eqb k l with
    | some i => (l.modify i (fun p => (p.1, v)), .inserted i (l[i]?.map (·.2)))
    | none => (l ++ [(k, v)], .inserted l.length none)
  | .replace k v =>
    match find dead eqb k l with
    | some i => (l.set i (k, v), .replaced i l[i]?)
    | none => (l ++ [(k, v)], .replaced l.length none)
  | .shiftRemove k =>
    match find dead eqb k l with
    | some i => (l.eraseIdx i, .removed (l[i]?.map (fun p => (i, p))))
    | none => (l, .removed none)
  | .swapRemove k =>
    match find dead eqb k l with
    | some i => (swapOut l i, .removed (l[i]?.map (fun p => (i, p))))
    | none => (l, .removed none)
  | .shiftRemoveAt i => (l.eraseIdx i, .popped l[i]?)
  | .swapRemoveAt i => (swapOut l i, .popped l[i]?)
  | .pop => (l.dropLast, .popped l.getLast?)
  | .move i j => (moveTo l i j, .done)
  | .reverse => (l.reverse, .done)
  | .clear => ([], .done)
  | .truncate n => (l.take n, .done)
  | .drain i j => (l.take i ++ l.drop j, .done)
  | .splitHead n => (l.take n, .done)
  | .splitTail n => (l.drop n, .done)
  | .retain keep => (l.filterMap (fun p => (keep p.1 p.2).map (fun v => (p.1, v))), .done)
  | .sort le => (l.mergeSort le, .done)
  | .shiftInsert i k v => (l.insertIdx i (k, v), .done)
  | .tombstone k =>
    match find dead eqb k l with
    | some i => (l.set i (dk, dv), .removed (l[i]?.map (fun p => (i, p))))
    | none => (l, .removed none)
  | .tombstoneAt i => (l.set i (dk, dv), .popped l[i]?)
  | .compact => (l.filter (fun p => !dead p.1), .done)

/-- The documented preconditions: positions are in range, and while tombstones exist only
lookups, stores, further tombstoning, `clear` and the compaction are used. -/
def Valid (dead : K → Bool) (l : List (K × V)) : Op K V → Prop
  | .get _ | .tombstone _ | .compact | .clear => True
  | .insert k _ | .replace k _ => dead k = false
  | .tombstoneAt i => ∃ p, l[i]? = some p ∧ dead p.1 = false
  | .swapRemoveAt i => (∀ p ∈ l, dead p.1 = false) ∧ i < l.length
  | .move i j => (∀ p ∈ l, dead p.1 = false) ∧ i < l.length ∧ j < l.length ∧
      l.length < 2 ^ 64
  | .drain i j => (∀ p ∈ l, dead p.1 = false) ∧ i ≤ j ∧ j ≤ l.length
  | .splitHead n | .splitTail n => (∀ p ∈ l, dead p.1 = false) ∧ n ≤ l.length
  | .shiftInsert i k _ => (∀ p ∈ l, dead p.1 = false) ∧ i ≤ l.length ∧ dead k = false
  | _ => ∀ p ∈ l, dead p.1 = false

/-- A `shift_insert` through a vacant entry is only offered for a key that is absent
(`VacantEntry`, map/core/entry.rs). -/
def Fresh (dead : K → Bool) (eqb : K → K → Bool) (l : List (K × V)) : Op K V → Prop
  | .shiftInsert _ k _ => find dead eqb k l = none
  | _ => True

/-- The whole history runs within its preconditions. -/
def ValidAll (dead : K → Bool) (dk : K) (dv : V) (eqb : K → K → Bool) :
    List (K × V) → List (Op K V) → Prop
  | _, [] => True
  | l, op :: ops => Valid dead l op ∧ Fresh dead eqb l op ∧
      ValidAll dead dk dv eqb (spec dead dk dv eqb l op).1 ops

/-- The effect and the answers of a history. -/
def specRun (dead : K → Bool) (dk : K) (dv : V) (eqb : K → K → Bool) :
    List (K × V) → List (Op K V) → List (K × V) × List (Out K V)
  | l, [] => (l, [])
  | l, op :: ops =>
    let r := spec dead dk dv eqb l op
    let q := specRun dead dk dv eqb r.1 ops
    (q.1, r.2 :: q.2)

/-! ## Running the model -/

variable {Tb : Table}

/-- The pairs an ordered map enumerates. -/
def contents (c : Core Tb K V) : List (K × V) := c.entries.map (fun b => (b.key, b.val))

/-- lifting a function that may panic -/
def lift (c : Core Tb K V) (s : σ) (f : α → Out K V) :
    Option (Core Tb K V × α) → Core Tb K V × σ × Res ε (Out K V)
  | some (c', a) => (c', s, .ok (f a))
  | none => (c, s, .panic)

/-- relabelling the answer -/
def mapRes (f : α → Out K V) : Res ε α → Res ε (Out K V)
  | .ok a => .ok (f a)
  | .raise e => .raise e
  | .panic => .panic

/-- Dispatch of an operation to the modelled function; the wrapper in map.rs computes the
hash `hf s k` of the argument first. -/
def exec (dead : K → Bool) (dk : K) (dv : V) (eq : KeyEq σ ε K) (hf : σ → K → Nat)
    (c : Core Tb K V) (s : σ) : Op K V → Core Tb K V × σ × Res ε (Out K V)
  | .get k => let r := c.getIndexOf eq (hf s k) k s; (c, r.1, mapRes .found r.2)
  | .insert k v =>
    let r := c.insertFull eq (hf s k) k v s; (r.1, r.2.1, mapRes (fun x => .inserted x.1 x.2) r.2.2)
  | .replace k v =>
    let r := c.replaceFull eq (hf s k) k v s; (r.1, r.2.1, mapRes (fun x => .replaced x.1 x.2) r.2.2)
  | .shiftRemove k =>
    let r := c.shiftRemoveFull eq (hf s k) k s; (r.1, r.2.1, mapRes .removed r.2.2)
  | .swapRemove k =>
    let r := c.swapRemoveFull eq (hf s k) k s; (r.1, r.2.1, mapRes .removed r.2.2)
  | .shiftRemoveAt i => lift c s .popped (c.shiftRemoveIndex i)
  | .swapRemoveAt i => lift c s .popped (c.swapRemoveIndex i)
  | .pop => lift c s .popped c.pop
  | .move i j => lift c s (fun _ => .done) ((c.moveIndex i j).map (·, ()))
  | .reverse => (c.reverse, s, .ok .done)
  | .clear => (c.clear, s, .ok .done)
  | .truncate n => lift c s (fun _ => .done) ((c.truncate n).map (·, ()))
  | .drain i j => lift c s (fun _ => .done) ((c.drain i j).map (·, ()))
  | .splitHead n => lift c s (fun _ => .done) (c.splitOff n)
  | .splitTail n => lift c s (fun _ => .done) ((c.splitOff n).map (fun r => (r.2, r.1)))
  | .retain keep => lift c s (fun _ => .done) ((c.retain keep).map (·, ()))
  | .sort le => lift c s (fun _ => .done)
      ((c.withEntries (c.entries.mergeSort (fun a b => le (a.key, a.val) (b.key, b.val)))).map
        (·, ()))
  | .shiftInsert i k v =>
    lift c s (fun _ => .done) ((c.shiftInsertUnique i (hf s k) k v).map (·, ()))
  | .tombstone k =>
    let r := c.tombstoneRemoveFull eq (hf s k) k dk dv s; (r.1, r.2.1, mapRes .removed r.2.2)
  | .tombstoneAt i => lift c s .popped (c.tombstoneIndex i dk dv)
  | .compact => lift c s (fun _ => .done) ((c.compactTombstones dead).map (·, ()))

/-- A history; `none` if an operation panics or raises. -/
def run (dead : K → Bool) (dk : K) (dv : V) (eq : KeyEq σ ε K) (hf : σ → K → Nat) :
    Core Tb K V → σ → List (Op K V) → Option (Core Tb K V × σ × List (Out K V))
  | c, s, [] => some (c, s, [])
  | c, s, op :: ops =>
    match exec dead dk dv eq hf c s op with
    | (c', s', .ok o) => (run dead dk dv eq hf c' s' ops).map (fun r => (r.1, r.2.1, o :: r.2.2))
    | _ => none

/-- The states reachable when the comparison and the hash are arbitrary user code: it may
answer anything at any time, change its mind, and raise. -/
inductive Reach (Tb : Table) (dead : K → Bool) (dk : K) (dv : V) : Core Tb K V → Prop
  | start (n : Nat) : Reach Tb dead dk dv (Core.withCapacity n)
  | step {c : Core Tb K V} {op : Op K V} {σ ε : Type} (eq : KeyEq σ ε K) (hf : σ → K → Nat)
      (s : σ) : Reach Tb dead dk dv c → Valid dead (contents c) op →
      Reach Tb dead dk dv (exec dead dk dv eq hf c s op).1

end Verif.Rubymap
