/-!
# Methods of Hash

/repo/monoruby/builtins/hash.rb and builtins/hash.rs, above the table itself (Verif/Rubymap,
Verif/Hash).

A Hash is the list of its entries in order.  `K` stands for keys up to `eql?`, `V` for values up to
`==`.  Simplifications for the whole file: default values, `compare_by_identity`, subclasses and
changes made by a block to the Hash it is called for are not modelled; blocks are functions.
-/

namespace Verif.HashMeth

variable {K V W : Type} [DecidableEq K]

/-- The entries. -/
abbrev H (K V : Type) := List (K × V)

/-- `hash[key]`, `none` if there is no such key. -/
def get : H K V → K → Option V
  | [], _ => none
  | e :: t, k => if e.1 = k then some e.2 else get t k

/-- `hash[key] = value`: in its place if the key exists, otherwise at the end. -/
def set : H K V → K → V → H K V
  | [], k, v => [(k, v)]
  | e :: t, k, v => if e.1 = k then (e.1, v) :: t else e :: set t k v

/-- `hash.delete(key)`. -/
def del : H K V → K → H K V
  | [], _ => []
  | e :: t, k => if e.1 = k then t else e :: del t k

def keys (h : H K V) : List K := h.map (·.1)

/-- `key?`. -/
def hasKey (h : H K V) (k : K) : Bool := (get h k).isSome

/-- Inserting entry after entry: `Hash[pairs]`, a literal, `to_h` with a block.
builtins/hash.rs:408-460, builtins/hash.rb:107-136 -/
def fill (h : H K V) : List (K × V) → H K V
  | [] => h
  | e :: t => fill (set h e.1 e.2) t

/-- `to_h { |k, v| [k', v'] }`.  builtins/hash.rb:107-136 -/
def toH {K' V' : Type} [DecidableEq K'] (f : K → V → K' × V') (h : H K V) : H K' V' :=
  fill [] (h.map (fun e => f e.1 e.2))

/-- The new key: by the mapping if it has the key, otherwise by the block, otherwise the same.
builtins/hash.rb:168-193, 214-220 -/
def newKey (m : Option (H K K)) (blk : Option (K → K)) (k : K) : K :=
  match m.bind (fun m => get m k) with
  | some k' => k'
  | none => match blk with
    | some f => f k
    | none => k

/-- `transform_keys`.  builtins/hash.rb:161-198 -/
def transformKeys (m : Option (H K K)) (blk : Option (K → K)) (h : H K V) : H K V :=
  fill [] (h.map (fun e => (newKey m blk e.1, e.2)))

/-- The loop of `transform_keys!`, with the keys made so far.  builtins/hash.rb:211-224 -/
def tkLoop (f : K → K) (h : H K V) (made : List K) : List (K × V) → H K V
  | [] => h
  | e :: t =>
    let h := if made.contains e.1 then h else del h e.1
    tkLoop f (set h (f e.1) e.2) (f e.1 :: made) t

/-- `transform_keys!`.  builtins/hash.rb:200-226 -/
def transformKeysBang (m : Option (H K K)) (blk : Option (K → K)) (h : H K V) : H K V :=
  tkLoop (newKey m blk) h [] h

/-- `transform_values`, `transform_values!`: the values are overwritten in place.
builtins/hash.rb:235-265 -/
def transformValues (f : V → W) (h : H K V) : H K W := h.map (fun e => (e.1, f e.2))

/-- `select`, `filter`.  builtins/hash.rs:1804-1825 -/
def select (p : K → V → Bool) (h : H K V) : H K V := fill [] (h.filter (fun e => p e.1 e.2))

/-- `reject`.  builtins/hash.rs:1998-2019 -/
def reject (p : K → V → Bool) (h : H K V) : H K V := fill [] (h.filter (fun e => !p e.1 e.2))

/-- Taking out keys one by one. -/
def delAll (h : H K V) : List K → H K V
  | [] => h
  | k :: t => delAll (del h k) t

/-- The first loop of `delete_if`, `reject!`, `select!`, `keep_if`: the keys to take out, or `none` if
the block raised or broke out.  builtins/hash.rs:1844-1855, 2037-2049 -/
def collect (p : K → V → Option Bool) : List (K × V) → Option (List K)
  | [] => some []
  | e :: t =>
    match p e.1 e.2 with
    | none => none
    | some true => (collect p t).map (e.1 :: ·)
    | some false => collect p t

/-- `delete_if`; `keep_if` with the opposite answers.  What the Hash is afterwards, also when the block
raised.  builtins/hash.rs:2029-2056, 3225-3252 -/
def deleteIf (p : K → V → Option Bool) (h : H K V) : H K V :=
  match collect p h with
  | none => h
  | some ks => delAll h ks

/-- `reject!`; `select!` with the opposite answers: the Hash, and whether `nil` is returned.
builtins/hash.rs:1836-1868, 2065-2097 -/
def rejectBang (p : K → V → Bool) (h : H K V) : H K V × Bool :=
  match collect (fun k v => some (p k v)) h with
  | none => (h, true)
  | some ks => (delAll h ks, ks.isEmpty)

/-- What `merge` does with one entry of another Hash.  builtins/hash.rs:2250-2268 -/
def mergeStep (blk : Option (K → V → V → V)) (h : H K V) (e : K × V) : H K V :=
  match blk with
  | none => set h e.1 e.2
  | some f => match get h e.1 with
    | some v => set h e.1 (f e.1 v e.2)
    | none => set h e.1 e.2

/-- `merge`, `merge!`, `update`.  builtins/hash.rs:2236-2305 -/
def merge (blk : Option (K → V → V → V)) (h : H K V) (others : List (H K V)) : H K V :=
  others.foldl (fun h o => o.foldl (mergeStep blk) h) h

/-- `invert`.  builtins/hash.rs:2218-2227 -/
def invert [DecidableEq V] (h : H K V) : H V K := fill [] (h.map (fun e => (e.2, e.1)))

/-- `key(value)`.  builtins/hash.rs:3206-3216 -/
def key [DecidableEq V] : H K V → V → Option K
  | [], _ => none
  | e :: t, v => if e.2 = v then some e.1 else key t v

/-- `has_value?`.  builtins/hash.rb:416-419 -/
def hasValue [DecidableEq V] : H K V → V → Bool
  | [], _ => false
  | e :: t, v => if e.2 = v then true else hasValue t v

/-- The loop of `==` and `hash_subset`.  builtins/hash.rs:692-703, 807-823 -/
def subset [DecidableEq V] (sup : H K V) : H K V → Bool
  | [] => true
  | e :: t => match get sup e.1 with
    | some v => if e.2 = v then subset sup t else false
    | none => false

/-- `==`.  builtins/hash.rs:673-704 -/
def eq [DecidableEq V] (a b : H K V) : Bool := if a.length ≠ b.length then false else subset b a

/-- `<`, `<=`, `>`, `>=`.  builtins/hash.rs:833-888 -/
def lt [DecidableEq V] (a b : H K V) : Bool := decide (a.length < b.length) && subset b a
def le [DecidableEq V] (a b : H K V) : Bool := decide (a.length ≤ b.length) && subset b a
def gt [DecidableEq V] (a b : H K V) : Bool := decide (a.length > b.length) && subset a b
def ge [DecidableEq V] (a b : H K V) : Bool := decide (a.length ≥ b.length) && subset a b

/-- `h[k] = self[k] if key?(k)`.  builtins/hash.rb:273 -/
def sliceStep (h r : H K V) (k : K) : H K V :=
  match get h k with
  | some v => set r k v
  | none => r

/-- `slice(*keys)`.  builtins/hash.rb:267-275 -/
def slice (h : H K V) (ks : List K) : H K V := ks.foldl (sliceStep h) []

/-- `except(*keys)`.  builtins/hash.rb:277-282 -/
def except (h : H K V) (ks : List K) : H K V := delAll h ks

/-- `compact`, with `none` for nil.  builtins/hash.rb:426-436 -/
def compact (h : H K (Option V)) : H K (Option V) := fill [] (h.filter (fun e => e.2.isSome))

/-- `compact!`: the Hash, and whether `nil` is returned.  builtins/hash.rb:438-445 -/
def compactBang (h : H K (Option V)) : H K (Option V) × Bool :=
  let drop := (h.filter (fun e => e.2.isNone)).map (·.1)
  if drop.isEmpty then (h, true) else (delAll h drop, false)

/-- `min_by`: the entry and value found so far.  A block value is an Integer or nil; `nil <=> 1` and
`1 <=> nil` are nil, on which `<` raises NoMethodError (`none`), and `nil <=> nil` is 0.
builtins/hash.rb:402-414 -/
def minLoop (f : K → V → Option Int) (best : Option (K × V)) (bestVal : Option Int) :
    List (K × V) → Option (Option (K × V))
  | [] => some best
  | e :: t =>
    match bestVal with
    | none => minLoop f (some e) (f e.1 e.2) t
    | some m => match f e.1 e.2 with
      | none => none
      | some x => if x < m then minLoop f (some e) (some x) t else minLoop f best bestVal t

/-- `min_by`.  builtins/hash.rb:402-414 -/
def minBy (f : K → V → Option Int) (h : H K V) : Option (Option (K × V)) := minLoop f none none h

end Verif.HashMeth
