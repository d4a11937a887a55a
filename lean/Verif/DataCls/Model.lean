import Verif.StructCls.Model

/-!
# Data

Model of `monoruby/builtins/data.rb` and of `monoruby/src/builtins/data_class.rs`.

A class is its list of members (Symbols, by name); values are abstract.  Not modelled: a user-defined
`initialize`, keys with `to_str`, `inspect`, `define` on a defined class.  `==`, `eql?` and `hash` are
the functions of Struct (data_class.rs:28-31; see C139).
-/

namespace Verif.DataCls

open Verif.StructCls (Err Key Mem Vals Obj Over)

/-- A class produced by Data.define: the array `members` gives, and the names its readers were defined
for (data_class.rs:80-91). -/
structure Cls where
  members : List String
  readers : List String
deriving DecidableEq, Repr

/-- `Data.define` (data.rb:11-40): Strings become Symbols, a repeated name is refused. -/
def define (ms : List Mem) : Except Err Cls :=
  let ns := ms.map Mem.nm
  if ns.Nodup then .ok ⟨ns, ns⟩ else .error .argument

variable {V : Type} [Vals V]

/-- `self.class.members` as data.rb's instance methods call it (data.rb:45,51,84): a member named
`class` takes the place of the method, and its value has no `members`. -/
def classMembers (c : Cls) : Except Err (List String) :=
  if c.readers.contains "class" then .error .noMethod else .ok c.members

/-- `__data_key` (data.rb:146-160). -/
def dataKey : Key → Except Err String
  | .sym n => .ok n
  | .str n => .ok n
  | _ => .error .type

/-- Every key made a name, in order (the loop of data.rb:119-126). -/
def normAll : List (Key × V) → Except Err (List (String × V))
  | [] => .ok []
  | (k, v) :: r =>
    match dataKey k with
    | .error e => .error e
    | .ok n => match normAll r with
      | .error e => .error e
      | .ok t => .ok ((n, v) :: t)

/-- `norm[m]` after the loop: the last value stored under the name. -/
def lastVal (kvs : List (String × V)) (n : String) : Option V :=
  match kvs.reverse.find? (fun p => p.1 == n) with
  | some p => some p.2
  | none => none

/-- `__data_values` (data.rb:116-141): missing members are reported before unknown ones. -/
def dataValues (ns : List String) (kw : List (Key × V)) : Except Err (List V) :=
  match normAll kw with
  | .error e => .error e
  | .ok kvs =>
    if ns.any (fun n => (lastVal kvs n).isNone) then .error .argument
    else if kvs.any (fun p => !ns.contains p.1) then .error .argument
    else .ok (ns.map (fun n => (lastVal kvs n).getD Vals.nilV))

/-- `__data_init` (data_class.rs:105-113): stores the values and freezes; no check that the receiver
is not frozen yet. -/
def dataInit (o : Obj V) (vs : List V) : Except Err (Obj V) :=
  if vs.length ≤ o.slots.length then .ok ⟨vs ++ o.slots.drop vs.length, true⟩ else .error .panic

/-- `Data#initialize` (data.rb:44-46). -/
def initObj (c : Cls) (o : Obj V) (kw : List (Key × V)) : Except Err (Obj V) :=
  match classMembers c with
  | .error e => .error e
  | .ok ns => match dataValues ns kw with
    | .error e => .error e
    | .ok vs => dataInit o vs

/-- `allocate`: as many nil slots as there are members. -/
def allocate (c : Cls) : Obj V := ⟨c.members.map (fun _ => Vals.nilV), false⟩

/-- `new` and `[]` (`__data_alloc_init`, data.rb:100-112). -/
def new (c : Cls) (args : List V) (kw : List (Key × V)) : Except Err (Obj V) :=
  match args with
  | [] => initObj c (allocate c) kw
  | _ :: _ =>
    if kw ≠ [] then .error .argument
    else if args.length ≠ c.members.length then .error .argument
    else initObj c (allocate c) ((c.members.map Key.sym).zip args)

/-- `Data#to_h` without a block (data.rb:50-54). -/
def toH (c : Cls) (o : Obj V) : Except Err (List (Key × V)) :=
  match classMembers c with
  | .error e => .error e
  | .ok ns => .ok ((ns.map Key.sym).zip o.slots)

/-- A String key made a Symbol, others left (data.rb:72). -/
def symKey : Key → Key
  | .str n => .sym n
  | k => k

/-- Storing under a key: in place if it is there, else at the end. -/
def put (h : List (Key × V)) (k : Key) (v : V) : List (Key × V) :=
  match h with
  | [] => [(k, v)]
  | (k', v') :: r => if k' = k then (k, v) :: r else (k', v') :: put r k v

/-- `Hash#merge`. -/
def merge (h kw : List (Key × V)) : List (Key × V) :=
  kw.foldl (fun h p => put h p.1 p.2) h

/-- The keywords of `with` under Symbols (data.rb:71-72). -/
def normKw (kw : List (Key × V)) : List (Key × V) :=
  kw.foldl (fun h p => put h (symKey p.1) p.2) []

/-- `Data#with` (data.rb:69-76). -/
def with_ (c : Cls) (o : Obj V) (kw : List (Key × V)) : Except Err (Obj V) :=
  match kw with
  | [] => .ok o
  | k :: ks =>
    match toH c o with
    | .error e => .error e
    | .ok h => initObj c (allocate c) (merge h (normKw (k :: ks)))

/-- A reader, or a user-defined method of its name. -/
def reader (c : Cls) (ov : Over V) (o : Obj V) (n : String) : Except Err V :=
  match ov n with
  | some f => .ok (f o.slots)
  | none =>
    match c.readers.idxOf? n with
    | none => .error .noMethod
    | some i => match o.slots[i]? with
      | some v => .ok v
      | none => .error .panic

/-- The loop of `deconstruct_keys` over Symbols (data.rb:87-106), through `send`. -/
def deconLoop (c : Cls) (ov : Over V) (o : Obj V) (ns : List String) :
    List String → Except Err (List (String × V))
  | [] => .ok []
  | n :: r =>
    if ns.contains n then
      match (if c.readers.contains "send" then .error .argument else reader c ov o n) with
      | .error e => .error e
      | .ok v => match deconLoop c ov o ns r with
        | .error e => .error e
        | .ok t => .ok ((n, v) :: t)
    else .ok []

/-- `Data#deconstruct_keys` with distinct Symbols (data.rb:79-107). -/
def deconstructKeys (c : Cls) (ov : Over V) (o : Obj V) (ks : List String) :
    Except Err (List (String × V)) :=
  match classMembers c with
  | .error e => .error e
  | .ok ns => if ns.length < ks.length then .ok [] else deconLoop c ov o ns ks

end Verif.DataCls
