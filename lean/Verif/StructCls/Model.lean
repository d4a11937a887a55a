/-!
# Struct

Model of `monoruby/src/builtins/struct_class.rs` and `monoruby/builtins/struct.rb`.

Values are abstract; `Vals` gives what the code asks of them.  Names are strings.  A class is the
chain of its levels, itself first, up to (and without) Struct.  Not modelled: a named struct's
constant, `method_added` hooks, blocks, `inspect`, recursive structs (the guard of `==` and `hash`),
user-defined writers, `to_int` of index arguments.
-/

namespace Verif.StructCls

/-- What can go wrong. `panic` is the process dying. -/
inductive Err where
  | argument
  | index
  | name
  | type
  | noMethod
  | frozen
  | runtime
  | panic
deriving DecidableEq, Repr

/-- A member as stored: the very object given to Struct.new, a Symbol or a String
(struct_class.rs:214 clones the arguments). -/
inductive Mem where
  | sym (n : String)
  | str (n : String)
deriving DecidableEq, Repr

/-- The name of a member (`expect_symbol_or_string`, struct_class.rs:220,243). -/
def Mem.nm : Mem → String
  | .sym n => n
  | .str n => n

/-- `try_symbol` (struct_class.rs:335,352). -/
def Mem.trySym : Mem → Option String
  | .sym n => some n
  | .str _ => none

/-- A key of a Hash of keywords, or an index: a Symbol, a String, an Integer, a Float (given by what
`to_int` would make of it) or another object. -/
inductive Key where
  | sym (n : String)
  | str (n : String)
  | int (i : Int)
  | flt (i : Int)
  | obj (id : Nat)
deriving DecidableEq, Repr

/-- What the code asks of values. -/
class Vals (V : Type) where
  nilV : V
  asInt : V → Option Int
  asHash : V → Option (List (Key × V))
  ofHash : List (Key × V) → V

/-- One level of the chain: its own `/members` and `/keyword_init` (struct_class.rs:136-141,256);
`kw` is nil, false or another value. -/
structure Level where
  members : Option (List Mem)
  kw : Option Bool
deriving DecidableEq, Repr

/-- A class produced by Struct.new, or a subclass: the chain, and the names its readers were defined
for (struct_class.rs:241-249). -/
structure Cls where
  chain : List Level
  readers : List String
deriving DecidableEq, Repr

/-- An instance: its slots and whether it is frozen. -/
structure Obj (V : Type) where
  slots : List V
  frozen : Bool
deriving DecidableEq, Repr

variable {V : Type} [Vals V]

/-- `struct_initialize`'s check of the names (struct_class.rs:216-228) and what it stores (256). -/
def define (args : List Mem) (kw : Option Bool) : Except Err Cls :=
  if (args.map Mem.nm).Nodup then .ok ⟨[⟨some args, kw⟩], args.map Mem.nm⟩
  else .error .argument

/-- `Class.new(S)`: a level with nothing of its own, in front. -/
def subclass (c : Cls) : Cls := ⟨⟨none, none⟩ :: c.chain, c.readers⟩

/-- `get_members` (struct_class.rs:273-292): the first level that has some. -/
def membersOf (c : Cls) : Except Err (List Mem) :=
  match c.chain.findSome? Level.members with
  | some ms => .ok ms
  | none => .error .runtime

/-- `is_keyword_init` (struct_class.rs:438-452): looks at the class itself only. -/
def keywordInit (c : Cls) : Bool :=
  match c.chain with
  | [] => false
  | l :: _ => match l.kw with
    | none => false
    | some b => b

/-- A value of a Hash of keywords by Symbol (`hash.get`). -/
def fetch (h : List (Key × V)) (n : String) : Option V :=
  match h.find? (fun p => p.1 == .sym n) with
  | some p => some p.2
  | none => none

/-- The names of the members that are Symbols (struct_class.rs:335,375: `filter_map try_symbol`). -/
def known (ms : List Mem) : List String := ms.filterMap Mem.trySym

/-- Whether a key is a Symbol (struct_class.rs:337). -/
def Key.isSym : Key → Bool
  | .sym _ => true
  | _ => false

/-- A Symbol must be a member's name; other keys are not looked at here (struct_class.rs:338,379). -/
def keyKnown (ms : List Mem) : Key → Bool
  | .sym n => (known ms).contains n
  | _ => true

/-- The check of the keys under `keyword_init: true` (struct_class.rs:336-350). -/
def checkKeys (ms : List Mem) (h : List (Key × V)) : Except Err Unit :=
  if h.all (fun p => p.1.isSym) then
    if h.all (fun p => keyKnown ms p.1) then .ok ()
    else .error .argument
  else .error .argument

/-- The check of the keys otherwise (struct_class.rs:375-385): keys that are not Symbols pass. -/
def checkKeysLoose (ms : List Mem) (h : List (Key × V)) : Except Err Unit :=
  if h.all (fun p => keyKnown ms p.1) then .ok ()
  else .error .argument

/-- The slots from a Hash of keywords (struct_class.rs:351-356,386-392): `try_symbol().unwrap()` on a
member that is a String kills the process. -/
def fromHash (ms : List Mem) (h : List (Key × V)) : Except Err (List V) :=
  match ms with
  | [] => .ok []
  | .sym n :: r =>
    match fromHash r h with
    | .ok vs => .ok ((fetch h n).getD Vals.nilV :: vs)
    | .error e => .error e
  | .str _ :: _ => .error .panic

/-- Positional arguments, nil for those not given (struct_class.rs:425-428). -/
def fromPos (ms : List Mem) (pos : List V) : List V :=
  match ms, pos with
  | [], _ => []
  | _ :: r, [] => Vals.nilV :: fromPos r []
  | _ :: r, v :: vs => v :: fromPos r vs

/-- The arm for `keyword_init: true` (struct_class.rs:308-365). -/
def initKw (ms : List Mem) (pos : List V) (kw : List (Key × V)) : Except Err (List V) :=
  match pos, kw with
  | [], [] => .ok (ms.map (fun _ => Vals.nilV))
  | _ :: _, _ :: _ => .error .argument
  | [], k :: ks =>
    match checkKeys ms (k :: ks) with
    | .error e => .error e
    | .ok () => fromHash ms (k :: ks)
  | [v], [] =>
    match Vals.asHash v with
    | none => .error .argument
    | some h =>
      match checkKeys ms h with
      | .error e => .error e
      | .ok () => fromHash ms h
  | _ :: _ :: _, [] => .error .argument

/-- The arm without it (struct_class.rs:367-430). -/
def initPlain (ms : List Mem) (pos : List V) (kw : List (Key × V)) : Except Err (List V) :=
  match kw with
  | [] => if ms.length < pos.length then .error .argument else .ok (fromPos ms pos)
  | k :: ks =>
    match pos with
    | [] =>
      match checkKeysLoose ms (k :: ks) with
      | .error e => .error e
      | .ok () => fromHash ms (k :: ks)
    | p :: ps =>
      if ms.length < (p :: ps).length + 1 then .error .argument
      else .ok (fromPos ms ((p :: ps) ++ [Vals.ofHash (k :: ks)]))

/-- `Struct#initialize` (struct_class.rs:293-432): the new slots; there is no check that the receiver
is not frozen. -/
def initSlots (c : Cls) (pos : List V) (kw : List (Key × V)) : Except Err (List V) :=
  match membersOf c with
  | .error e => .error e
  | .ok ms => if keywordInit c then initKw ms pos kw else initPlain ms pos kw

/-- Storing into slots by `set_struct_slot` one after the other (struct_inner.rs:55-57): a slot that
is not there kills the process. -/
def storeAll (slots new : List V) : Except Err (List V) :=
  if new.length ≤ slots.length then .ok (new ++ slots.drop new.length) else .error .panic

/-- `initialize` called on an object. -/
def initObj (c : Cls) (o : Obj V) (pos : List V) (kw : List (Key × V)) : Except Err (Obj V) :=
  match initSlots c pos kw with
  | .error e => .error e
  | .ok vs => match storeAll o.slots vs with
    | .error e => .error e
    | .ok s => .ok { o with slots := s }

/-- `allocate` (class.rs:390-420): as many nil slots as there are members now. -/
def allocate (c : Cls) : Except Err (Obj V) :=
  match membersOf c with
  | .error _ => .ok ⟨[], false⟩
  | .ok ms => .ok ⟨ms.map (fun _ => Vals.nilV), false⟩

/-- The allocation compiled code makes: with the number of members there was when it was compiled
(class.rs:86-97 of builtins, InlineAlloc::Struct). -/
def allocateBaked (len : Nat) : Obj V := ⟨List.replicate len Vals.nilV, false⟩

/-- `S.new(...)`. -/
def new (c : Cls) (pos : List V) (kw : List (Key × V)) : Except Err (Obj V) :=
  match allocate c with
  | .error e => .error e
  | .ok o => initObj c o pos kw

/-- User-defined methods of the class, by name. -/
abbrev Over (V : Type) := String → Option (List V → V)

/-- A call of a method of a member's name without arguments: the user's method if there is one, else
the reader, which reads its slot (struct_class.rs:241-247). -/
def callName (c : Cls) (ov : Over V) (o : Obj V) (n : String) : Except Err V :=
  match ov n with
  | some f => .ok (f o.slots)
  | none =>
    match c.readers.idxOf? n with
    | none => .error .noMethod
    | some i => match o.slots[i]? with
      | some v => .ok v
      | none => .error .panic

/-- `send(m)` in struct.rb: a member named `send` takes its place, and takes no argument. -/
def send (c : Cls) (ov : Over V) (o : Obj V) (n : String) : Except Err V :=
  if c.readers.contains "send" then .error .argument else callName c ov o n

/-- `members` called from struct.rb: a member of that name takes its place; what the caller does with
its value (map, each, size, include?) is then a NoMethodError, unless the value is an Array (not
modelled). -/
def callMembers (c : Cls) : Except Err (List Mem) :=
  if c.readers.contains "members" then .error .noMethod else membersOf c

/-- `size` called from struct.rb: `members.size` (struct.rb:5-7), or the member of that name. -/
def callSize (c : Cls) (ov : Over V) (o : Obj V) : Except Err (Option Int) :=
  if c.readers.contains "size" then
    match callName c ov o "size" with
    | .ok v => .ok (Vals.asInt v)
    | .error e => .error e
  else match callMembers c with
    | .ok ms => .ok (some ms.length)
    | .error e => .error e

/-- The members in turn through `send`. -/
def sendAll (c : Cls) (ov : Over V) (o : Obj V) : List Mem → Except Err (List V)
  | [] => .ok []
  | m :: r =>
    match send c ov o m.nm with
    | .error e => .error e
    | .ok v => match sendAll c ov o r with
      | .error e => .error e
      | .ok vs => .ok (v :: vs)

/-- `Struct#to_a`, `values`, `deconstruct`, and what `each` yields (struct.rb:13-17,39-43). -/
def toA (c : Cls) (ov : Over V) (o : Obj V) : Except Err (List V) :=
  match callMembers c with
  | .error e => .error e
  | .ok ms => sendAll c ov o ms

/-- `Struct#to_h`: the pairs each_pair yields (struct.rb:20-36,46-47). -/
def toH (c : Cls) (ov : Over V) (o : Obj V) : Except Err (List (Mem × V)) :=
  match callMembers c with
  | .error e => .error e
  | .ok ms => match sendAll c ov o ms with
    | .error e => .error e
    | .ok vs => .ok (ms.zip vs)

/-- An Integer index made an offset (struct.rb:64-67,80-83). -/
def offset (c : Cls) (ov : Over V) (o : Obj V) (k : Int) : Except Err Nat :=
  match callSize c ov o with
  | .error e => .error e
  | .ok none => if k < 0 then .error .type else .error .argument
  | .ok (some sz) =>
    let i := if k < 0 then k + sz else k
    if i < 0 then .error .index
    else if sz ≤ i then .error .index
    else .ok i.toNat

/-- The member an index or name stands for (struct.rb:62-75,78-91). -/
def resolve (c : Cls) (ov : Over V) (o : Obj V) (k : Key) : Except Err String :=
  match k with
  | .int i =>
    match offset c ov o i with
    | .error e => .error e
    | .ok j => match callMembers c with
      | .error e => .error e
      | .ok ms => match ms[j]? with
        | some m => .ok m.nm
        | none => .error .type
  | .sym n =>
    match callMembers c with
    | .error e => .error e
    | .ok ms => if ms.contains (.sym n) then .ok n else .error .name
  | .str n =>
    match callMembers c with
    | .error e => .error e
    | .ok ms => if ms.contains (.sym n) then .ok n else .error .name
  | .flt _ => .error .type
  | .obj _ => .error .type

/-- `Struct#[]` (struct.rb:61-75). -/
def aref (c : Cls) (ov : Over V) (o : Obj V) (k : Key) : Except Err V :=
  match resolve c ov o k with
  | .error e => .error e
  | .ok n => send c ov o n

/-- A member's writer (struct_class.rs:248-252, set_struct_slot_with_check 701-714). -/
def write (c : Cls) (o : Obj V) (n : String) (v : V) : Except Err (Obj V) :=
  match c.readers.idxOf? n with
  | none => .error .noMethod
  | some i =>
    if o.frozen then .error .frozen
    else if i < o.slots.length then .ok { o with slots := o.slots.set i v }
    else .error .panic

/-- `send("x=", v)` in struct.rb. -/
def sendWrite (c : Cls) (o : Obj V) (n : String) (v : V) : Except Err (Obj V) :=
  if c.readers.contains "send" then .error .argument else write c o n v

/-- `Struct#[]=` (struct.rb:77-92). -/
def aset (c : Cls) (ov : Over V) (o : Obj V) (k : Key) (v : V) : Except Err (Obj V) :=
  if o.frozen then .error .frozen
  else match resolve c ov o k with
    | .error e => .error e
    | .ok n => sendWrite c o n v

/-- The first step of `Struct#dig` (struct.rb:132-150). -/
def dig1 (c : Cls) (ov : Over V) (o : Obj V) (k : Key) : Except Err V :=
  match k with
  | .int i =>
    match callSize c ov o with
    | .error e => .error e
    | .ok none => if i < 0 then .error .type else .error .argument
    | .ok (some sz) =>
      let j := if i < 0 then i + sz else i
      if j < 0 ∨ sz ≤ j then .ok Vals.nilV
      else match callMembers c with
        | .error e => .error e
        | .ok ms => match ms[j.toNat]? with
          | some m => send c ov o m.nm
          | none => .error .type
  | .sym n =>
    match callMembers c with
    | .error e => .error e
    | .ok ms => if ms.contains (.sym n) then send c ov o n else .ok Vals.nilV
  | .str n =>
    match callMembers c with
    | .error e => .error e
    | .ok ms => if ms.contains (.sym n) then send c ov o n else .ok Vals.nilV
  | k => aref c ov o k

/-- The loop of `Struct#deconstruct_keys` over Symbols (struct.rb:164-171): stops at the first that is
no member. -/
def deconLoop (c : Cls) (ov : Over V) (o : Obj V) (ms : List Mem) :
    List String → Except Err (List (String × V))
  | [] => .ok []
  | n :: r =>
    if ms.contains (.sym n) then
      match send c ov o n with
      | .error e => .error e
      | .ok v => match deconLoop c ov o ms r with
        | .error e => .error e
        | .ok t => .ok ((n, v) :: t)
    else .ok []

/-- `Struct#deconstruct_keys` with distinct Symbols (struct.rb:157-190). -/
def deconstructKeys (c : Cls) (ov : Over V) (o : Obj V) (ks : List String) :
    Except Err (List (String × V)) :=
  match callSize c ov o with
  | .error e => .error e
  | .ok none => .error .argument
  | .ok (some sz) =>
    if sz < (ks.length : Int) then .ok []
    else match callMembers c with
      | .error e => .error e
      | .ok ms => deconLoop c ov o ms ks

/-- The loop of `Struct#==` over the slots (struct_class.rs:551-558), with the elements' `!=`. -/
def eqLoop (neE : V → V → Except Err Bool) : List V → List V → Except Err Bool
  | a :: r, b :: s =>
    match neE a b with
    | .error e => .error e
    | .ok true => .ok false
    | .ok false => eqLoop neE r s
  | _, _ => .ok true

/-- `Struct#==` (struct_class.rs:528-565); classes are given by number. -/
def eq (neE : V → V → Except Err Bool) (ca cb : Nat) (a b : Obj V) : Except Err Bool :=
  if ca ≠ cb then .ok false
  else if a.slots.length ≠ b.slots.length then .ok false
  else eqLoop neE a.slots b.slots

/-- The loop of `Struct#!=` (struct_class.rs:637-645). -/
def neLoop (neE : V → V → Except Err Bool) : List V → List V → Except Err Bool
  | a :: r, b :: s =>
    match neE a b with
    | .error e => .error e
    | .ok true => .ok true
    | .ok false => neLoop neE r s
  | _, _ => .ok false

/-- `Struct#!=` (struct_class.rs:614-652). -/
def ne (neE : V → V → Except Err Bool) (ca cb : Nat) (a b : Obj V) : Except Err Bool :=
  if ca ≠ cb then .ok true
  else if a.slots.length ≠ b.slots.length then .ok true
  else neLoop neE a.slots b.slots

/-- `Struct#eql?` (struct_class.rs:573-610), the elements' `eql?` given. -/
def eql (eqlE : V → V → Bool) (ca cb : Nat) (a b : Obj V) : Bool :=
  if ca ≠ cb then false
  else if a.slots.length ≠ b.slots.length then false
  else (a.slots.zip b.slots).all (fun p => eqlE p.1 p.2)

/-- `Struct#hash` (struct_class.rs:659-684): what is fed to the hasher. -/
def hashFeed (hashE : V → Nat) (ca : Nat) (a : Obj V) : List Nat := ca :: a.slots.map hashE

/-- `S.members` (struct_class.rs:259-271, 687-693) gives the class's own array: what the caller does to
it is done to the class. -/
def changeMembers (c : Cls) (f : List Mem → List Mem) : Cls :=
  let rec go : List Level → List Level
    | [] => []
    | l :: r => match l.members with
      | some ms => { l with members := some (f ms) } :: r
      | none => l :: go r
  { c with chain := go c.chain }

end Verif.StructCls
