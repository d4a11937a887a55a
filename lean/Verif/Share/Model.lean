/-
Strings that share one buffer: copy-on-write substrings and snapshots
(monoruby/src/value/rvalue/string.rs), together with the collections of the generational
garbage collector that free strings and their buffers.

Simplifications, for the whole file.  Objects and buffers are numbered; a number is used once, so
that a freed buffer is seen to be freed.  A buffer is its bytes; spare capacity and addresses are
not modelled, so whether a write stays in place or moves to a fresh buffer is a parameter of the
write.  The encoding is a number and the cached code range is left out (it is the subject of
`Verif.Str`).  Only strings are modelled: the other objects appear as the list of strings they and
the stack reach, given to each collection.
-/
namespace Verif.Share

/-- STRING_INLINE_CAP (monoruby/src/value/rvalue/string.rs): how many bytes fit in the object. -/
def inlineCap : Nat := 32

/-- `StringContent` (monoruby/src/value/rvalue/string.rs:700-773): bytes in the object, a buffer of
its own on the heap, or a view of a part of the buffer of another string, the root. -/
inductive Content where
  | inl (bs : List Nat)
  | heap (buf : Nat)
  | view (root buf off len : Nat)
deriving DecidableEq, Repr

/-- `SharedContent.root` (string.rs:1329-1336 `shared_root`). -/
def Content.root? : Content → Option Nat
  | .view r _ _ _ => some r
  | _ => none

/-- A string object: its content, encoding, and the flags of its header
(monoruby/src/value/rvalue.rs:1196-1252): frozen, old generation, and `armed`: old and not in the
remembered set, so that a store into it has to take the write barrier. -/
structure Obj where
  content : Content
  enc : Nat
  frozen : Bool
  old : Bool
  armed : Bool
deriving DecidableEq, Repr

/-- The heap: strings, buffers and the next number of each. -/
structure Mem where
  objs : Nat → Option Obj
  bufs : Nat → Option (List Nat)
  no : Nat
  nb : Nat

/-- The heap at the start. -/
def Mem.empty : Mem := ⟨fun _ => none, fun _ => none, 0, 0⟩

/-- Store into one place of a table. -/
def put {α : Type} (f : Nat → Option α) (i : Nat) (x : Option α) : Nat → Option α :=
  fun j => if j = i then x else f j

/-- Set the object at `o`. -/
def Mem.set (m : Mem) (o : Nat) (x : Obj) : Mem := { m with objs := put m.objs o (some x) }

/-- `StringContent::as_slice` (string.rs): the bytes of a content.  A view reads the buffer through
its pointer, whatever has become of the buffer; reading a buffer that was freed, or past its end,
gives `none`. -/
def Mem.slice (m : Mem) : Content → Option (List Nat)
  | .inl bs => some bs
  | .heap b => m.bufs b
  | .view _ b off len =>
    match m.bufs b with
    | some bs => if off + len ≤ bs.length then some ((bs.drop off).take len) else none
    | none => none

/-- The bytes of the string `o`. -/
def Mem.bytes (m : Mem) (o : Nat) : Option (List Nat) :=
  match m.objs o with
  | some x => m.slice x.content
  | none => none

/-- `SmallVec::from_slice` / a `Vec` taken over: fresh owned content holding `bs`; `spill` says
whether the bytes are on the heap although they would fit. -/
def Mem.own (m : Mem) (bs : List Nat) (spill : Bool) : Mem × Content :=
  if bs.length ≤ inlineCap ∧ spill = false then (m, .inl bs)
  else ({ m with bufs := put m.bufs m.nb (some bs), nb := m.nb + 1 }, .heap m.nb)

/-- `Value::string_from_inner` (monoruby/src/value.rs): a fresh young object. -/
def Mem.alloc (m : Mem) (c : Content) (enc : Nat) (frozen : Bool) : Mem × Nat :=
  ({ m with objs := put m.objs m.no (some ⟨c, enc, frozen, false, false⟩), no := m.no + 1 }, m.no)

/-- `Drop for RStringInner` (string.rs:775-785): owned content frees its buffer, a view frees
nothing. -/
def Mem.drop (m : Mem) : Content → Mem
  | .heap b => { m with bufs := put m.bufs b none }
  | _ => m

/-- `ensure_shared_root` (string.rs:2550-2597): the root and the place in its buffer of `p`'s first
byte: the root of a view, a frozen string itself, or a fresh frozen root which takes the buffer over
and of which `p` becomes a view; the write barrier puts `p` in the remembered set.  The callers see
to it that `p` is not stored inline (the result there is a placeholder).  That the allocation of the
root may start a collection, while `p` is empty, is left out. -/
def Mem.share (m : Mem) (p : Nat) (x : Obj) : Mem × Nat × Nat × Nat :=
  match x.content with
  | .view r b off _ => (m, r, b, off)
  | .inl _ => (m, p, 0, 0)
  | .heap b =>
    if x.frozen then (m, p, b, 0)
    else
      let a := m.alloc (.heap b) x.enc true
      let len := ((m.bufs b).getD []).length
      (a.1.set p { x with content := .view a.2 b 0 len, armed := false }, a.2, b, 0)

/-- Whether the content can be shared: `is_shared() || owned_spilled()` (string.rs:2447, 2481). -/
def Content.sharable : Content → Bool
  | .inl _ => false
  | _ => true

/-- `string_substring` (string.rs:2438-2462) of the bytes `bs` of `p`: a view when the part is
longer than what fits in an object and the bytes are on the heap, else a copy. -/
def Mem.substring (m : Mem) (p : Nat) (x : Obj) (bs : List Nat) (st len : Nat) : Mem × Nat :=
  if len > inlineCap ∧ x.content.sharable then
    let s := m.share p x
    s.1.alloc (.view s.2.1 s.2.2.1 (s.2.2.2 + st) len) x.enc false
  else
    let s := m.own ((bs.drop st).take len) false
    s.1.alloc s.2 x.enc false

/-- `set_frozen`. -/
def Mem.setFrozen (m : Mem) (o : Nat) : Mem :=
  match m.objs o with
  | some x => m.set o { x with frozen := true }
  | none => m

/-- `Clone for RStringInner` (string.rs:787-807): a view is cloned as another view, owned bytes are
copied. -/
def Mem.clone (m : Mem) (x : Obj) (bs : List Nat) : Mem × Content :=
  match x.content with
  | .view r b off len => (m, .view r b off len)
  | _ => m.own bs false

/-- `string_snapshot` (string.rs:2473-2502) of `o`, whose bytes are `bs`. -/
def Mem.snapshot (m : Mem) (o : Nat) (x : Obj) (bs : List Nat) : Mem × Nat :=
  if x.frozen then (m, o)
  else if x.content.sharable then
    let s := m.share o x
    let root := s.2.1
    match s.1.objs root with
    | some r =>
      match s.1.bufs s.2.2.1 with
      | some all =>
        if s.2.2.2 = 0 ∧ bs.length = all.length then (s.1, root)
        else
          let t := s.1.substring root r all s.2.2.2 bs.length
          (t.1.setFrozen t.2, t.2)
      | none => (s.1, root)
    | none => (s.1, root)
  else
    let c := m.clone x bs
    c.1.alloc c.2 x.enc true

/-- A mutating method which turns the bytes `bs` of `o` into `new`: `owned_mut` (string.rs:1338-1349)
detaches a view (`uniquify`, 1360-1370), then the owned vector is changed in place or moves to a
fresh buffer, freeing the old one. -/
def Mem.write (m : Mem) (o : Nat) (x : Obj) (new : List Nat) (moves : Bool) : Mem :=
  match x.content with
  | .view _ _ _ _ =>
    let c := m.own new moves
    c.1.set o { x with content := c.2 }
  | .inl _ =>
    let c := m.own new moves
    c.1.set o { x with content := c.2 }
  | .heap b =>
    if moves then
      let d := m.drop x.content
      let c := d.own new true
      c.1.set o { x with content := c.2 }
    else { m with bufs := put m.bufs b (some new) }

/-- `*self.as_rstring_inner_mut() = other.clone()` (builtins/string.rs:7336-7340 `replace`,
7364-7366 `initialize`, value.rs:2968-2972 `replace_with_inner`): the clone is stored over the old
content, which is dropped.  No write barrier. -/
def Mem.assign (m : Mem) (o : Nat) (x y : Obj) (bs : List Nat) : Mem :=
  let c := m.clone y bs
  let d := c.1.drop x.content
  d.set o { x with content := c.2, enc := y.enc }

/-- Whether the string at `o` is in the old generation. -/
def Mem.isOld (m : Mem) (o : Nat) : Bool := match m.objs o with | some x => x.old | none => false

/-- `young_child_exists` (monoruby/src/value/rvalue.rs:1124-1163) for a string. -/
def Mem.youngRoot (m : Mem) (x : Obj) : Bool :=
  match x.content.root? with
  | some r => !m.isOld r
  | none => false

/-- Whether a collection scans `x`, found at `o`: what is held is marked and scanned; a minor
collection takes the old strings for marked already and scans only the remembered ones
(alloc.rs:1300-1330, `mark_remembered`). -/
def scanned (major : Bool) (held : List Nat) (o : Nat) (x : Obj) : Bool :=
  if major then held.contains o
  else if x.old then !x.armed
  else held.contains o

/-- Whether a collection keeps the string `x` at `o`: it is held, or (in a minor collection) old, or
the root of a string that is scanned.  One level suffices, a root is never a view. -/
def Mem.keeps (m : Mem) (major : Bool) (held : List Nat) (o : Nat) (x : Obj) : Bool :=
  held.contains o || (!major && x.old) ||
    (List.range m.no).any (fun i =>
      match m.objs i with
      | some y => scanned major held i y && y.content.root? == some o
      | none => false)

/-- A collection (alloc.rs:1290-1380 `gc`; sweep drops the payload of what is not kept, rvalue.rs:936).
-/
def Mem.gc (m : Mem) (major : Bool) (held : List Nat) : Mem :=
  { m with
    objs := fun o =>
      match m.objs o with
      | some x => if m.keeps major held o x then some x else none
      | none => none
    bufs := fun b =>
      if (List.range m.no).any (fun o =>
        match m.objs o with
        | some x => x.content == .heap b && !m.keeps major held o x
        | none => false) then none else m.bufs b }

/-- What the program does.  `write` is any method that changes the bytes after the frozen check
(`ensure_string_mutable`, value.rs:786-804), `raw` is one without the check, `lit` the evaluation of
a literal (value.rs:868-877: `share_string_buffer`, then a clone), `promote` and `rearm` steps of the
collector (alloc.rs:1555-1590, 1673-1700), put at any place. -/
inductive Op where
  | new (bs : List Nat) (enc : Nat) (spill : Bool)
  | freeze (o : Nat)
  | write (o : Nat) (f : List Nat → List Nat) (moves : Bool)
  | raw (o : Nat) (f : List Nat → List Nat) (moves : Bool)
  | force (o : Nat) (enc : Nat)
  | sub (o st len : Nat)
  | snap (o : Nat)
  | dup (o : Nat)
  | lit (o : Nat)
  | replace (o src : Nat)
  | gc (major : Bool) (held : List Nat)
  | promote (o : Nat)
  | rearm (o : Nat)

/-- What the program sees: nothing, a string, FrozenError, `nil`, or freed memory. -/
inductive Res where
  | done
  | str (o : Nat)
  | frozenError
  | nil
  | dangling
deriving DecidableEq, Repr

/-- One step.  The functions above, called as the builtins call them. -/
def step (m : Mem) : Op → Mem × Res
  | .new bs enc spill =>
    let c := m.own bs spill
    let a := c.1.alloc c.2 enc false
    (a.1, .str a.2)
  | .freeze o => (m.setFrozen o, .done)
  | .write o f moves =>
    match m.objs o with
    | some x =>
      if x.frozen then (m, .frozenError)
      else
        match m.slice x.content with
        | some bs => (m.write o x (f bs) moves, .done)
        | none => (m, .dangling)
    | none => (m, .dangling)
  | .raw o f moves =>
    match m.objs o with
    | some x =>
      match m.slice x.content with
      | some bs => (m.write o x (f bs) moves, .done)
      | none => (m, .dangling)
    | none => (m, .dangling)
  | .force o enc =>
    match m.objs o with
    | some x => if x.frozen then (m, .frozenError) else (m.set o { x with enc := enc }, .done)
    | none => (m, .dangling)
  | .sub o st len =>
    match m.objs o with
    | some x =>
      match m.slice x.content with
      | some bs =>
        if st + len ≤ bs.length then
          let s := m.substring o x bs st len
          (s.1, .str s.2)
        else (m, .nil)
      | none => (m, .dangling)
    | none => (m, .dangling)
  | .snap o =>
    match m.objs o with
    | some x =>
      match m.slice x.content with
      | some bs => let s := m.snapshot o x bs; (s.1, .str s.2)
      | none => (m, .dangling)
    | none => (m, .dangling)
  | .dup o =>
    match m.objs o with
    | some x =>
      match m.slice x.content with
      | some bs =>
        let c := m.clone x bs
        let a := c.1.alloc c.2 x.enc false
        (a.1, .str a.2)
      | none => (m, .dangling)
    | none => (m, .dangling)
  | .lit o =>
    match m.objs o with
    | some x =>
      match m.slice x.content with
      | some bs =>
        let m1 := if x.content.sharable then (m.share o x).1 else m
        match m1.objs o with
        | some x1 =>
          let c := m1.clone x1 bs
          let a := c.1.alloc c.2 x1.enc false
          (a.1, .str a.2)
        | none => (m, .dangling)
      | none => (m, .dangling)
    | none => (m, .dangling)
  | .replace o src =>
    match m.objs o, m.objs src with
    | some x, some y =>
      if x.frozen then (m, .frozenError)
      else
        match m.slice y.content with
        | some bs => (m.assign o x y bs, .done)
        | none => (m, .dangling)
    | _, _ => (m, .dangling)
  | .gc major held => (m.gc major held, .done)
  | .promote o =>
    match m.objs o with
    | some x =>
      (if x.old then m else m.set o { x with old := true, armed := !m.youngRoot x }, .done)
    | none => (m, .done)
  | .rearm o =>
    match m.objs o with
    | some x => (if x.old && !m.youngRoot x then m.set o { x with armed := true } else m, .done)
    | none => (m, .done)

end Verif.Share
