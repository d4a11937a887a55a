import Mathlib.Logic.Function.Basic

/-!
# The heap and the generational collector: `monoruby/src/alloc.rs`, `value/rvalue.rs`

A cell is addressed by page number and index in the page.  Statistics, timing, logging and
the choice between a minor and a major collection (`decide_gc_kind`, alloc.rs:1223-1237)
are left out: the kind is an input.  Machine code that allocates or stores is not modelled.
-/

namespace Verif.Gc

/-- Cells per page and words per bitmap, alloc.rs:311-314 -/
def WORDS : Nat := 63
def DATA_LEN : Nat := 64 * WORDS
/-- alloc.rs:345 -/
def MAX_PAGES : Nat := 8192
/-- alloc.rs:411 -/
def MARK_RECURSION_LIMIT : Nat := 32
/-- alloc.rs:419 -/
def RGENGC_OLD_AGE : Nat := 3

/-- page number, index in the page -/
abbrev Addr := Nat × Nat

/-- A live object (`RValue`): the heap references that `mark_children` visits
(value/rvalue.rs:1003-1057; `young_child_exists`, l.1125-1167, visits the same ones for every
promotable kind), the rest of its contents, whether `is_promotable` (l.1077-1105) holds for
its kind, and the header fields age, OLD and WB_ARMED (l.2746-2830). -/
structure Obj where
  kids : List Addr
  data : Nat
  promotable : Bool
  age : Nat
  old : Bool
  armed : Bool
deriving DecidableEq, Repr

/-- The header of a cell is either object metadata or the link of the free list. -/
inductive Cell where
  | free (next : Option Addr)
  | obj (o : Obj)
deriving DecidableEq, Repr

/-- `Allocator`, alloc.rs:530-690, together with the pages it owns and the root set.
The bitmaps are functions of the address; `word` gives their 64-bit words. -/
structure Heap where
  cells : Addr → Cell
  mark : Addr → Bool
  oldb : Addr → Bool
  pages : List Nat
  current : Nat
  head : Nat
  used : Nat
  free : Option Addr
  freeCount : Nat
  freePages : List Nat
  remembered : List Addr
  aging : List Addr
  queue : List Addr
  roots : List Addr

/-- `Allocator::new`, alloc.rs:784-848.  The arena is uninitialised; only the old bits of the
first page are cleared.  (A cell of uninitialised memory is read by nothing and is
represented by `free none`.) -/
def Heap.new (markGarbage oldGarbage : Addr → Bool) : Heap where
  cells _ := .free none
  mark := markGarbage
  oldb a := if a.1 = 0 then false else oldGarbage a
  pages := []
  current := 0
  head := 0
  used := 0
  free := none
  freeCount := 0
  freePages := []
  remembered := []
  aging := []
  queue := []
  roots := []

/-- `new_page`, alloc.rs:851-856: no bound is checked -/
def Heap.newPage (h : Heap) : Nat := h.head + 1

/-- `alloc`, alloc.rs:1145-1203.  `none` is an arithmetic overflow or the assertion of
`next`. -/
def Heap.alloc (h : Heap) (o : Obj) : Option (Heap × Addr) :=
  match h.free with
  | some a =>
    match h.cells a with
    | .obj _ => none
    | .free next =>
      if h.freeCount = 0 then none
      else some ({ h with free := next, cells := Function.update h.cells a (.obj o)
                          freeCount := h.freeCount - 1 }, a)
  | none =>
    if h.used = DATA_LEN then
      match h.freePages with
      | p :: ps =>
        some ({ h with used := 1, pages := h.pages ++ [h.current], current := p, freePages := ps
                       oldb := fun a => if a.1 = p then false else h.oldb a
                       cells := Function.update h.cells (p, 0) (.obj o) }, (p, 0))
      | [] =>
        let p := h.newPage
        some ({ h with used := 1, pages := h.pages ++ [h.current], current := p, head := p
                       oldb := fun a => if a.1 = p then false else h.oldb a
                       cells := Function.update h.cells (p, 0) (.obj o) }, (p, 0))
    else
      some ({ h with used := h.used + 1
                     cells := Function.update h.cells (h.current, h.used) (.obj o) },
            (h.current, h.used))

/-! ## Write barrier -/

/-- `enter_remembered_set`, value/rvalue.rs:1272-1276 -/
def Heap.enterRemembered (h : Heap) (a : Addr) (o : Obj) : Heap :=
  { h with cells := Function.update h.cells a (.obj { o with armed := false })
           remembered := h.remembered ++ [a] }

/-- `write_barrier`, value/rvalue.rs:1296-1300; `child = none` is an immediate value -/
def Heap.writeBarrier (h : Heap) (a : Addr) (child : Option Addr) : Heap :=
  match h.cells a with
  | .obj o => if o.armed && child.isSome then h.enterRemembered a o else h
  | .free _ => h

/-- `write_barrier_bulk`, value/rvalue.rs:1309-1313 -/
def Heap.writeBarrierBulk (h : Heap) (a : Addr) : Heap :=
  match h.cells a with
  | .obj o => if o.armed then h.enterRemembered a o else h
  | .free _ => h

/-- The store itself: the object's references and data change. -/
def Heap.write (h : Heap) (a : Addr) (kids : List Addr) (data : Nat) : Heap :=
  match h.cells a with
  | .obj o => { h with cells := Function.update h.cells a (.obj { o with kids := kids, data := data }) }
  | .free _ => h

/-! ## Marking -/

/-- a loop that marks several objects -/
def foldO (f : Heap → Addr → Option Heap) : Heap → List Addr → Option Heap
  | h, [] => some h
  | h, a :: as =>
    match f h a with
    | some h' => foldO f h' as
    | none => none

/-- `gc_check_and_mark`, alloc.rs:1435-1479: set the mark bit and note an aging candidate -/
def Heap.setMark (major : Bool) (h : Heap) (a : Addr) (o : Obj) : Heap :=
  { h with mark := Function.update h.mark a true
           aging := if o.promotable && !(major && h.oldb a) then h.aging ++ [a] else h.aging }

/-- `RValue::mark` (value/rvalue.rs:880-916) with `scan_children` (alloc.rs:1496-1511).  The
first argument is `MARK_RECURSION_LIMIT - mark_depth`.  Reaching a dead cell aborts. -/
def markObj (major : Bool) : Nat → Heap → Addr → Option Heap
  | n, h, a =>
    match h.cells a with
    | .free _ => none
    | .obj o =>
      if h.mark a then some h
      else
        let h1 := h.setMark major a o
        match n with
        | 0 => some { h1 with queue := h1.queue ++ [a] }
        | n + 1 => foldO (markObj major n) h1 o.kids

/-- `mark_children` of a cell at depth 0 -/
def scan (major : Bool) (h : Heap) (a : Addr) : Option Heap :=
  match h.cells a with
  | .free _ => none
  | .obj o => foldO (markObj major MARK_RECURSION_LIMIT) h o.kids

/-- `drain_mark_queue`, alloc.rs:1520-1537.  The loop runs until the queue is empty; `fuel`
bounds the number of its rounds and running out of it is an error. -/
def drain (major : Bool) : Nat → Heap → Option Heap
  | fuel, h =>
    match h.queue with
    | [] => some h
    | a :: q =>
      match fuel with
      | 0 => none
      | fuel + 1 =>
        match scan major { h with queue := q } a with
        | some h' => drain major fuel h'
        | none => none

/-- The cells in service, in address order of the sweep: those of full pages and the used
part of the current page. -/
def Heap.inService (h : Heap) : List Addr :=
  h.pages.flatMap (fun p => (List.range DATA_LEN).map (fun i => (p, i))) ++
    (List.range h.used).map (fun i => (h.current, i))

/-- enough rounds: see `drain_ok` -/
def Heap.fuel (h : Heap) : Nat := h.queue.length + h.inService.length

/-- `young_child_exists`, value/rvalue.rs:1125-1167, and `Allocator::is_old` -/
def Heap.youngChild (h : Heap) (o : Obj) : Bool := o.kids.any (fun k => !h.oldb k)

/-- `arm_barrier`, value/rvalue.rs:2802-2804 -/
def Heap.arm (h : Heap) (a : Addr) : Heap :=
  match h.cells a with
  | .obj o => { h with cells := Function.update h.cells a (.obj { o with armed := true }) }
  | .free _ => h

/-- `mark_remembered`, alloc.rs:1711-1739: the loop, with the list of kept entries -/
def markRemLoop : Heap → List Addr → List Addr → Option (Heap × List Addr)
  | h, kept, [] => some (h, kept)
  | h, kept, r :: rs =>
    match scan false h r with
    | none => none
    | some h' =>
      match h'.cells r with
      | .free _ => none
      | .obj o =>
        if h'.youngChild o then markRemLoop h' (kept ++ [r]) rs
        else markRemLoop (h'.arm r) kept rs

/-- `mark_remembered` -/
def markRemembered (h : Heap) : Option Heap :=
  match markRemLoop { h with remembered := [] } [] h.remembered with
  | some (h', kept) => some { h' with remembered := kept }
  | none => none

/-! ## Aging -/

/-- `apply_aging`, first pass, alloc.rs:1561-1574, with `age_and_check_promote`,
value/rvalue.rs:1111-1115 (the age saturates at 255) -/
def agePass : Heap → List Addr → List Addr → Option (Heap × List Addr)
  | h, promoted, [] => some (h, promoted)
  | h, promoted, p :: ps =>
    match h.cells p with
    | .free _ => none
    | .obj o =>
      let age := min 255 (o.age + 1)
      if RGENGC_OLD_AGE ≤ age then
        agePass { h with cells := Function.update h.cells p (.obj { o with age := age, old := true })
                         oldb := Function.update h.oldb p true } (promoted ++ [p]) ps
      else
        agePass { h with cells := Function.update h.cells p (.obj { o with age := age }) } promoted ps

/-- `apply_aging`, second pass, alloc.rs:1580-1588 -/
def rememberPass : Heap → List Addr → Option Heap
  | h, [] => some h
  | h, p :: ps =>
    match h.cells p with
    | .free _ => none
    | .obj o =>
      if h.youngChild o then rememberPass (h.enterRemembered p o) ps
      else rememberPass (h.arm p) ps

/-- `apply_aging`, alloc.rs:1554-1589 -/
def applyAging (h : Heap) : Option Heap :=
  match agePass { h with aging := [] } [] h.aging with
  | some (h', promoted) => rememberPass h' promoted
  | none => none

/-- `filter_remembered`, alloc.rs:1746-1755 -/
def filterRemembered (h : Heap) : Heap :=
  { h with remembered := h.remembered.filter h.mark }

/-- `reclassify_remembered`, alloc.rs:1673-1690 -/
def reclassLoop : Heap → List Addr → List Addr → Option (Heap × List Addr)
  | h, kept, [] => some (h, kept)
  | h, kept, r :: rs =>
    match h.cells r with
    | .free _ => none
    | .obj o =>
      if h.youngChild o then reclassLoop h (kept ++ [r]) rs
      else reclassLoop (h.arm r) kept rs

/-- `reclassify_remembered` -/
def reclassify (h : Heap) : Option Heap :=
  match reclassLoop { h with remembered := [] } [] h.remembered with
  | some (h', kept) => some { h' with remembered := kept }
  | none => none

/-! ## Sweeping -/

/-- `all_dead`, alloc.rs:2100-2102 -/
def Heap.allDead (h : Heap) (p : Nat) : Bool :=
  (List.range DATA_LEN).all (fun i => !h.mark (p, i))

/-- one iteration of `salvage_empty_pages`, alloc.rs:1774-1797, with `drop_inner_cells`,
l.2040-2046 -/
def salvageAt (h : Heap) (i : Nat) : Heap :=
  match h.pages[i]? with
  | none => h
  | some p =>
    if h.allDead p then
      { h with pages := h.pages.eraseIdx i
               oldb := fun a => if a.1 = p then false else h.oldb a
               cells := fun a => if a.1 = p then
                   (match h.cells a with
                    | .obj _ => .free none
                    | c => c)
                 else h.cells a
               freePages := h.freePages ++ [p] }
    else h

/-- `salvage_empty_pages`: from the last page to the first; `n` pages are left -/
def salvage : Nat → Heap → Heap
  | 0, h => h
  | n + 1, h => salvage n (salvageAt h n)

/-- A word of a bitmap. -/
def word (f : Addr → Bool) (p w : Nat) : BitVec 64 :=
  (BitVec.ofBoolListLE ((List.range 64).map (fun i => f (p, 64 * w + i)))).setWidth 64

/-- `u64::trailing_ones` -/
def trailingOnes : Nat → BitVec 64 → Nat
  | 0, _ => 0
  | n + 1, m => if m.getLsbD 0 then trailingOnes n (m >>> 1) + 1 else 0

/-- The state of the sweep: `anchor` is the anchor's link, `tail` the last linked cell. -/
structure Sweep where
  cells : Addr → Cell
  anchor : Option Addr
  tail : Option Addr
  count : Nat

/-- linking one dead cell, alloc.rs:1815-1821 with `free`, value/rvalue.rs:925-966 -/
def Sweep.link (s : Sweep) (a : Addr) : Sweep :=
  match s.tail with
  | none => { cells := Function.update s.cells a (.free none), anchor := some a
              tail := some a, count := s.count + 1 }
  | some t => { cells := Function.update (Function.update s.cells t (.free (some a))) a (.free none)
                anchor := s.anchor, tail := some a, count := s.count + 1 }

/-- the loop of `sweep_bits`, alloc.rs:1813-1828: `n` iterations from index `ptr` -/
def sweepLoop (p : Nat) : Nat → BitVec 64 → Sweep → Nat → Sweep × Nat
  | 0, _, s, ptr => (s, ptr)
  | n + 1, m, s, ptr =>
    sweepLoop p n (m >>> 1) (if m.getLsbD 0 then s else s.link (p, ptr)) (ptr + 1)

/-- `sweep_bits`, alloc.rs:1802-1831 -/
def sweepBits (p : Nat) (bit : Nat) (map : BitVec 64) (s : Sweep) (ptr : Nat) : Sweep × Nat :=
  let min := trailingOnes 64 map
  sweepLoop p (bit - min) (if min < 64 then map >>> min else 0#64) s (ptr + min)

/-- words `w ..` of a page, `n` of them -/
def sweepWords (mark : Addr → Bool) (p : Nat) : Nat → Nat → Sweep → Nat → Sweep × Nat
  | 0, _, s, ptr => (s, ptr)
  | n + 1, w, s, ptr =>
    let r := sweepBits p 64 (word mark p w) s ptr
    sweepWords mark p n (w + 1) r.1 r.2

/-- `sweep`, alloc.rs:1801-1909.  The removal of old bits of dead cells
(`retire_dead_old`) is written as one update over the words that the loops visit. -/
def sweep (h : Heap) : Option Heap :=
  let s0 : Sweep := ⟨h.cells, none, none, 0⟩
  let s1 := h.pages.foldl (fun s p => (sweepWords h.mark p WORDS 0 s 0).1) s0
  if DATA_LEN < h.used then none
  else
    let i := h.used / 64
    let bit := h.used % 64
    let r := sweepWords h.mark h.current i 0 s1 0
    let s2 := if i < WORDS then (sweepBits h.current bit (word h.mark h.current i) r.1 r.2).1 else r.1
    some { h with
      cells := s2.cells
      oldb := fun a =>
        if (a.1 ∈ h.pages ∧ a.2 < DATA_LEN) ∨
            (a.1 = h.current ∧ a.2 < 64 * (if i < WORDS then i + 1 else i))
        then h.oldb a && h.mark a else h.oldb a
      free := s2.anchor
      freeCount := s2.count }

/-! ## The collection -/

/-- `clear_mark` (alloc.rs:1645-1653) or `seed_marks` (l.1696-1704) -/
def prepare (major : Bool) (h : Heap) : Heap :=
  { h with mark := fun a =>
      if (a.1 = h.current ∨ a.1 ∈ h.pages) ∧ a.2 < DATA_LEN then
        (if major then false else h.oldb a)
      else h.mark a }

/-- marking, alloc.rs:1320-1339 -/
def markPhase (major : Bool) (h : Heap) : Option Heap :=
  match foldO (markObj major MARK_RECURSION_LIMIT) (prepare major h) h.roots with
  | none => none
  | some h1 =>
    match drain major h1.fuel h1 with
    | none => none
    | some h2 =>
      if major then some h2
      else
        match markRemembered h2 with
        | none => none
        | some h3 => drain major h3.fuel h3

/-- from the aging pass to the sweep, alloc.rs:1340-1373 -/
def finish (major : Bool) (h : Heap) : Option Heap :=
  match applyAging h with
  | none => none
  | some h1 =>
    match (if major then reclassify (filterRemembered h1) else some (filterRemembered h1)) with
    | none => none
    | some h2 => sweep (salvage h2.pages.length h2)

/-- `gc`, alloc.rs:1239-1420, with collection enabled -/
def Heap.gc (major : Bool) (h : Heap) : Option Heap :=
  match markPhase major h with
  | none => none
  | some h1 => finish major h1

/-! ## What the program does -/

/-- A step of the program or a collection. -/
inductive Op where
  /-- allocate an object and hold it -/
  | alloc (kids : List Addr) (data : Nat) (promotable : Bool)
  /-- the values the program holds: stack, globals, constants ... -/
  | setRoots (rs : List Addr)
  /-- store one value (`none`: an immediate) into an object, with the barrier -/
  | store (a : Addr) (kids : List Addr) (data : Nat) (child : Option Addr)
  /-- store several values, with the bulk barrier -/
  | bulk (a : Addr) (kids : List Addr) (data : Nat)
  /-- store into an object of a kind that has no barriers -/
  | raw (a : Addr) (kids : List Addr) (data : Nat)
  | gc (major : Bool)

/-- One step; a new object has a fresh header (`Header::new`, `newborn`,
value/rvalue.rs:2692-2705). -/
def Heap.exec (h : Heap) : Op → Option Heap
  | .alloc kids data promotable =>
    (h.alloc ⟨kids, data, promotable, 0, false, false⟩).map
      (fun r => { r.1 with roots := r.2 :: r.1.roots })
  | .setRoots rs => some { h with roots := rs }
  | .store a kids data child => some ((h.write a kids data).writeBarrier a child)
  | .bulk a kids data => some ((h.write a kids data).writeBarrierBulk a)
  | .raw a kids data => some (h.write a kids data)
  | .gc major => h.gc major

/-- A history. -/
def Heap.run : Heap → List Op → Option Heap
  | h, [] => some h
  | h, op :: ops =>
    match h.exec op with
    | some h' => h'.run ops
    | none => none

end Verif.Gc
