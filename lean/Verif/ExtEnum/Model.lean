/-!
# Enumerator as an external iterator: next, peek, rewind, feed

/repo/monoruby/src/value/rvalue/enumerator.rs and the entry points of
/repo/monoruby/src/builtins/enumerator.rs.

Simplifications for the whole file: the producer (the iterated method with the block that suspends its
fiber) is a machine that, resumed with the value of its pending yield, yields values, returns or raises, and
that starts again in the same state; the `rewind` method of the source is not called; the enumerator is
initialized; its methods are not called from within its own producer.
-/

namespace Verif.ExtEnum

variable {V E Q : Type}

/-- What happens when the producer is resumed. -/
inductive Out (V E Q : Type) where
  | yields (vs : List V) (s : Q)
  | returns (v : V)
  | raises (e : E)

/-- The producer: its state before the first activation, and what it does when resumed. -/
structure Prod (V E Q : Type) where
  start : Q
  go : Q → V → Out V E Q

inductive Fib (Q : Type) where
  | created
  | suspended (s : Q)
  | terminated

abbrev Loc := Nat

/-- `EnumeratorInner`, enumerator.rs:7-49, with the Arrays that were handed out (`heap`, by location) and, for
the statements only, the values that the pending yields have returned (`log`). -/
structure S (V Q : Type) where
  internal : Option (Fib Q) := none
  buffer : Option Loc := none
  feed : Option V := none
  stop : Option V := none
  heap : List (List V) := []
  log : List V := []

inductive Err (V E : Type) where
  /-- StopIteration, with `result` -/
  | stop (result : Option V)
  | raised (e : E)
  /-- TypeError: feed value already set -/
  | type

/-- What a method returned: one value, or an Array (the one at this location). -/
inductive Res (V : Type) where
  | nil
  | val (v : V)
  | arr (l : Loc)
  | self

/-- `Enumerator::rewind`.  enumerator.rs:178-183 -/
def start (s : S V Q) : S V Q := { s with internal := some .created, buffer := none, stop := none }

/-- `rewind_external`.  enumerator.rs:189-192 -/
def rewind (s : S V Q) : S V Q := { start s with feed := none }

/-- `set_feed`.  enumerator.rs:195-201 -/
def setFeed (s : S V Q) (v : V) : S V Q × Except (Err V E) (Res V) :=
  match s.feed with
  | some _ => (s, .error .type)
  | none => ({ s with feed := some v }, .ok .nil)

/-- The producer is resumed with `v` (`enum_yield_values`), and what `yield_next_values` makes of it.
enumerator.rs:281-306, fiber.rs:377-396 -/
def produce (p : Prod V E Q) (q : Q) (v : V) (s : S V Q) : S V Q × Except (Err V E) Loc :=
  match p.go q v with
  | .yields vs q' =>
    ({ s with internal := some (.suspended q'), heap := s.heap ++ [vs] }, .ok s.heap.length)
  | .returns r => ({ s with internal := some .terminated, stop := some r }, .error (.stop (some r)))
  | .raises e => ({ s with internal := none, buffer := none }, .error (.raised e))

/-- `yield_next_values`; `nil` is what a yield returns if nothing was fed.  enumerator.rs:258-307 -/
def yieldNext (p : Prod V E Q) (nil : V) (s : S V Q) : S V Q × Except (Err V E) Loc :=
  match s.stop with
  | some r => (s, .error (.stop (some r)))
  | none =>
    let s := match s.internal with
      | none => start s
      | some _ => s
    match s.internal with
    | some (.suspended q) =>
      let v := s.feed.getD nil
      produce p q v { s with feed := none, log := s.log ++ [v] }
    | some .created => produce p p.start nil s
    | _ => ({ s with internal := none, buffer := none }, .error (.stop none))

/-- `peel`: no value is nil, one value is itself, more are the Array.  array.rs:22-30 -/
def peel (s : S V Q) (l : Loc) : Res V :=
  match s.heap[l]? with
  | some [] => .nil
  | some [v] => .val v
  | _ => .arr l

/-- `next_values`.  enumerator.rs:245-251 -/
def nextValues (p : Prod V E Q) (nil : V) (s : S V Q) : S V Q × Except (Err V E) Loc :=
  match s.buffer with
  | some l => ({ s with buffer := none }, .ok l)
  | none => yieldNext p nil s

/-- `peek_values`.  enumerator.rs:224-232 -/
def peekValues (p : Prod V E Q) (nil : V) (s : S V Q) : S V Q × Except (Err V E) Loc :=
  match s.buffer with
  | some l => (s, .ok l)
  | none => match yieldNext p nil s with
    | (s, .ok l) => ({ s with buffer := some l }, .ok l)
    | (s, .error e) => (s, .error e)

def peeled (r : S V Q × Except (Err V E) Loc) : S V Q × Except (Err V E) (Res V) :=
  match r with
  | (s, .ok l) => (s, .ok (peel s l))
  | (s, .error e) => (s, .error e)

def whole (r : S V Q × Except (Err V E) Loc) : S V Q × Except (Err V E) (Res V) :=
  match r with
  | (s, .ok l) => (s, .ok (.arr l))
  | (s, .error e) => (s, .error e)

inductive Op (V : Type) where
  | next
  | nextValues
  | peek
  | peekValues
  | rewind
  | feed (v : V)
  /-- the program replaces the contents of the Array it was given at this place -/
  | change (l : Loc) (vs : List V)

/-- builtins/enumerator.rs:216-238, 468-535 -/
def step (p : Prod V E Q) (nil : V) (s : S V Q) : Op V → S V Q × Except (Err V E) (Res V)
  | .next => peeled (ExtEnum.nextValues p nil s)
  | .nextValues => whole (ExtEnum.nextValues p nil s)
  | .peek => peeled (ExtEnum.peekValues p nil s)
  | .peekValues => whole (ExtEnum.peekValues p nil s)
  | .rewind => (ExtEnum.rewind s, .ok .self)
  | .feed v => setFeed s v
  | .change l vs => ({ s with heap := s.heap.set l vs }, .ok .nil)

/-- What the program sees of a result: the value, or the elements of the Array at that moment. -/
inductive Seen (V E : Type) where
  | nil
  | val (v : V)
  | arr (vs : List V)
  | self
  | stop (result : Option V)
  | raised (e : E)
  | type
  deriving DecidableEq

def see (s : S V Q) : Except (Err V E) (Res V) → Seen V E
  | .ok .nil => .nil
  | .ok (.val v) => .val v
  | .ok (.arr l) => .arr (s.heap[l]?.getD [])
  | .ok .self => .self
  | .error (.stop r) => .stop r
  | .error (.raised e) => .raised e
  | .error .type => .type

def run (p : Prod V E Q) (nil : V) : S V Q → List (Op V) → S V Q × List (Seen V E)
  | s, [] => (s, [])
  | s, o :: os =>
    let r := step p nil s o
    let rs := run p nil r.1 os
    (rs.1, see r.1 r.2 :: rs.2)

end Verif.ExtEnum
