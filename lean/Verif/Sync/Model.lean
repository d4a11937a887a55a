/-!
# Model of `Mutex`, `ConditionVariable`, `Queue` and `SizedQueue`
(`/repo/monoruby/builtins/thread.rb` l.404-817)

These classes are written in Ruby on top of the green-thread scheduler.  Threads share one processor;
a switch from one thread to another, or the delivery of an interrupt (`Thread#raise`, `Thread#kill`),
happens at a *poll*.  Polls are at the entry of every method or block written in Ruby
(codegen/arch/x86_64/vmgen/init_method.rs l.23-40, codegen/jitgen/compile.rs l.341-356) and at the
start of every loop iteration (vmgen.rs `vm_loop_start` l.900-906, bytecodegen/statement.rs l.169);
methods implemented in Rust have none (codegen/arch/x86_64/wrapper.rs `gen_native_func_wrapper`).
`Thread.current`, `Thread#alive?`, `Thread.stop`, `Kernel.sleep`, `Thread#__wakeup_permit`,
`Fiber.current`, `Array#<<`, `shift`, `delete`, `clear`, `empty?`, `size` are implemented in Rust.
So a thread's position (`Pc`) is a poll, or a park inside `Thread.stop`, together with what is to be done after
each call returns, and a step runs the code from one poll to the next without interference.

Simplifications.
* Threads are numbers, all of them exist from the start.
* Time is left out: a park with a time limit may end at any moment, and whether a deadline has passed
  is chosen by the environment (`Choice.expired`).
* Interrupts are counted, not described; masks (`handle_interrupt`) only delay a delivery, so whether
  a pending interrupt is delivered at a given poll is chosen by the environment (`Choice.intr`).
* Ownership is that of the thread; `@owner_fiber` (l.416, l.432) is left out.
* `@waiters` of a mutex starts as an empty array instead of `nil`; checks of arguments
  (`__check_timeout`, `__check_capacity`, a negative interval) are left out.
* Signal handlers run by the main thread at a poll and `fork` are left out.
* Arrays given to `Queue.new` are left out: a queue starts empty.
-/

namespace Verif.Sync

/-- A mutex of the program, or the `@mutex` of a queue (l.544), which the program cannot reach. -/
inductive MId
  | user (n : Nat)
  | queue (q : Nat)
deriving DecidableEq, Repr

/-- A condition variable of the program, or `@cv_pop` (l.545) or `@cv_push` (l.672) of a queue. -/
inductive CId
  | user (n : Nat)
  | pop (q : Nat)
  | push (q : Nat)
deriving DecidableEq, Repr

/-- Errors that a call can end with. -/
inductive Exc
  | interrupt
  /-- "deadlock; recursive locking" (l.443) -/
  | deadlock
  /-- "Attempt to unlock a mutex which is not locked" (l.467, l.510) -/
  | notLocked
  /-- "Attempt to unlock a mutex which is locked by another thread" (l.473) -/
  | notOwner
  /-- ClosedQueueError (l.568, l.713) -/
  | closed
  /-- "queue empty" (l.610) -/
  | empty
  /-- "queue full" (l.719) -/
  | full
deriving DecidableEq, Repr

/-- The outcome of a call: a value (`none` is `nil`), the receiver, or an error. -/
inductive Res
  | ok (v : Option Nat)
  | self
  | bool (b : Bool)
  | exc (e : Exc)
deriving DecidableEq, Repr

/-- `@owner` and `@waiters` of a mutex. -/
structure Mx where
  owner : Option Nat := none
  waiters : List Nat := []
deriving Repr

/-- `@items`, `@closed` and `@max` of a queue; `max = none` for a plain `Queue`. -/
structure Qu where
  items : List Nat := []
  closed : Bool := false
  max : Option Nat := none
deriving Repr

/-- A method of a queue with its arguments: `nb` is `non_block`, `timed` says that a timeout is
given. -/
inductive QOp
  | pop (nb timed : Bool)
  | push (v : Nat) (nb timed : Bool)
  | clear
  | close
  | setMax (n : Nat)
deriving DecidableEq, Repr

/-- A call made by the program. -/
inductive Call
  | lock (m : Nat)
  | tryLock (m : Nat)
  | unlock (m : Nat)
  | sleep (m : Nat) (timed : Bool)
  | wait (c m : Nat) (timed : Bool)
  | signal (c : Nat)
  | broadcast (c : Nat)
  | queue (q : Nat) (op : QOp)
  /-- `Thread.stop` or `Kernel#sleep` -/
  | nap (timed : Bool)
deriving DecidableEq, Repr

/-- What a queue method still does after the change, before it leaves the mutex. -/
inductive Post
  | signal (c : CId)
  | broadcast (c : CId)
deriving DecidableEq, Repr

/-- Who called `ConditionVariable#wait`. -/
inductive WaitK
  | user
  | queue (q : Nat) (op : QOp)
deriving DecidableEq, Repr

/-- Who called `Mutex#sleep`. -/
inductive SleepK
  | user
  | wait (c : CId) (k : WaitK)
deriving DecidableEq, Repr

/-- Who called `Mutex#lock`: the program, the `ensure` of `Mutex#sleep` (l.522, with the error that
ended the park, if any), or `Mutex#synchronize` in a queue method. -/
inductive LockK
  | user
  | resleep (e : Option Exc) (k : SleepK)
  | queue (q : Nat) (op : QOp)
deriving DecidableEq, Repr

/-- Who called `Mutex#unlock`: the program, `Mutex#sleep` (l.512), or the `ensure` of
`Mutex#synchronize` (l.498) in a queue method whose outcome is `r`. -/
inductive UnlockK
  | user
  | sleep (timed : Bool) (k : SleepK)
  | queue (q : Nat) (op : QOp) (r : Res)
deriving DecidableEq, Repr

/-- Who called `broadcast`: the program, or a queue method that then does `todo` and ends with `r`. -/
inductive CastK
  | user
  | queue (q : Nat) (op : QOp) (todo : List Post) (r : Res)
deriving DecidableEq, Repr

/-- Who called `signal`. -/
inductive SigK
  | direct (k : CastK)
  | bcast (c : CId) (k : CastK)
deriving DecidableEq, Repr

/-- Where in `Mutex#lock`: at its entry, at the start of the `until` loop (l.444), at the entry of
`try_lock` (l.419), inside `Thread.stop` (l.457). -/
inductive LockAt
  | entry
  | loop
  | tryLock
  | stop
deriving DecidableEq, Repr

/-- Where in `Mutex#sleep`: at its entry, at the entry of `owned?` (l.510), inside the park (l.514),
at the entry of the block of `__uninterruptible` (l.522; with the error that ended the park). -/
inductive SleepAt
  | entry
  | owned
  | stop
  | relock (e : Option Exc)
deriving DecidableEq, Repr

/-- Where in a queue method: at its entry, at the entry of `synchronize`, at the entry of the block,
at the start of the `while true` loop, at the entry of `__pop_locked`. -/
inductive QAt
  | entry
  | sync
  | body
  | loop
  | take
deriving DecidableEq, Repr

/-- The position of a thread. -/
inductive Pc
  | user
  | nap
  | tryLock (m : MId)
  | lock (m : MId) (at_ : LockAt) (k : LockK)
  /-- at the entry of `unlock`, or (`loop`) at the start of its `while` loop (l.478) -/
  | unlock (m : MId) (loop : Bool) (k : UnlockK)
  | sleep (m : MId) (timed : Bool) (at_ : SleepAt) (k : SleepK)
  | wait (c : CId) (m : MId) (timed : Bool) (k : WaitK)
  /-- at the entry of `signal`, or at the start of its `while` loop (l.794) -/
  | signal (c : CId) (loop : Bool) (k : SigK)
  /-- at the entry of `broadcast`, or at the start of its `until` loop (l.806) -/
  | bcast (c : CId) (loop : Bool) (k : CastK)
  | queue (q : Nat) (op : QOp) (at_ : QAt)
deriving DecidableEq, Repr

/-- `ThreadState`, as far as it matters here; `parked` is `Sleeping`, with or without a time limit. -/
inductive Status
  | run
  | parked (timed : Bool)
  | dead
deriving DecidableEq, Repr

/-- `ThreadInner` (value/rvalue/thread.rs l.40-100): `park_permit`, the number of pending interrupts,
and the depth of `__uninterruptible`.  `call` is the call of the program that is being executed. -/
structure Th where
  status : Status := .run
  permit : Bool := false
  pending : Nat := 0
  unint : Nat := 0
  pc : Pc := .user
  call : Option Call := none
deriving Repr

/-- What happens, in order.  `got` and `gave`: a mutex is acquired and released.  `ins`, `took`,
`cleared`, `closed`, `resized`: the changes of a queue (`took q none` when there was nothing).  `ended`: a
thread terminates.  `ret`: a call of the program returns or raises. -/
inductive Ev
  | got (t : Nat) (m : MId)
  | gave (t : Nat) (m : MId)
  | ended (t : Nat)
  | ins (t q v : Nat)
  | took (t q : Nat) (v : Option Nat)
  | cleared (q : Nat)
  | closed (q : Nat)
  | resized (q n : Nat)
  | ret (t : Nat) (c : Call) (r : Res)
deriving DecidableEq, Repr

structure World where
  th : Nat → Th
  mx : MId → Mx
  cv : CId → List Nat
  qu : Nat → Qu
  log : List Ev

/-- Nothing has happened; the queues in `caps` are sized queues. -/
def init (caps : Nat → Option Nat) : World :=
  { th := fun _ => {}, mx := fun _ => {}, cv := fun _ => [],
    qu := fun q => { max := caps q }, log := [] }

/-- What the environment decides in a step: deliver a pending interrupt at this poll; deliver one at
the park (or at the end of `__uninterruptible`) in this step; the deadline has passed. -/
structure Choice where
  intr : Bool := false
  atPark : Bool := false
  expired : Bool := false
deriving Repr

def World.setTh (w : World) (t : Nat) (f : Th → Th) : World :=
  { w with th := fun k => if k = t then f (w.th k) else w.th k }

def World.setPc (w : World) (t : Nat) (pc : Pc) : World := w.setTh t fun x => { x with pc := pc }

def World.setMx (w : World) (m : MId) (f : Mx → Mx) : World :=
  { w with mx := fun k => if k = m then f (w.mx k) else w.mx k }

def World.setCv (w : World) (c : CId) (l : List Nat) : World :=
  { w with cv := fun k => if k = c then l else w.cv k }

def World.setQu (w : World) (q : Nat) (f : Qu → Qu) : World :=
  { w with qu := fun k => if k = q then f (w.qu k) else w.qu k }

def World.ev (w : World) (e : Ev) : World := { w with log := w.log ++ [e] }

/-- `Thread#alive?` (builtins/thread.rs `thread_alive`). -/
def World.alive (w : World) (t : Nat) : Bool := (w.th t).status != .dead

/-- `wakeup_permit` (scheduler.rs l.431-458). -/
def World.wake (w : World) (t : Nat) : World :=
  match (w.th t).status with
  | .dead => w
  | .parked _ => w.setTh t fun x => { x with status := .run }
  | .run => w.setTh t fun x => { x with permit := true }

/-- A call of the program ends. -/
def World.retUser (w : World) (t : Nat) (r : Res) : World :=
  match (w.th t).call with
  | some c => (w.ev (.ret t c r)).setTh t fun x => { x with pc := .user, call := none }
  | none => w.setTh t fun x => { x with pc := .user }

/-- The block of `synchronize` in a queue method ends with `r`: the `ensure` calls `unlock` (l.498). -/
def World.leave (w : World) (t q : Nat) (op : QOp) (r : Res) : World :=
  w.setPc t (.unlock (.queue q) false (.queue q op r))

/-- What remains of a queue method inside the mutex. -/
def World.post (w : World) (t q : Nat) (op : QOp) (r : Res) : List Post → World
  | [] => w.leave t q op r
  | .signal c :: k => w.setPc t (.signal c false (.direct (.queue q op k r)))
  | .broadcast c :: k => w.setPc t (.bcast c false (.queue q op k r))

/-- `ConditionVariable#wait` returns or raises: its `ensure` removes the thread from `@waiters`
(l.782); a queue method goes round its loop (l.606, l.712) or leaves the mutex. -/
def World.retWait (w : World) (t : Nat) (c : CId) (r : Res) (k : WaitK) : World :=
  let w := w.setCv c ((w.cv c).filter (· ≠ t))
  match k with
  | .user => match r with
    | .exc e => w.retUser t (.exc e)
    | _ => w.retUser t .self
  | .queue q op => match r with
    | .exc e => w.leave t q op (.exc e)
    | _ => w.setPc t (.queue q op .loop)

/-- `Mutex#sleep` returns or raises. -/
def World.retSleep (w : World) (t : Nat) (r : Res) (k : SleepK) : World :=
  match k with
  | .user => w.retUser t r
  | .wait c k => w.retWait t c r k

/-- The outcome of `Mutex#sleep` when its park ended with `e`; the number of seconds (l.524) is left
out. -/
def resOf : Option Exc → Res
  | some e => .exc e
  | none => .ok none

/-- Deliver a pending interrupt: is one deliverable (scheduler.rs l.702-747)? -/
def World.canIntr (w : World) (t : Nat) : Bool :=
  decide (0 < (w.th t).pending) && decide ((w.th t).unint = 0)

/-- Take one interrupt off the queue (scheduler.rs l.761-769). -/
def World.takeIntr (w : World) (t : Nat) : World :=
  w.setTh t fun x => { x with pending := x.pending - 1 }

/-- `Mutex#lock` returns or raises.  After the `lock` in the `ensure` of `Mutex#sleep`,
`__uninterruptible` ends: a pending interrupt is delivered and takes precedence (builtins/thread.rs
l.162-167). -/
def World.retLock (w : World) (t : Nat) (d : Choice) (r : Res) (k : LockK) : World :=
  match k with
  | .user => w.retUser t r
  | .queue q op => match r with
    | .exc e => w.retUser t (.exc e)
    | _ => w.setPc t (.queue q op .body)
  | .resleep e k =>
    let w := w.setTh t fun x => { x with unint := x.unint - 1 }
    if d.atPark && w.canIntr t then (w.takeIntr t).retSleep t (.exc .interrupt) k
    else match r with
      | .exc e' => w.retSleep t (.exc e') k
      | _ => w.retSleep t (resOf e) k

/-- The park of `Mutex#lock` (l.456-460) ends: the `ensure` removes the thread from `@waiters`. -/
def World.wokeLock (w : World) (t : Nat) (m : MId) (d : Choice) (e : Option Exc) (k : LockK) :
    World :=
  let w := w.setMx m fun x => { x with waiters := x.waiters.filter (· ≠ t) }
  match e with
  | some e => w.retLock t d (.exc e) k
  | none => w.setPc t (.lock m .loop k)

/-- The park of `Mutex#sleep` (l.513-523) ends: the `ensure` enters `__uninterruptible`. -/
def World.wokeSleep (w : World) (t : Nat) (m : MId) (timed : Bool) (e : Option Exc) (k : SleepK) :
    World :=
  w.setTh t fun x => { x with unint := x.unint + 1, pc := .sleep m timed (.relock e) k }

/-- `scheduler::sleep` called at the end of a step (scheduler.rs l.462-512), for `Mutex#lock`. -/
def World.parkLock (w : World) (t : Nat) (m : MId) (d : Choice) (k : LockK) : World :=
  if d.atPark && w.canIntr t then (w.takeIntr t).wokeLock t m d (some .interrupt) k
  else if (w.th t).permit then
    (w.setTh t fun x => { x with permit := false }).wokeLock t m d none k
  else w.setTh t fun x => { x with status := .parked false, pc := .lock m .stop k }

/-- The same for `Mutex#sleep`. -/
def World.parkSleep (w : World) (t : Nat) (m : MId) (timed : Bool) (d : Choice) (k : SleepK) : World :=
  if d.atPark && w.canIntr t then (w.takeIntr t).wokeSleep t m timed (some .interrupt) k
  else if (w.th t).permit then
    (w.setTh t fun x => { x with permit := false }).wokeSleep t m timed none k
  else w.setTh t fun x => { x with status := .parked timed, pc := .sleep m timed .stop k }

/-- The same for a call by the program. -/
def World.parkNap (w : World) (t : Nat) (timed : Bool) (d : Choice) : World :=
  if d.atPark && w.canIntr t then (w.takeIntr t).retUser t (.exc .interrupt)
  else if (w.th t).permit then (w.setTh t fun x => { x with permit := false }).retUser t (.ok none)
  else w.setTh t fun x => { x with status := .parked timed, pc := .nap }

/-- `Mutex#unlock` returns or raises: `Mutex#sleep` parks, a queue method is over. -/
def World.retUnlock (w : World) (t : Nat) (m : MId) (d : Choice) (r : Res) (k : UnlockK) : World :=
  match k with
  | .user => w.retUser t r
  | .sleep timed k => match r with
    | .exc e => w.retSleep t (.exc e) k
    | _ => w.parkSleep t m timed d k
  | .queue _ _ r' => match r with
    | .exc e => w.retUser t (.exc e)
    | _ => w.retUser t r'

/-- `broadcast` returns or raises. -/
def World.retCast (w : World) (t : Nat) (r : Res) (k : CastK) : World :=
  match k with
  | .user => w.retUser t r
  | .queue q op todo r' => match r with
    | .exc e => w.leave t q op (.exc e)
    | _ => w.post t q op r' todo

/-- `signal` returns or raises. -/
def World.retSignal (w : World) (t : Nat) (r : Res) (k : SigK) : World :=
  match k with
  | .direct k => w.retCast t r k
  | .bcast c k => match r with
    | .exc e => w.retCast t (.exc e) k
    | _ => w.setPc t (.bcast c true k)

/-! ## The steps -/

/-- The body of `try_lock` (l.426-434). -/
def World.tryOwn (w : World) (t : Nat) (m : MId) : Option World :=
  match (w.mx m).owner with
  | some _ => none
  | none => some ((w.setMx m fun x => { x with owner := some t }).ev (.got t m))

/-- `try_lock` in the loop of `lock`, and the rest of the iteration up to the park (l.444-461). -/
def World.stepTry (w : World) (t : Nat) (m : MId) (d : Choice) (k : LockK) : World :=
  match w.tryOwn t m with
  | some w' => w'.retLock t d .self k
  | none => match (w.mx m).owner with
    | some o =>
      if w.alive o then
        (w.setMx m fun x => { x with waiters := x.waiters ++ [t] }).parkLock t m d k
      else (w.setMx m fun x => { x with owner := none }).setPc t (.lock m .loop k)
    | none => w

/-- `Mutex#lock` (l.437-463). -/
def World.stepLock (w : World) (t : Nat) (m : MId) (at_ : LockAt) (d : Choice) (k : LockK) : World :=
  match at_ with
  | .entry =>
    if (w.mx m).owner = some t then w.retLock t d (.exc .deadlock) k
    else w.setPc t (.lock m .loop k)
  | .loop => w.setPc t (.lock m .tryLock k)
  | .tryLock => w.stepTry t m d k
  | .stop => w.wokeLock t m d none k

/-- `Mutex#unlock` (l.465-490). -/
def World.stepUnlock (w : World) (t : Nat) (m : MId) (loop : Bool) (d : Choice) (k : UnlockK) :
    World :=
  if loop then
    match (w.mx m).waiters with
    | [] => w.retUnlock t m d .self k
    | x :: xs =>
      let w' := w.setMx m fun y => { y with waiters := xs }
      if w.alive x then (w'.wake x).retUnlock t m d .self k
      else w'.setPc t (.unlock m true k)
  else match (w.mx m).owner with
    | none => w.retUnlock t m d (.exc .notLocked) k
    | some o =>
      if o = t then
        ((w.setMx m fun x => { x with owner := none }).ev (.gave t m)).setPc t (.unlock m true k)
      else w.retUnlock t m d (.exc .notOwner) k

/-- `Mutex#sleep` (l.506-525). -/
def World.stepSleep (w : World) (t : Nat) (m : MId) (timed : Bool) (at_ : SleepAt) (k : SleepK) :
    World :=
  match at_ with
  | .entry => w.setPc t (.sleep m timed .owned k)
  | .owned =>
    if (w.mx m).owner = some t then w.setPc t (.unlock m false (.sleep timed k))
    else w.retSleep t (.exc .notLocked) k
  | .stop => w.wokeSleep t m timed none k
  | .relock e => w.setPc t (.lock m .entry (.resleep e k))

/-- `ConditionVariable#signal` (l.793-803). -/
def World.stepSignal (w : World) (t : Nat) (c : CId) (loop : Bool) (k : SigK) : World :=
  if loop then
    match w.cv c with
    | [] => w.retSignal t .self k
    | x :: xs =>
      let w' := w.setCv c xs
      if w.alive x then (w'.wake x).retSignal t .self k
      else w'.setPc t (.signal c true k)
  else w.setPc t (.signal c true k)

/-- `ConditionVariable#broadcast` (l.805-810). -/
def World.stepCast (w : World) (t : Nat) (c : CId) (loop : Bool) (k : CastK) : World :=
  if loop then
    match w.cv c with
    | [] => w.retCast t .self k
    | _ :: _ => w.setPc t (.signal c false (.bcast c k))
  else w.setPc t (.bcast c true k)

/-- `@items.push(item); @cv_pop.signal` (l.569-570, l.715-716). -/
def World.insert (w : World) (t q : Nat) (op : QOp) (v : Nat) : World :=
  ((w.setQu q fun x => { x with items := x.items ++ [v] }).ev (.ins t q v)).post t q op .self
    [.signal (.pop q)]

/-- The body of `SizedQueue#clear` (l.734-738) or `Queue#clear` (l.635). -/
def World.doClear (w : World) (t q : Nat) : World :=
  ((w.setQu q fun x => { x with items := [] }).ev (.cleared q)).post t q .clear .self
    (if (w.qu q).max = none then [] else [.broadcast (.push q)])

/-- The body of `Queue#close` (l.643-645) or `SizedQueue#close` (l.744-747). -/
def World.doClose (w : World) (t q : Nat) : World :=
  if (w.qu q).closed then w.leave t q .close .self
  else ((w.setQu q fun x => { x with closed := true }).ev (.closed q)).post t q .close .self
    (.broadcast (.pop q) :: if (w.qu q).max = none then [] else [.broadcast (.push q)])

/-- The body of `SizedQueue#max=` (l.700-703).  A plain queue has no such method: nothing is done. -/
def World.doSetMax (w : World) (t q n : Nat) : World :=
  match (w.qu q).max with
  | none => w.leave t q (.setMax n) .self
  | some old =>
    ((w.setQu q fun x => { x with max := some n }).ev (.resized q n)).post t q (.setMax n)
      .self (if old < n then [.broadcast (.push q)] else [])

/-- One round of the loop of `pop` (l.606-619). -/
def World.popLoop (w : World) (t q : Nat) (nb timed : Bool) (d : Choice) : World :=
  if (w.qu q).items ≠ [] then w.setPc t (.queue q (.pop nb timed) .take)
  else if nb then w.leave t q (.pop nb timed) (.exc .empty)
  else if (w.qu q).closed then w.leave t q (.pop nb timed) (.ok none)
  else if timed && d.expired then w.leave t q (.pop nb timed) (.ok none)
  else w.setPc t (.wait (.pop q) (.queue q) timed (.queue q (.pop nb timed)))

/-- There is room: `@items.size < @max` (l.714). -/
def Qu.room (x : Qu) : Bool :=
  match x.max with
  | some n => decide (x.items.length < n)
  | none => true

/-- One round of the loop of `SizedQueue#push` (l.712-727). -/
def World.pushLoop (w : World) (t q v : Nat) (nb timed : Bool) (d : Choice) : World :=
  if (w.qu q).closed then w.leave t q (.push v nb timed) (.exc .closed)
  else if (w.qu q).room then w.insert t q (.push v nb timed) v
  else if nb then w.leave t q (.push v nb timed) (.exc .full)
  else if timed && d.expired then w.leave t q (.push v nb timed) (.ok none)
  else w.setPc t (.wait (.push q) (.queue q) timed (.queue q (.push v nb timed)))

/-- The block of `synchronize` in each method: `Queue#push` (l.567-571) has no loop. -/
def World.stepBody (w : World) (t q : Nat) (op : QOp) : World :=
  match op with
  | .pop _ _ => w.setPc t (.queue q op .loop)
  | .push v _ _ =>
    match (w.qu q).max with
    | some _ => w.setPc t (.queue q op .loop)
    | none => if (w.qu q).closed then w.leave t q op (.exc .closed) else w.insert t q op v
  | .clear => w.doClear t q
  | .close => w.doClose t q
  | .setMax n => w.doSetMax t q n

/-- `__pop_locked` (l.662-664; with `@cv_push.signal` for a sized queue, l.758-763). -/
def World.stepTake (w : World) (t q : Nat) (op : QOp) : World :=
  ((w.setQu q fun x => { x with items := x.items.tail }).ev (.took t q (w.qu q).items.head?)).post
    t q op (.ok (w.qu q).items.head?)
    (if (w.qu q).max = none then [] else [.signal (.push q)])

/-- The methods of queues (l.566-763). -/
def World.stepQueue (w : World) (t q : Nat) (op : QOp) (at_ : QAt) (d : Choice) : World :=
  match at_ with
  | .entry => w.setPc t (.queue q op .sync)
  | .sync => w.setPc t (.lock (.queue q) .entry (.queue q op))
  | .body => w.stepBody t q op
  | .loop => match op with
    | .pop nb timed => w.popLoop t q nb timed d
    | .push v nb timed => w.pushLoop t q v nb timed d
    | _ => w
  | .take => w.stepTake t q op

/-- An interrupt is delivered at the poll or the park where the thread is: the method there is left
with the error, through the `ensure` clauses around it. -/
def World.raiseAt (w : World) (t : Nat) (d : Choice) : World :=
  match (w.th t).pc with
  | .user => w
  | .nap => w.retUser t (.exc .interrupt)
  | .tryLock _ => w.retUser t (.exc .interrupt)
  | .lock m .stop k => w.wokeLock t m d (some .interrupt) k
  | .lock _ _ k => w.retLock t d (.exc .interrupt) k
  | .unlock m _ k => w.retUnlock t m d (.exc .interrupt) k
  | .sleep m timed .stop k => w.wokeSleep t m timed (some .interrupt) k
  | .sleep _ _ _ k => w.retSleep t (.exc .interrupt) k
  | .wait _ _ _ .user => w.retUser t (.exc .interrupt)
  | .wait _ _ _ (.queue q op) => w.leave t q op (.exc .interrupt)
  | .signal _ _ k => w.retSignal t (.exc .interrupt) k
  | .bcast _ _ k => w.retCast t (.exc .interrupt) k
  | .queue _ _ .entry => w.retUser t (.exc .interrupt)
  | .queue _ _ .sync => w.retUser t (.exc .interrupt)
  | .queue q op _ => w.leave t q op (.exc .interrupt)

/-- A running thread goes on from its position to the next poll or park. -/
def World.go (w : World) (t : Nat) (d : Choice) : World :=
  match (w.th t).pc with
  | .user => w
  | .nap => w.retUser t (.ok none)
  | .tryLock m => match w.tryOwn t m with
    | some w' => w'.retUser t (.bool true)
    | none => w.retUser t (.bool false)
  | .lock m at_ k => w.stepLock t m at_ d k
  | .unlock m loop k => w.stepUnlock t m loop d k
  | .sleep m timed at_ k => w.stepSleep t m timed at_ k
  -- `@waiters << Thread.current` (l.775)
  | .wait c m timed k =>
    (w.setCv c (w.cv c ++ [t])).setPc t (.sleep m timed .entry (.wait c k))
  | .signal c loop k => w.stepSignal t c loop k
  | .bcast c loop k => w.stepCast t c loop k
  | .queue q op at_ => w.stepQueue t q op at_ d

/-- The first position of a call. -/
def Call.start : Call → Pc
  | .lock m => .lock (.user m) .entry .user
  | .tryLock m => .tryLock (.user m)
  | .unlock m => .unlock (.user m) false .user
  | .sleep m timed => .sleep (.user m) timed .entry .user
  | .wait c m timed => .wait (.user c) (.user m) timed .user
  | .signal c => .signal (.user c) false (.direct .user)
  | .broadcast c => .bcast (.user c) false .user
  | .queue q op => .queue q op .entry
  | .nap _ => .nap

/-- What can happen: a thread makes a call, goes on, or ends; a parked thread is woken by
`Thread#wakeup` or by its time limit; an interrupt is sent (scheduler.rs l.887-936: a parked thread is
woken unless it is uninterruptible). -/
inductive Act
  | call (t : Nat) (c : Call) (d : Choice)
  | step (t : Nat) (d : Choice)
  | exit (t : Nat)
  | wakeup (t : Nat)
  | timeout (t : Nat)
  | send (t : Nat)
deriving Repr

/-- The thread is at a poll, or has been woken from its park, and has the processor. -/
def World.active (w : World) (t : Nat) : Bool :=
  (w.th t).status == .run && (w.th t).pc != .user

/-- The thread runs code of the program. -/
def World.free (w : World) (t : Nat) : Bool :=
  (w.th t).status == .run && (w.th t).pc == .user

/-- One step; `none` when the action is not possible. -/
def World.step (w : World) : Act → Option World
  | .call t c d =>
    if w.free t then
      let w := w.setTh t fun x => { x with call := some c }
      match c with
      | .nap timed => some (w.parkNap t timed d)
      | _ => some (w.setPc t c.start)
    else none
  | .step t d =>
    if w.active t then
      if d.intr && w.canIntr t then some ((w.takeIntr t).raiseAt t d) else some (w.go t d)
    else none
  | .exit t =>
    if w.free t then some ((w.setTh t fun x => { x with status := .dead }).ev (.ended t)) else none
  | .wakeup t =>
    match (w.th t).status with
    | .parked _ => some (w.setTh t fun x => { x with status := .run })
    | _ => none
  | .timeout t =>
    match (w.th t).status with
    | .parked true => some (w.setTh t fun x => { x with status := .run })
    | _ => none
  | .send t =>
    match (w.th t).status with
    | .dead => none
    | .parked _ =>
      if (w.th t).unint = 0 then
        some (w.setTh t fun x => { x with status := .run, pending := x.pending + 1 })
      else some (w.setTh t fun x => { x with pending := x.pending + 1 })
    | .run => some (w.setTh t fun x => { x with pending := x.pending + 1 })

def World.run (w : World) : List Act → Option World
  | [] => some w
  | a :: as => match w.step a with
    | some w' => w'.run as
    | none => none

end Verif.Sync
