/-!
# Model of the green-thread scheduler (`/repo/monoruby/src/scheduler.rs`)

Threads are numbers, `0` is the main thread.  Main's OS stack also hosts the scheduler loop: a parked
main thread runs `scheduler_loop`, a main thread in `Thread.pass` runs a bounded version of it, and
both call `dispatch`, which runs one green thread until it parks or ends.  The state records what
main's stack is doing (`Host`) and which thread runs; an action is a call of a scheduler entry point by
the running thread, one iteration of the loop, or the passing of time.

Simplifications.  Time is a number; a `sleep` or timeout gives an absolute deadline.  Which
descriptors a poll reports is chosen by the environment.  A signal handler that runs inside the loop
is not modelled, except that it may raise (`loopErr`).  `terminate_all` (process exit, l.520-566),
reports of uncaught exceptions (l.1513-1628) and values of threads are left out.  The registry
`threads` (l.74) is left out; it is only listed.
-/

namespace Verif.Sched

/-- `ThreadState` (value/rvalue/thread.rs, `enum ThreadState`). -/
inductive TS
  | created
  | runnable
  | sleeping
  | joining
  | ioWaiting
  | dead
deriving DecidableEq, Repr

/-- The three parked states, as matched in scheduler.rs l.548-551, l.923-926, l.1142-1145. -/
def TS.parked : TS → Bool
  | .sleeping | .joining | .ioWaiting => true
  | _ => false

/-- `InterruptTiming` (value/rvalue/thread.rs). -/
inductive Timing
  | immediate
  | onBlocking
  | never
deriving DecidableEq, Repr

/-- `PendingInterrupt` (value/rvalue/thread.rs).  A raise carries the class of the exception followed
by its superclasses, which is what `interrupt_timing` walks (scheduler.rs l.721-728). -/
inductive Intr
  | kill
  | raise (classes : List Nat)
deriving DecidableEq, Repr

/-- Where a thread's own stack is: in user code, or inside one of the blocking entry points. -/
inductive PC
  | user
  | sleep (deadline : Option Nat)
  | join (target : Nat) (deadline : Option Nat)
  | io (deadline : Option Nat)
  | pass
deriving DecidableEq, Repr

/-- `ThreadInner` (value/rvalue/thread.rs), the fields the scheduler uses.  `masks` has the innermost
frame first.  `queued` numbers the interrupts ever queued on this thread; `pending` carries these
numbers and `got` lists the ones delivered, in order (both history).  `roused` is history too: a
wakeup or an interrupt has hit the current sleep.  `abort` is `abort_on_exception`. -/
structure Thread where
  state : TS
  permit : Bool := false
  joiners : List Nat := []
  resume : Bool := false
  pending : List (Nat × Intr) := []
  masks : List (List (Nat × Timing)) := []
  unint : Nat := 0
  blocking : Bool := false
  pc : PC := .user
  queued : Nat := 0
  got : List Nat := []
  roused : Bool := false
  abort : Bool := false
deriving Repr

/-- What main's OS stack is doing: main's own code, the scheduler loop (about to start an iteration,
or a green thread called from it), the idle wait of the loop, or `pass` with this many threads still
to dispatch. -/
inductive Host
  | main
  | loop
  | idle
  | pass (k : Nat)
deriving DecidableEq, Repr

/-- `Scheduler` (scheduler.rs l.70-115) and the threads it refers to.  `current = 0` together with
`host ≠ main` means that the scheduler's own code runs.  `n` is the number of threads ever created.
`crashed` is set by the `unwrap` in `dispatch` (l.1325). -/
structure St where
  n : Nat
  thr : Nat → Thread
  ready : List Nat
  sleepers : List (Option Nat × Nat)
  io : List (Nat × Nat)
  current : Nat
  host : Host
  now : Nat
  crashed : Bool

/-- Only the main thread (`ensure_main`, l.380-396). -/
def init : St :=
  { n := 1, thr := fun t => { state := if t = 0 then .runnable else .dead }, ready := [],
    sleepers := [], io := [], current := 0, host := .main, now := 0, crashed := false }

/-- Change one thread. -/
def St.mod (s : St) (t : Nat) (f : Thread → Thread) : St :=
  { s with thr := fun k => if k = t then f (s.thr k) else s.thr k }

/-- `state = Runnable`, and `ready.push_back` unless main (l.441-446, l.923-932, l.1161-1166,
l.1210-1216, l.1495-1501). -/
def St.wake (s : St) (t : Nat) : St :=
  { s.mod t (fun x => { x with state := .runnable }) with
    ready := if t = 0 then s.ready else s.ready ++ [t] }

/-! ## Interrupts -/

/-- The timing a mask frame gives to an exception (l.716-731): the first entry, in the order of the
frame, whose class is the exception's class or one of its superclasses. -/
def frameTiming (classes : List Nat) : List (Nat × Timing) → Option Timing
  | [] => none
  | (c, tm) :: rest => if c ∈ classes then some tm else frameTiming classes rest

/-- The timing the stack of frames gives (l.715-732). -/
def maskTiming (classes : List Nat) : List (List (Nat × Timing)) → Timing
  | [] => .immediate
  | f :: fs => match frameTiming classes f with
    | some tm => tm
    | none => maskTiming classes fs

/-- `interrupt_timing` (l.702-732). -/
def intrTiming (x : Thread) (i : Intr) : Timing :=
  if 0 < x.unint then .never
  else match i with
    | .kill => .immediate
    | .raise classes => maskTiming classes x.masks

/-- The test of `deliverable_index` (l.742-746). -/
def deliverable (x : Thread) (atBlocking : Bool) (i : Intr) : Bool :=
  match intrTiming x i with
  | .immediate => true
  | .onBlocking => atBlocking
  | .never => false

/-- Split the queue at the first deliverable interrupt (`deliverable_index`, l.737-747, followed by
`pending.remove`, l.763 and l.1333). -/
def takeFirst (p : Intr → Bool) : List (Nat × Intr) → Option (Nat × List (Nat × Intr))
  | [] => none
  | (id, i) :: rest =>
    if p i then some (id, rest)
    else match takeFirst p rest with
      | some (d, rest') => some (d, (id, i) :: rest')
      | none => none

/-- Deliver the first deliverable interrupt, if any; the flag says whether there was one
(`deliver_pending_now`, l.777-796, and the same in `dispatch`, l.1326-1350).  The thread's code then
sees the error, that is, it leaves the blocking entry point. -/
def deliver (x : Thread) (atBlocking : Bool) : Thread × Bool :=
  match takeFirst (deliverable x atBlocking) x.pending with
  | some (id, rest) => ({ x with pending := rest, got := x.got ++ [id], pc := .user }, true)
  | none => (x, false)

/-- `pending.push_back` (l.903, l.914, l.1664). -/
def push (x : Thread) (i : Intr) : Thread :=
  { x with pending := x.pending ++ [(x.queued, i)], queued := x.queued + 1 }

/-- `wake_worthy` (l.752-758). -/
def wakeWorthy (x : Thread) : Bool := x.pending.any fun p => intrTiming x p.2 ≠ .never

/-! ## Waking -/

/-- The deadline has passed (l.1149). -/
def isDue (now : Nat) : Option Nat → Bool
  | some d => d ≤ now
  | none => false

/-- The entries `wake_due_sleepers` takes out as due, by thread (l.1138-1155). -/
def dueOf (s : St) : List Nat :=
  (s.sleepers.filter fun e => (s.thr e.2).state.parked && isDue s.now e.1).map (·.2)

/-- `wake_due_sleepers` (l.1133-1168): entries of threads that are not parked are dropped, due
entries are taken out, and then every due entry's thread is made runnable and queued. -/
def wakeDue (s : St) : St :=
  let s' := { s with sleepers := s.sleepers.filter fun e =>
    (s.thr e.2).state.parked && !isDue s.now e.1 }
  (dueOf s).foldl St.wake s'

/-- One poll entry (l.1207-1217): woken when its descriptor is reported and its thread still waits. -/
def pollOne (fds : List Nat) (s : St) (e : Nat × Nat) : St :=
  if e.1 ∈ fds ∧ (s.thr e.2).state = .ioWaiting then s.wake e.2 else s

/-- `prune_io_waiters` and `poll_io_waiters` (l.1124-1131, l.1171-1221) with the descriptors `fds`
ready. -/
def poll (s : St) (fds : List Nat) : St :=
  let s' := { s with io := s.io.filter fun e => (s.thr e.2).state == TS.ioWaiting }
  s'.io.foldl (pollOne fds) s'

/-- One joiner of a thread that ends (l.1493-1502). -/
def joinerOne (s : St) (j : Nat) : St :=
  if (s.thr j).state = .joining then s.wake j else s

/-- `finalize_common` (l.1466-1511): the pending interrupts are dropped, the thread is dead, its
joiners are woken; `fwd` is the exception forwarded to main, if any (l.1634-1677). -/
def finalize (s : St) (t : Nat) (fwd : Option Intr) : St :=
  let js := (s.thr t).joiners
  let s := s.mod t fun x => { x with pending := [], state := .dead, joiners := [] }
  let s := js.foldl joinerOne s
  match fwd with
  | none => s
  | some i =>
    if t = 0 then s
    else
      let s := s.mod 0 fun x => push x i
      if (s.thr 0).state.parked then s.mod 0 fun x => { x with state := .runnable, roused := true }
      else s

/-! ## Switching -/

/-- `unregister_io_waiter` (l.1012-1016). -/
def unregister (s : St) (t : Nat) : St := { s with io := s.io.filter fun e => e.2 ≠ t }

/-- What a thread does when its park returns without an error: `sleep` and `pass` go back to user
code, `wait_fds` unregisters first (l.1006-1008), `join` goes round its loop (l.663). -/
def afterPark (s : St) (t : Nat) : St :=
  match (s.thr t).pc with
  | .join _ _ => s
  | .io _ => (unregister s t).mod t fun x => { x with pc := .user }
  | _ => s.mod t fun x => { x with pc := .user }

/-- The same when it returns with an error. -/
def afterErr (s : St) (t : Nat) (pc : PC) : St :=
  match pc with
  | .io _ => unregister s t
  | _ => s

/-- `dispatch` (l.1271-1415) up to the switch to the thread.  A created thread with a pending
interrupt dies without running; otherwise it runs.  Any other thread is resumed, with the first
interrupt that its masks allow. -/
def dispatch (s : St) (t : Nat) : St :=
  if (s.thr t).state = .created then
    match (s.thr t).pending with
    | (id, i) :: _ =>
      finalize (s.mod t fun x => { x with got := x.got ++ [id] }) t
        (if i ≠ .kill ∧ (s.thr t).abort then some i else none)
    | [] => { s.mod t (fun x => { x with state := .runnable }) with current := t }
  else if (s.thr t).resume = false then { s with crashed := true }
  else
    let pc := (s.thr t).pc
    let s := { s.mod t (fun x => { x with state := .runnable, resume := false }) with current := t }
    match deliver (s.thr t) (s.thr t).blocking with
    | (x, true) => afterErr (s.mod t fun _ => x) t pc
    | (_, false) => afterPark s t

/-- Give up the processor: main enters the scheduler loop, a green thread switches to the scheduler
(`park_switch`, l.1020-1035). -/
def switch (s : St) (c : Nat) : St :=
  if c = 0 then { s with host := .loop }
  else { s.mod c (fun x => { x with resume := true }) with current := 0 }

/-- Main's park is over: `scheduler_run` returned `Ok` and `take_main_pending` runs (l.1061-1077,
l.494-497, l.676-677, l.989-992). -/
def mainBack (s : St) (atBlocking : Bool) : St :=
  let pc := (s.thr 0).pc
  let s := { s with host := .main, current := 0 }
  match deliver (s.thr 0) atBlocking with
  | (x, true) => afterErr (s.mod 0 fun _ => x) 0 pc
  | (_, false) => afterPark s 0

/-! ## Entry points -/

/-- The thread whose Ruby code runs. -/
def running (s : St) : Option Nat :=
  if s.host = .main then some 0 else if s.current = 0 then none else some s.current

/-- `spawn` (l.406-414). -/
def spawn (s : St) (abort : Bool) : St :=
  { s with n := s.n + 1, ready := s.ready ++ [s.n],
           thr := fun k => if k = s.n then { state := .created, abort := abort } else s.thr k }

/-- `wakeup_inner` (l.435-458). -/
def wakeup (s : St) (t : Nat) (permit : Bool) : St :=
  match (s.thr t).state with
  | .sleeping => (s.mod t fun x => { x with roused := true }).wake t
  | .runnable => if permit then s.mod t fun x => { x with permit := true } else s
  | _ => s

/-- `sleep` (l.462-512). -/
def sleep (s : St) (c : Nat) (deadline : Option Nat) : St :=
  match deliver (s.thr c) true with
  | (x, true) => s.mod c fun _ => x
  | (_, false) =>
    let s := s.mod c fun x => { x with blocking := true }
    if (s.thr c).permit then s.mod c fun x => { x with permit := false }
    else
      let s := s.mod c fun x =>
        { x with state := .sleeping, pc := .sleep deadline, roused := false }
      switch { s with sleepers := s.sleepers ++ [(deadline, c)] } c

/-- `pass` (l.569-638). -/
def pass (s : St) (c : Nat) (fds : List Nat) : St :=
  match deliver (s.thr c) false with
  | (x, true) => s.mod c fun _ => x
  | (_, false) =>
    let s := s.mod c fun x => { x with blocking := false }
    if c = 0 then
      let s := poll (wakeDue s) fds
      { s with host := .pass s.ready.length }
    else
      switch (({ s with ready := s.ready ++ [c] } : St).mod c fun x => { x with pc := .pass }) c

/-- The entry of `join` (l.642-660): a thread may not join itself. -/
def joinEnter (s : St) (c t : Nat) (deadline : Option Nat) : St :=
  if t = c then s else s.mod c fun x => { x with pc := .join t deadline }

/-- One round of the loop of `join` (l.661-699). -/
def joinLoop (s : St) (c t : Nat) (deadline : Option Nat) : St :=
  match deliver (s.thr c) true with
  | (x, true) => s.mod c fun _ => x
  | (_, false) =>
    let s := s.mod c fun x => { x with blocking := true }
    if (s.thr t).state = .dead then s.mod c fun x => { x with pc := .user }
    else if isDue s.now deadline then s.mod c fun x => { x with pc := .user }
    else
      let s := s.mod c fun x => { x with state := .joining }
      let s := s.mod t fun x => { x with joiners := x.joiners ++ [c] }
      switch { s with sleepers :=
        if deadline.isSome then s.sleepers ++ [(deadline, c)] else s.sleepers } c

/-- `wait_fds` (l.966-1010). -/
def waitFds (s : St) (c : Nat) (fds : List Nat) (deadline : Option Nat) : St :=
  match deliver (s.thr c) true with
  | (x, true) => s.mod c fun _ => x
  | (_, false) =>
    let s := s.mod c fun x =>
      { x with blocking := true, state := .ioWaiting, pc := .io deadline }
    switch { s with
      io := s.io ++ fds.map (fun fd => (fd, c))
      sleepers := if deadline.isSome then s.sleepers ++ [(deadline, c)] else s.sleepers } c

/-- `interrupt` (l.887-936). -/
def interrupt (s : St) (c t : Nat) (i : Intr) : St :=
  if t = c then
    let s := s.mod c fun x => push x i
    s.mod c fun x => (deliver x false).1
  else if (s.thr t).state = .dead then s
  else
    let s := s.mod t fun x => push x i
    if wakeWorthy (s.thr t) && (s.thr t).state.parked then
      (s.mod t fun x => { x with roused := true }).wake t
    else s

/-- `fork_child_reset_threads` (l.343-355), in the child. -/
def forkChild (s : St) (c : Nat) : St :=
  { s with thr := fun k => if k = c then s.thr k else { s.thr k with state := .dead } }

/-- One iteration of `scheduler_loop` (l.1079-1122) up to the switch to a thread, with the
descriptors `fds` ready at the zero-timeout poll. -/
def loopIter (s : St) (fds : List Nat) : St :=
  let s := poll (wakeDue s) fds
  if (s.thr 0).state = .runnable then mainBack s true
  else match s.ready with
    | t :: rest => dispatch { s with ready := rest } t
    | [] => { s with host := .idle }

/-- The steps of the running thread in user code. -/
inductive Call
  | spawn (abort : Bool)
  | wakeup (t : Nat) (permit : Bool)
  | sleep (deadline : Option Nat)
  | pass (fds : List Nat)
  | join (t : Nat) (deadline : Option Nat)
  | waitFds (fds : List Nat) (deadline : Option Nat)
  | interrupt (t : Nat) (i : Intr)
  | pushMask (m : List (Nat × Timing))
  | popMask
  | setUnint (on : Bool)
  /-- a delivery point of `handle_interrupt` or `__uninterruptible` (builtins/thread.rs l.126, l.135,
  l.165) -/
  | checkpoint (atBlocking : Bool)
  /-- the body of a green thread ends, its exception being forwarded to main or not -/
  | exit (fwd : Option Intr)
  | fork
deriving Repr

/-- A step of the process. -/
inductive Act
  | call (k : Call)
  /-- the running thread goes round the loop of `join` -/
  | joinLoop
  | loopIter (fds : List Nat)
  /-- the idle poll or sleep of the loop returns (l.1107-1112) -/
  | idle (fds : List Nat)
  /-- the loop returns an error to main: a handler raised, or no thread can run (l.1113-1117) -/
  | loopErr
  /-- the next thread of main's `pass`, or its end (l.606-633) -/
  | passNext
  | tick (d : Nat)
deriving Repr

/-- A call by thread `c`. -/
def doCall (s : St) (c : Nat) : Call → Option St
  | .spawn ab => some (spawn s ab)
  | .wakeup t p => if t < s.n then some (wakeup s t p) else none
  | .sleep dl => some (sleep s c dl)
  | .pass fds => some (pass s c fds)
  | .join t dl => if t < s.n then some (joinEnter s c t dl) else none
  | .waitFds fds dl => some (waitFds s c fds dl)
  | .interrupt t i => if t < s.n then some (interrupt s c t i) else none
  -- l.874-877
  | .pushMask m => some (s.mod c fun x => { x with masks := m :: x.masks })
  -- l.879-882
  | .popMask => some (s.mod c fun x => { x with masks := x.masks.tail })
  -- l.864-871
  | .setUnint on =>
    some (s.mod c fun x => { x with unint := if on then x.unint + 1 else x.unint - 1 })
  | .checkpoint b => some (s.mod c fun x => (deliver x b).1)
  -- l.1405-1414; `current` is reset after `finalize`, which does not read it
  | .exit fwd => if c = 0 then none else some (finalize { s with current := 0 } c fwd)
  | .fork => some (forkChild s c)

/-- One step; `none` when the action is not possible. -/
def step (s : St) (a : Act) : Option St :=
  if s.crashed then none
  else match a with
  | .tick d => some { s with now := s.now + d }
  | .call k => match running s with
    | some c => match (s.thr c).pc with
      | .user => doCall s c k
      | _ => none
    | none => none
  | .joinLoop => match running s with
    | some c => match (s.thr c).pc with
      | .join t dl => some (joinLoop s c t dl)
      | _ => none
    | none => none
  | .loopIter fds =>
    if s.host = .loop ∧ s.current = 0 then some (loopIter s fds) else none
  | .idle fds => if s.host = .idle then some { poll s fds with host := .loop } else none
  | .loopErr =>
    if (s.host = .loop ∨ s.host = .idle) ∧ s.current = 0 then
      some (afterErr ({ s with host := .main }.mod 0 fun x => { x with pc := .user }) 0
        (s.thr 0).pc)
    else none
  | .passNext => match s.host with
    | .pass k =>
      if s.current = 0 then match k, s.ready with
        | k + 1, t :: rest => some (dispatch { s with ready := rest, host := .pass k } t)
        | _, _ => some (mainBack s false)
      else none
    | _ => none

/-- A schedule. -/
def run (s : St) : List Act → Option St
  | [] => some s
  | a :: as => match step s a with
    | some s' => run s' as
    | none => none

/-- States some schedule leads to. -/
def Reachable (s : St) : Prop := ∃ as, run init as = some s

end Verif.Sched
