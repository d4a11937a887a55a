/-!
# Model of the native worker pool (`/repo/monoruby/src/native_pool.rs`)

A green thread hands a blocking call (`flock`, `open`, a foreign function) to an OS thread and
parks on a pipe.  The model is an interleaving transition system: an action is one critical
section, or one access to a shared object, of one worker or one waiter.

Not modelled: the capacity of the pipe (`write` is taken to succeed, l.128-131), poisoned locks,
memory order below the granularity of a critical section, the call itself (`run_op`, l.150-179,
is the nondeterministic result of `finish`).  The accesses to the `RESULTS` map (l.58-61) are
single operations each, so its lock is folded into them; the `ORPHANS` lock (l.65-68) spans two
operations on both sides and is modelled as a lock.
-/

namespace Verif.NativePool

/-- `Completion` (native_pool.rs l.51-54): what the call returned, and the error number. -/
structure Comp where
  ret : Int
  errno : Int
deriving DecidableEq, Repr

/-- `NativeOp` (native_pool.rs l.34-49), up to the one difference that matters here: an `open`
returns a descriptor that someone has to close. -/
inductive Op
  | open
  | other
deriving DecidableEq, Repr

/-- Where the worker of a job is (the closure of `submit`, native_pool.rs l.113-132). -/
inductive Worker
  /-- in `run_op`, l.114 -/
  | running
  /-- l.115, before `orphans().lock()` -/
  | finished (c : Comp)
  /-- l.117, lock held -/
  | holding (c : Comp)
  /-- l.122, lock held, `orphans.remove` was false -/
  | inserting (c : Comp)
  /-- l.123, lock still held, result stored -/
  | inserted
  /-- l.120, lock still held, result dropped -/
  | dropped
  /-- l.128, lock released -/
  | toWrite
  /-- the OS thread has ended -/
  | done
deriving DecidableEq, Repr

/-- Where the green thread that submitted the job is (`run_blocking`, native_pool.rs l.186-202,
and `discard`, l.143-148). -/
inductive Waiter
  /-- at l.193 -/
  | checking
  /-- l.196, in `wait_fd`, not parked yet -/
  | toPark
  /-- parked on the pipe -/
  | parked
  /-- made runnable by the poller -/
  | woken
  /-- l.194, returned its result -/
  | got (c : Comp)
  /-- l.197, `wait_fd` gave an error -/
  | discarding
  /-- l.144, `ORPHANS` lock held -/
  | dholding
  /-- l.146, lock held, `results.remove` was `None` -/
  | dmark
  /-- l.148, lock still held -/
  | dleaving
  /-- l.198, returned the error -/
  | gone
deriving DecidableEq, Repr

/-- What can happen to the result of a job (history, not part of the code's state). -/
inductive Ev
  /-- the call ended with this result -/
  | fin (c : Comp)
  /-- the waiter returned this result to its caller -/
  | took (c : Comp)
  /-- this result was thrown away -/
  | dropped (c : Comp)
deriving DecidableEq, Repr

/-- A submitted job.  `owner` is the interpreter thread whose pipe the worker writes to
(native_pool.rs l.112); `evs` is its history. -/
structure Job where
  owner : Nat
  op : Op
  worker : Worker
  waiter : Waiter
  evs : List Ev
deriving DecidableEq, Repr

/-- The process: the jobs by ticket (`NEXT_ID`, native_pool.rs l.70; tickets are never reused),
the maps `RESULTS` and `ORPHANS` (l.58-68), the holder of the `ORPHANS` lock (ticket, and `true`
for the worker, `false` for the waiter), the number of bytes in each interpreter's pipe
(l.72-90), and the open file descriptors that `open` calls have returned. -/
structure St where
  jobs : List Job
  results : Nat → Option Comp
  orphans : Nat → Bool
  lock : Option (Nat × Bool)
  pipe : Nat → Nat
  fds : List Int

/-- Nothing submitted yet. -/
def init : St := ⟨[], fun _ => none, fun _ => false, none, fun _ => 0, []⟩

/-- Update of a function at one point. -/
def upd {α : Type} (f : Nat → α) (i : Nat) (a : α) : Nat → α := fun k => if k = i then a else f k

/-- One step of one party. -/
inductive Act
  | submit (owner : Nat) (op : Op)
  | finish (i : Nat) (c : Comp)
  | lockW (i : Nat)
  | testOrphan (i : Nat)
  | insert (i : Nat)
  | unlockW (i : Nat)
  | write (i : Nat)
  | take (i : Nat)
  | park (i : Nat)
  | interrupt (i : Nat)
  | poll (owner : Nat)
  | drain (i : Nat)
  | lockD (i : Nat)
  | removeD (i : Nat)
  | markD (i : Nat)
  | unlockD (i : Nat)
deriving DecidableEq, Repr

/-- The descriptors a finished call adds to the process. -/
def newFds (op : Op) (c : Comp) : List Int :=
  match op with
  | .open => if 0 ≤ c.ret then [c.ret] else []
  | .other => []

/-- A poll that finds the pipe of `owner` readable makes every green thread parked on it runnable
(scheduler.rs `poll_io_waiters`, l.1171: each entry with `revents` is woken). -/
def wake (owner : Nat) (j : Job) : Job :=
  if j.owner = owner ∧ j.waiter = .parked then { j with waiter := .woken } else j

/-- The step of the worker and waiter of ticket `i`. -/
def stepJob (s : St) (i : Nat) (j : Job) : Act → Option St
  -- native_pool.rs l.114-115
  | .finish _ c => match j.worker with
    | .running => some { s with
        jobs := s.jobs.set i { j with worker := .finished c, evs := j.evs ++ [.fin c] }
        fds := newFds j.op c ++ s.fds }
    | _ => none
  -- native_pool.rs l.117
  | .lockW _ => match j.worker, s.lock with
    | .finished c, none => some { s with
        jobs := s.jobs.set i { j with worker := .holding c }, lock := some (i, true) }
    | _, _ => none
  -- native_pool.rs l.118-121
  | .testOrphan _ => match j.worker with
    | .holding c =>
      if s.orphans i then some { s with
        orphans := upd s.orphans i false
        jobs := s.jobs.set i { j with worker := .dropped, evs := j.evs ++ [.dropped c] } }
      else some { s with jobs := s.jobs.set i { j with worker := .inserting c } }
    | _ => none
  -- native_pool.rs l.122
  | .insert _ => match j.worker with
    | .inserting c => some { s with
        results := upd s.results i (some c)
        jobs := s.jobs.set i { j with worker := .inserted } }
    | _ => none
  -- native_pool.rs l.120 (return) and l.123 (end of the block)
  | .unlockW _ => match j.worker with
    | .inserted => some { s with
        jobs := s.jobs.set i { j with worker := .toWrite }, lock := none }
    | .dropped => some { s with
        jobs := s.jobs.set i { j with worker := .done }, lock := none }
    | _ => none
  -- native_pool.rs l.128-131
  | .write _ => match j.worker with
    | .toWrite => some { s with
        jobs := s.jobs.set i { j with worker := .done }
        pipe := upd s.pipe j.owner (s.pipe j.owner + 1) }
    | _ => none
  -- native_pool.rs l.137-139 (`try_take`) and l.193-195
  | .take _ => match j.waiter with
    | .checking => match s.results i with
      | some c => some { s with
          results := upd s.results i none
          jobs := s.jobs.set i { j with waiter := .got c, evs := j.evs ++ [.took c] } }
      | none => some { s with jobs := s.jobs.set i { j with waiter := .toPark } }
    | _ => none
  -- native_pool.rs l.196: `wait_fd` parks without looking at the pipe (scheduler.rs `wait_fds`, l.966)
  | .park _ => match j.waiter with
    | .toPark => some { s with jobs := s.jobs.set i { j with waiter := .parked } }
    | _ => none
  -- native_pool.rs l.196-197: a kill or raise delivered before, while or after parking
  | .interrupt _ => match j.waiter with
    | .toPark | .parked | .woken =>
      some { s with jobs := s.jobs.set i { j with waiter := .discarding } }
    | _ => none
  -- native_pool.rs l.100-106 (`drain`) and l.200
  | .drain _ => match j.waiter with
    | .woken => some { s with
        jobs := s.jobs.set i { j with waiter := .checking }
        pipe := upd s.pipe j.owner 0 }
    | _ => none
  -- native_pool.rs l.144
  | .lockD _ => match j.waiter, s.lock with
    | .discarding, none => some { s with
        jobs := s.jobs.set i { j with waiter := .dholding }, lock := some (i, false) }
    | _, _ => none
  -- native_pool.rs l.145
  | .removeD _ => match j.waiter with
    | .dholding => match s.results i with
      | some c => some { s with
          results := upd s.results i none
          jobs := s.jobs.set i { j with waiter := .dleaving, evs := j.evs ++ [.dropped c] } }
      | none => some { s with jobs := s.jobs.set i { j with waiter := .dmark } }
    | _ => none
  -- native_pool.rs l.146
  | .markD _ => match j.waiter with
    | .dmark => some { s with
        orphans := upd s.orphans i true
        jobs := s.jobs.set i { j with waiter := .dleaving } }
    | _ => none
  -- native_pool.rs l.148 (end of `discard`), l.198
  | .unlockD _ => match j.waiter with
    | .dleaving => some { s with
        jobs := s.jobs.set i { j with waiter := .gone }, lock := none }
    | _ => none
  | .submit _ _ => none
  | .poll _ => none

/-- The ticket an action is about. -/
def Act.ticket? : Act → Option Nat
  | .submit _ _ | .poll _ => none
  | .finish i _ | .lockW i | .testOrphan i | .insert i | .unlockW i | .write i | .take i
  | .park i | .interrupt i | .drain i | .lockD i | .removeD i | .markD i | .unlockD i => some i

/-- One step; `none` when the action is not possible. -/
def step (s : St) (a : Act) : Option St :=
  match a with
  -- native_pool.rs l.110-113 and l.191 (`submit`)
  | .submit o op => some { s with jobs := s.jobs ++ [⟨o, op, .running, .checking, []⟩] }
  | .poll o => if s.pipe o = 0 then none else some { s with jobs := s.jobs.map (wake o) }
  | a => match a.ticket? with
    | some i => match s.jobs[i]? with
      | some j => stepJob s i j a
      | none => none
    | none => none

/-- A schedule. -/
def run (s : St) : List Act → Option St
  | [] => some s
  | a :: as => match step s a with
    | some s' => run s' as
    | none => none

/-- States some schedule leads to. -/
def Reachable (s : St) : Prop := ∃ as, run init as = some s

/-- The waiter has returned to its caller. -/
def Waiter.ended : Waiter → Bool
  | .got _ | .gone => true
  | _ => false

end Verif.NativePool
