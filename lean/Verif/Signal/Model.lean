import Mathlib.Data.Nat.Notation

/-!
# Signals and the safepoint poll word

The poll word and its lanes (poll_flag.rs), the pending-signal bitmap and the signal handler
(codegen/signal_table.rs), the preemption timer (preempt.rs) and the poll itself
(executor.rs `execute_gc`), as an interleaving of their atomic operations.

Simplifications, for the whole file:
* all atomics are relaxed in the code; the model is sequentially consistent.  Each location is only
  changed by read-modify-write operations, and each claim is about one location or about the pair
  (bitmap, word) where the handler writes bitmap-then-word and the poll reads word-then-bitmap;
  on x86-64 locked operations are totally ordered, so no more behaviours exist there;
* one interpreter; the registries of addresses are modelled apart (`Reg`);
* a poll may be suspended at any point while others run.  In the code this happens only inside a
  trap handler and inside `pass`; the model allows it everywhere, so it has more behaviours.
-/

namespace Verif.Signal

/-- The poll word.  monoruby/src/codegen/arch/x86_64/jit_module.rs:24 (a 32-bit data slot). -/
abbrev Word := BitVec 32

/-- `GC_LANE`.  poll_flag.rs:54 -/
def gcLane : Word := 0x00000001#32
/-- `GC_LANE_MASK`.  poll_flag.rs:55 -/
def gcLaneMask : Word := 0x000000ff#32
/-- `PREEMPT_LANE`.  poll_flag.rs:57 -/
def preemptLane : Word := 0x00000100#32
/-- `PREEMPT_LANE_MASK`.  poll_flag.rs:58 -/
def preemptLaneMask : Word := 0x0000ff00#32
/-- `SIGNAL_LANE`.  poll_flag.rs:60 -/
def signalLane : Word := 0x00010000#32
/-- `SIGNAL_LANE_MASK`.  poll_flag.rs:61 -/
def signalLaneMask : Word := 0x00ff0000#32

/-- `set_gc`: one `fetch_or`.  poll_flag.rs:133-135 -/
def setGc (w : Word) : Word := w ||| gcLane
/-- `clear_gc`: one `fetch_and`.  poll_flag.rs:138-140 -/
def clearGc (w : Word) : Word := w &&& ~~~gcLaneMask
/-- `gc_requested`.  poll_flag.rs:145-147 -/
def gcRequested (w : Word) : Bool := w &&& gcLaneMask != 0#32
/-- `set_preempt`, and the timer's `fetch_or`.  poll_flag.rs:164-166, preempt.rs:143 -/
def setPreempt (w : Word) : Word := w ||| preemptLane
/-- The load of `consume_preempt`.  poll_flag.rs:172 -/
def preemptPending (w : Word) : Bool := w &&& preemptLaneMask != 0#32
/-- The `fetch_and` of `consume_preempt`.  poll_flag.rs:173 -/
def clearPreempt (w : Word) : Word := w &&& ~~~preemptLaneMask
/-- `clear_signal`.  poll_flag.rs:186-188 -/
def clearSignal (w : Word) : Word := w &&& ~~~signalLaneMask
/-- `set_signal_from_handler`.  poll_flag.rs:194-204 -/
def setSignal (w : Word) : Word := w ||| signalLane
/-- The zero test at a method call or loop back-edge (`cmpl [flag], 0; jne`).  poll_flag.rs:4-6 -/
def pollFires (w : Word) : Bool := w != 0#32

/-- The bitmap of pending signals.  codegen/signal_table.rs:30 -/
abbrev Bitmap := BitVec 32

/-- The first half of `signal_handler`: record the signal.  codegen/signal_table.rs:43-45 -/
def record (p : Bitmap) (signo : Nat) : Bitmap :=
  if 1 ≤ signo ∧ signo ≤ 32 then p ||| (1#32 <<< (signo - 1)) else p

/-- `trailing_zeros` of a 32-bit word, 32 for zero. -/
def trailingZeros (p : Bitmap) : Nat := ((List.range 32).find? fun i => p.getLsbD i).getD 32

/-- `lowest_pending_signo`.  codegen/signal_table.rs:225-231 -/
def lowestPendingSigno (p : Bitmap) : Option Nat :=
  if p = 0#32 then none else some (trailingZeros p + 1)

/-- `SignalDisposition`; the handler object is opaque.  codegen/signal_table.rs:174-195 -/
inductive Disp where
  | default | systemDefault | ignore | handler (obj : Nat)
  deriving DecidableEq

/-- `signo_to_error`: which signals become an exception (Linux numbers: HUP 1, INT 2, QUIT 3,
USR1 10, USR2 12, PIPE 13, ALRM 14, TERM 15).  codegen/signal_table.rs:201-214 -/
def signoToError (signo : Nat) : Bool :=
  signo == 2 || signo == 15 || signo == 1 || signo == 10 || signo == 12 || signo == 3
    || signo == 14 || signo == 13

/-- `POSIX_SIGNALS`, the signals whose handler is installed at start (Linux numbers).
codegen/signal_table.rs:77-85 -/
def posixSignals : List Nat := [1, 2, 3, 14, 15, 10, 12]

/-- `TRAPPABLE_SIGNALS` on Linux.  codegen/signal_table.rs:108-131 -/
def trappableSignals : List Nat :=
  [1, 2, 3, 10, 12, 13, 14, 15, 17, 18, 20, 21, 22, 23, 24, 25, 27, 28, 29, 30, 31]

/-- What the program sees of a poll. -/
inductive Obs where
  /-- A poll site saw zero and went on. -/
  | skipped
  /-- The bitmap a poll took. -/
  | drained (p : Bitmap)
  /-- A trap handler was called with this signal number. -/
  | called (signo obj : Nat)
  /-- The exception for this signal was raised. -/
  | raised (signo : Nat)
  /-- The signal was dropped (ignored, or no exception belongs to it). -/
  | dropped (signo : Nat)
  /-- A collection ran. -/
  | collected
  /-- The running thread passed on. -/
  | passed
  deriving DecidableEq

/-- Where one call of `execute_gc` is.  executor.rs:4816-4953 -/
inductive Pc where
  | consume | consume2 | gate | clear | take | check | deliver | gcTest | ack | switch
  deriving DecidableEq

/-- One running poll: its place and its local variables `preempt`, `pending`, `deferred_signal`. -/
structure Act where
  pc : Pc
  preempt : Bool
  pending : Bitmap
  deferred : Bool
  deriving DecidableEq

/-- The process: the poll word, the bitmap, the number of handlers that have recorded their signal
but not yet armed the word, the running polls, and the trap table. -/
structure St where
  word : Word
  pend : Bitmap
  inflight : Nat
  acts : List Act
  disp : Nat → Disp

/-- What happens next. -/
inductive Ev where
  /-- A signal arrives: the handler records it. -/
  | signal (signo : Nat)
  /-- A handler arms the word. -/
  | arm
  /-- The preemption timer ticks. -/
  | tick
  /-- A collection is requested (page pressure, malloc, `GC.start`, `GC.stress`). -/
  | gcRequest
  /-- The program reaches a poll site. -/
  | poll
  /-- `Signal.trap` changes the table. -/
  | trap (signo : Nat) (d : Disp)
  /-- Running poll `i` takes its next step; `ok` is the outcome of the one question it may ask of
  the rest of the program there (may signals be delivered here? does the handler return normally?
  may the thread be switched?). -/
  | step (i : Nat) (ok : Bool)

/-- One step of a running poll: the new word, bitmap, the poll's new state (`none`: it returned)
and what was seen.  executor.rs:4833 (consume_preempt), 4846-4860 (the gate, the clearing of the
lane and the drain), 4868 (deferred_signal), 4869-4897 (delivery), 4898-4926 (the collection; the
lane is cleared by `ack_gc_request`, alloc.rs:941-944), 4937-4945 (the switch).  Stress modes are
not modelled. -/
def stepAct (disp : Nat → Disp) (w : Word) (p : Bitmap) (a : Act) (ok : Bool) :
    Word × Bitmap × Option Act × List Obs :=
  match a.pc with
  | .consume =>
    if preemptPending w then (w, p, some { a with pc := .consume2 }, [])
    else (w, p, some { a with pc := .gate, preempt := false }, [])
  | .consume2 => (clearPreempt w, p, some { a with pc := .gate, preempt := true }, [])
  | .gate =>
    if ok then (w, p, some { a with pc := .clear }, [])
    else (w, p, some { a with pc := .check, pending := 0#32 }, [])
  | .clear => (clearSignal w, p, some { a with pc := .take }, [])
  | .take => (w, 0#32, some { a with pc := .check, pending := p }, [.drained p])
  | .check =>
    (w, p, some { a with pc := .deliver, deferred := a.pending == 0#32 && p != 0#32 }, [])
  | .deliver =>
    match lowestPendingSigno a.pending with
    | none => (w, p, some { a with pc := .gcTest }, [])
    | some n =>
      match disp n with
      | .handler obj =>
        if ok then (w, p, some { a with pc := .gcTest }, [.called n obj])
        else (w, p, none, [.called n obj])
      | .ignore => (w, p, some { a with pc := .gcTest }, [.dropped n])
      | .default | .systemDefault =>
        if signoToError n then (w, p, none, [.raised n])
        else (w, p, some { a with pc := .gcTest }, [.dropped n])
  | .gcTest =>
    if gcRequested w && !a.deferred then (w, p, some { a with pc := .ack }, [.collected])
    else (w, p, some { a with pc := .switch }, [])
  | .ack => (clearGc w, p, some { a with pc := .switch }, [])
  | .switch => if a.preempt && ok then (w, p, none, [.passed]) else (w, p, none, [])

/-- Put the stepped poll back, or remove it. -/
def putAct (as : List Act) (i : Nat) : Option Act → List Act
  | some a => as.set i a
  | none => as.eraseIdx i

/-- One event. -/
def next (s : St) : Ev → St × List Obs
  | .signal n => ({ s with pend := record s.pend n, inflight := s.inflight + 1 }, [])
  | .arm =>
    if s.inflight = 0 then (s, [])
    else ({ s with word := setSignal s.word, inflight := s.inflight - 1 }, [])
  | .tick => ({ s with word := setPreempt s.word }, [])
  | .gcRequest => ({ s with word := setGc s.word }, [])
  | .poll =>
    if pollFires s.word then
      ({ s with acts := s.acts ++ [⟨.consume, false, 0#32, false⟩] }, [])
    else (s, [.skipped])
  | .trap n d => ({ s with disp := fun m => if m = n then d else s.disp m }, [])
  | .step i ok =>
    match s.acts[i]? with
    | none => (s, [])
    | some a =>
      ({ s with
          word := (stepAct s.disp s.word s.pend a ok).1
          pend := (stepAct s.disp s.word s.pend a ok).2.1
          acts := putAct s.acts i (stepAct s.disp s.word s.pend a ok).2.2.1 },
        (stepAct s.disp s.word s.pend a ok).2.2.2)

/-- A history. -/
def run (s : St) : List Ev → St × List Obs
  | [] => (s, [])
  | e :: es => ((run (next s e).1 es).1, (next s e).2 ++ (run (next s e).1 es).2)

/-- The trap table at start.  globals.rs:609-622 -/
def initDisp (n : Nat) : Disp :=
  if n = 13 then .ignore else if n ∈ posixSignals then .default else .systemDefault

/-- The process at start: nothing requested, nothing pending. -/
def init : St := ⟨0#32, 0#32, 0, [], initDisp⟩

/-! ## The registries of poll words -/

/-- The registries: the live poll words with the thread whose interpreter they belong to, each
interpreter thread's own address, and the one the signal handler uses (`none` for address 0).
poll_flag.rs:63-79 -/
structure Reg where
  live : List (Nat × Nat)
  own : Nat → Option Nat
  handler : Option Nat

/-- `register`, from `Codegen::new`.  poll_flag.rs:80-83 -/
def Reg.register (r : Reg) (t addr : Nat) : Reg :=
  { live := (t, addr) :: r.live, own := fun u => if u = t then some addr else r.own u,
    handler := some addr }

/-- `adopt_signal_registry`.  poll_flag.rs:93-98 -/
def Reg.adopt (r : Reg) (t : Nat) : Reg :=
  match r.own t with
  | some a => { r with handler := some a }
  | none => r

/-- `unregister`, from `Codegen::drop`, after which the memory is freed.  poll_flag.rs:104-118,
codegen.rs:996-1006 -/
def Reg.unregister (r : Reg) (t addr : Nat) : Reg :=
  { live := r.live.filter (·.2 ≠ addr),
    own := fun u => if u = t then (if r.own t = some addr then none else r.own t) else r.own u,
    handler := if r.handler = some addr then none else r.handler }

end Verif.Signal
