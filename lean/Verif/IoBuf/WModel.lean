/-!
# Model of the write buffer of an IO object

`/repo/monoruby/src/value/rvalue/io/buf.rs`, write side, and the callers of it in
`/repo/monoruby/src/value/rvalue/io.rs` and `/repo/monoruby/src/builtins/io.rs`.

The operating system is an adversary.  What it will do is a list of answers to `write(2)`
(`WResp`) and a list of answers to "is a signal pending?" (`polls`); every theorem quantifies
over both lists.  An empty list of answers means that the system call never returns, and the
model then has no result (`none`).
-/

namespace Verif.IoBuf

/-- A byte of a stream. -/
abbrev Byte := UInt8

/-- `IO_BUF_CAPA`, `value/rvalue/io/buf.rs` l.31. -/
def ioBufCapa : Nat := 8192

/-- One answer of the kernel to `write(2)` with a non-empty buffer: `took n` accepts up to
`n + 1` bytes (a short write if the request is longer), `zero` returns 0, `eintr` fails with
`EINTR`, `again` with `EAGAIN`, `fail` with any other errno. -/
inductive WResp where
  | took (n : Nat)
  | zero
  | eintr
  | again
  | fail
deriving DecidableEq, Repr

/-- What the kernel will answer: to `write(2)` and to the poll for a pending signal. -/
structure WOs where
  polls : List Bool
  wr : List WResp
deriving DecidableEq, Repr

/-- `signal_pending()`, `value/rvalue/io.rs` l.138-140: reads the pending-signal word.  When the
list of answers is exhausted no further signal arrives. -/
def pollSig : List Bool → Bool × List Bool
  | [] => (false, [])
  | b :: bs => (b, bs)

/-- `DrainErr`, `value/rvalue/io/buf.rs` l.220-229. -/
inductive DrainErr where
  | signal
  | wouldBlock
  | io
deriving DecidableEq, Repr

/-- Result of a drain or of a write attempt. -/
abbrev WRes := Except DrainErr Unit

/-- What `write(2)` with the bytes `req` hands to the descriptor when the kernel answers
`took n`. -/
def accepted (n : Nat) (req : List Byte) : List Byte := req.take (n + 1)

/-- The loop of `WriteBuf::drain`, `value/rvalue/io/buf.rs` l.292-321.  `out` is what the kernel
has received on the descriptor since the call started; `written` is the program's own count. -/
def drainLoop (buf : List Byte) (polls : List Bool) (wr : List WResp) (written : Nat)
    (out : List Byte) : Option (WRes × Nat × List Byte × WOs) :=
  if written ≥ buf.length then some (.ok (), written, out, ⟨polls, wr⟩)
  else if (pollSig polls).1 then some (.error .signal, written, out, ⟨(pollSig polls).2, wr⟩)
  else match wr with
    | [] => none
    | .zero :: wr => some (.error .io, written, out, ⟨(pollSig polls).2, wr⟩)
    | .took n :: wr =>
      drainLoop buf (pollSig polls).2 wr (written + (accepted n (buf.drop written)).length)
        (out ++ accepted n (buf.drop written))
    | .eintr :: wr =>
      if (pollSig (pollSig polls).2).1 then
        some (.error .signal, written, out, ⟨(pollSig (pollSig polls).2).2, wr⟩)
      else drainLoop buf (pollSig (pollSig polls).2).2 wr written out
    | .again :: wr => some (.error .wouldBlock, written, out, ⟨(pollSig polls).2, wr⟩)
    | .fail :: wr => some (.error .io, written, out, ⟨(pollSig polls).2, wr⟩)

/-- `write_direct`, `value/rvalue/io/buf.rs` l.363-390.  `out` is what the kernel has received
since the call started; `progress` is `*progress`. -/
def directLoop (data : List Byte) (polls : List Bool) (wr : List WResp) (progress : Nat)
    (out : List Byte) : Option (WRes × Nat × List Byte × WOs) :=
  if progress < data.length then
    if (pollSig polls).1 then some (.error .signal, progress, out, ⟨(pollSig polls).2, wr⟩)
    else match wr with
      | [] => none
      | .zero :: wr => some (.error .io, progress, out, ⟨(pollSig polls).2, wr⟩)
      | .took n :: wr =>
        directLoop data (pollSig polls).2 wr (progress + (accepted n (data.drop progress)).length)
          (out ++ accepted n (data.drop progress))
      | .eintr :: wr =>
        if (pollSig (pollSig polls).2).1 then
          some (.error .signal, progress, out, ⟨(pollSig (pollSig polls).2).2, wr⟩)
        else directLoop data (pollSig (pollSig polls).2).2 wr progress out
      | .again :: wr => some (.error .wouldBlock, progress, out, ⟨(pollSig polls).2, wr⟩)
      | .fail :: wr => some (.error .io, progress, out, ⟨(pollSig polls).2, wr⟩)
  else some (.ok (), progress, out, ⟨polls, wr⟩)

/-- `WriteBuf`, `value/rvalue/io/buf.rs` l.235-243. -/
structure WriteBuf where
  buf : List Byte
  sync : Bool
  tty : Bool
deriving DecidableEq, Repr

/-- `WriteBuf::new`, `value/rvalue/io/buf.rs` l.256-262. -/
def WriteBuf.new (sync tty : Bool) : WriteBuf := ⟨[], sync, tty⟩

/-- `WriteBuf::writes_through`, `value/rvalue/io/buf.rs` l.278-280. -/
def WriteBuf.writesThrough (w : WriteBuf) : Bool := w.sync || w.tty

/-- `WriteBuf::drain`, `value/rvalue/io/buf.rs` l.287-324.  The second component is what the
kernel took: the sink itself is not part of the buffer (`"r+"` files share one descriptor with
the reader), so its new content is left to the caller of this function. -/
def WriteBuf.drain (w : WriteBuf) (os : WOs) : Option (WRes × List Byte × WriteBuf × WOs) :=
  match drainLoop w.buf os.polls os.wr 0 [] with
  | none => none
  | some (res, written, out, os') =>
    some (res, out, { w with buf := w.buf.drop written }, os')

/-- `WriteBuf::write`, `value/rvalue/io/buf.rs` l.340-357.  Besides the result: the new
`*progress` and the bytes the kernel took.  `data.len() - *progress` is a checked subtraction
in debug builds; callers start at 0 and only pass back what this function stored, which
`attempt_progress_le` shows to be at most the length. -/
def WriteBuf.write (w : WriteBuf) (data : List Byte) (progress : Nat) (os : WOs) :
    Option (WRes × Nat × List Byte × WriteBuf × WOs) :=
  if !w.writesThrough && w.buf.length + (data.length - progress) < ioBufCapa then
    some (.ok (), data.length, [], { w with buf := w.buf ++ data.drop progress }, os)
  else match w.drain os with
    | none => none
    | some (.error e, took, w', os') => some (.error e, progress, took, w', os')
    | some (.ok (), took, w', os') =>
      match directLoop data os'.polls os'.wr progress [] with
      | none => none
      | some (res, progress', out, os'') => some (res, progress', took ++ out, w', os'')

/-- A stream as seen from outside: its write buffer and everything the kernel has accepted on
its descriptor so far, in order.  `IoWriter` (`value/rvalue/io/buf.rs` l.394-447) for the
standard streams and a child's stdin; `FileDescriptor` (`value/rvalue/io.rs` l.404-440) for a
pipe, a socket or a file that is only written. -/
structure Stream where
  wb : WriteBuf
  sink : List Byte
deriving DecidableEq, Repr

/-- One attempt of `IoInner::write`, `value/rvalue/io.rs` l.973-994. -/
def Stream.attempt (s : Stream) (data : List Byte) (progress : Nat) (os : WOs) :
    Option (WRes × Nat × Stream × WOs) :=
  match s.wb.write data progress os with
  | none => none
  | some (res, p, took, wb, os') => some (res, p, ⟨wb, s.sink ++ took⟩, os')

/-- `IoInner::flush`, `value/rvalue/io.rs` l.666-683 (and `drain_wbuf` l.446-453, whose early
return on an empty buffer is what `drain` does anyway). -/
def Stream.flush (s : Stream) (os : WOs) : Option (WRes × Stream × WOs) :=
  match s.wb.drain os with
  | none => none
  | some (res, took, wb, os') => some (res, ⟨wb, s.sink ++ took⟩, os')

/-- `IoInner::set_sync`, `value/rvalue/io.rs` l.698-711: the policy changes, nothing is
flushed. -/
def Stream.setSync (s : Stream) (b : Bool) : Stream := ⟨{ s.wb with sync := b }, s.sink⟩

/-- The retry loop of `IO#write` for one argument: `io_write_method`,
`builtins/io.rs` l.3708-3717, with `blocking_io_region` l.1411-1500.  A signal runs the VM's
poll point and retries, a would-block parks and retries, both with the same `done`; a hard
error ends the call.  Simplification: between two attempts nothing else touches the stream
(the general history is `Ev` below), and the poll point of the region itself is not modelled
(a handler that raises ends the loop early, which is the case of a shorter history).
`k` bounds the number of attempts; `none` when it is exhausted. -/
def Stream.writeCall (k : Nat) (s : Stream) (data : List Byte) (progress : Nat) (os : WOs) :
    Option (WRes × Nat × Stream × WOs) :=
  match k with
  | 0 => none
  | k + 1 =>
    match s.attempt data progress os with
    | none => none
    | some (.ok (), p, s', os') => some (.ok (), p, s', os')
    | some (.error .io, p, s', os') => some (.error .io, p, s', os')
    | some (.error .signal, p, s', os') => s'.writeCall k data p os'
    | some (.error .wouldBlock, p, s', os') => s'.writeCall k data p os'

/-- One step in the life of a stream: some writer's attempt to push `data` from `progress` on
(the first one, or a retry; several green threads may be in the middle of a write), a flush,
or a change of `sync`. -/
inductive Ev where
  | attempt (data : List Byte) (progress : Nat)
  | flush
  | setSync (b : Bool)
deriving DecidableEq, Repr

/-- Run one event.  The second component is what the stream accepted from the program: the
part of `data` between the old and the new progress. -/
def Stream.step (s : Stream) (os : WOs) : Ev → Option (List Byte × WRes × Stream × WOs)
  | .attempt data p =>
    match s.attempt data p os with
    | none => none
    | some (res, p', s', os') => some ((data.take p').drop p, res, s', os')
  | .flush =>
    match s.flush os with
    | none => none
    | some (res, s', os') => some ([], res, s', os')
  | .setSync b => some ([], .ok (), s.setSync b, os)

/-- Run a whole history, collecting what was accepted. -/
def Stream.run (s : Stream) (os : WOs) : List Ev → Option (List Byte × Stream × WOs)
  | [] => some ([], s, os)
  | e :: es =>
    match s.step os e with
    | none => none
    | some (acc, _, s', os') =>
      match s'.run os' es with
      | none => none
      | some (acc', s'', os'') => some (acc ++ acc', s'', os'')

/-- `IO#write_nonblock`, `value/rvalue/io.rs` l.1399-1420: one `write(2)` on the descriptor;
the write buffer is not consulted.  (`EINTR` is an error there.) -/
def Stream.writeNonblock (s : Stream) (data : List Byte) (os : WOs) :
    Option (WRes × Nat × Stream × WOs) :=
  match os.wr with
  | [] => none
  | .took n :: wr =>
    some (.ok (), min (n + 1) data.length,
      ⟨s.wb, s.sink ++ data.take (min (n + 1) data.length)⟩, ⟨os.polls, wr⟩)
  | .zero :: wr => some (.ok (), 0, s, ⟨os.polls, wr⟩)
  | .again :: wr => some (.error .wouldBlock, 0, s, ⟨os.polls, wr⟩)
  | .eintr :: wr => some (.error .io, 0, s, ⟨os.polls, wr⟩)
  | .fail :: wr => some (.error .io, 0, s, ⟨os.polls, wr⟩)

end Verif.IoBuf
