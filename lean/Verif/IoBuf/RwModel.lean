import Verif.IoBuf.RModel

/-!
# Model of a file opened for reading and writing

`FileDescriptor`, `/repo/monoruby/src/value/rvalue/io.rs` l.404-453: one descriptor, one reader
with its buffer, one write buffer.  A stream that is interrupted while it drains or reads ends
the histories of this model (`none`); interrupts of the two halves are the subject of `WModel`
and `RModel`.
-/

namespace Verif.IoBuf

/-- Writing `bs` at offset `off` of `data`: overwrites, extends, and fills a gap past the end
with zeros.  Writing nothing changes nothing. -/
def patch (data : List Byte) (off : Nat) (bs : List Byte) : List Byte :=
  if bs = [] then data
  else (data ++ List.replicate (off - data.length) 0).take off ++ bs ++ data.drop (off + bs.length)

/-- What the kernel does with bytes it takes from `write(2)`: they go to the descriptor's offset,
which moves behind them.  It takes none past the largest offset (`none`, `EFBIG`). -/
def Fd.put (fd : Fd) (bs : List Byte) : Option Fd :=
  if bs = [] then some fd
  else if (fd.off : Int) + bs.length > offMax then none
  else some { fd with data := patch fd.data fd.off bs, off := fd.off + bs.length }

/-- A file opened `"r+"` or `"w+"`. -/
structure Rw where
  io : Io
  wb : WriteBuf
deriving DecidableEq, Repr

/-- The bytes `took` have reached the descriptor and the write buffer is now `wb`. -/
def Rw.land (s : Rw) (took : List Byte) (wb : WriteBuf) : Option Rw :=
  match s.io.rd.fd.put took with
  | none => none
  | some fd => some ⟨{ s.io with rd := { s.io.rd with fd := fd } }, wb⟩

/-- One attempt of `IoInner::write` on a `File`, `value/rvalue/io.rs` l.973-994: the write buffer
is filled or written out; the reader is not looked at. -/
def Rw.write (s : Rw) (data : List Byte) (progress : Nat) (os : WOs) :
    Option (WRes × Nat × Rw × WOs) :=
  match s.wb.write data progress os with
  | none => none
  | some (res, p, took, wb, os') =>
    match s.land took wb with
    | none => none
    | some s' => some (res, p, s', os')

/-- `drain_wbuf`, `value/rvalue/io.rs` l.446-453, when it succeeds. -/
def Rw.drain (s : Rw) (os : WOs) : Option (Rw × WOs) :=
  match s.wb.drain os with
  | some (.ok (), took, wb, os') =>
    match s.land took wb with
    | none => none
    | some s' => some (s', os')
  | _ => none

/-- `read_impl` behind `flush_wbuf_before_read`, `value/rvalue/io.rs` l.1003-1012, l.1100-1119;
`exact` is `IO#read(n)`, otherwise `getbyte`. -/
def Rw.read (s : Rw) (n : Nat) (exact : Bool) (wos : WOs) (ros : ROs) :
    Option (List Byte × Rw × WOs × ROs) :=
  match s.drain wos with
  | none => none
  | some (s', wos') =>
    match s'.io.readImpl (some n) exact ros with
    | some (.ok bs, io, ros') => some (bs, { s' with io := io }, wos', ros')
    | _ => none

/-- `IoInner::seek`, `value/rvalue/io.rs` l.1764-1795: what is buffered for writing lands first. -/
def Rw.seek (s : Rw) (w : Whence) (wos : WOs) : Option (Option Nat × Rw × WOs) :=
  match s.drain wos with
  | none => none
  | some (s', wos') =>
    some ((s'.io.rd.seek w).1, { s' with io := { s'.io with rd := (s'.io.rd.seek w).2 } }, wos')

/-- `IO#pos`, `io_pos`, `builtins/io.rs` l.3214-3224: the position minus the bytes that were
ungot, at least 0; `none` when the seek fails. -/
def Rw.pos (s : Rw) (wos : WOs) : Option (Option Nat × Rw × WOs) :=
  match s.seek (.current 0) wos with
  | none => none
  | some (p, s', wos') =>
    some (p.map fun q : Nat => ((q : Int) - (s.io.pushback.length : Int)).toNat, s', wos')

/-- The operations of a program on such a file. -/
inductive FOp where
  | write (data : List Byte) (progress : Nat)
  | read (n : Nat)
  | getbytes (n : Nat)
  | seek (w : Whence)
  | pos
deriving DecidableEq, Repr

/-- What they return: `wrote` the number of bytes accepted. -/
inductive FOut where
  | wrote (bs : List Byte)
  | bytes (bs : List Byte)
  | at (p : Nat)
deriving DecidableEq, Repr

/-- One operation; `none` if it raises. -/
def Rw.step (s : Rw) (wos : WOs) (ros : ROs) : FOp → Option (FOut × Rw × WOs × ROs)
  | .write data p =>
    if p ≤ data.length then
      match s.write data p wos with
      | none => none
      | some (_, p', s', wos') => some (.wrote ((data.take p').drop p), s', wos', ros)
    else none
  | .read n =>
    match s.read n true wos ros with
    | none => none
    | some (bs, s', wos', ros') => some (.bytes bs, s', wos', ros')
  | .getbytes n =>
    match s.read n false wos ros with
    | none => none
    | some (bs, s', wos', ros') => some (.bytes bs, s', wos', ros')
  | .seek w =>
    match s.seek w wos with
    | some (some p, s', wos') => some (.at p, s', wos', ros)
    | _ => none
  | .pos =>
    match s.pos wos with
    | some (some p, s', wos') => some (.at p, s', wos', ros)
    | _ => none

/-- A whole history. -/
def Rw.run : Rw → WOs → ROs → List FOp → Option (List FOut × Rw)
  | s, _, _, [] => some ([], s)
  | s, wos, ros, op :: ops =>
    match s.step wos ros op with
    | none => none
    | some (o, s', wos', ros') =>
      match s'.run wos' ros' ops with
      | none => none
      | some (outs, s'') => some (o :: outs, s'')

end Verif.IoBuf
