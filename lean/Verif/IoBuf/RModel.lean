import Verif.IoBuf.WModel

/-!
# Model of the read side of an IO object

`/repo/monoruby/src/value/rvalue/io/buf.rs` (read side), `/repo/monoruby/src/value/rvalue/io.rs`
and the character readers of `/repo/monoruby/src/builtins/io.rs`.

The descriptor is a byte sequence and an offset.  The kernel answers each `read(2)` as it
likes: with any non-empty number of the bytes that follow, with `EINTR`, `EAGAIN` or another
error; it answers with 0 bytes exactly when nothing is left (end of file).  A descriptor whose
content grows after an end of file was reported is not modelled.
-/

namespace Verif.IoBuf

/-- One answer of the kernel to `read(2)`: `ready n` delivers up to `n + 1` bytes, fewer if the
request or what is left is shorter. -/
inductive RResp where
  | ready (n : Nat)
  | eintr
  | again
  | fail
deriving DecidableEq, Repr

/-- What the kernel will answer to `read(2)` and to the poll for a pending signal. -/
structure ROs where
  polls : List Bool
  rd : List RResp
deriving DecidableEq, Repr

/-- The kinds of `std::io::Error` the reader distinguishes, and the interrupt markers they
become (`interrupt_marker`, `value/rvalue/io.rs` l.156-162): `intr` is `Interrupted` /
`signal_interrupt`, `block` is `WouldBlock` / `would_block_interrupt`. -/
inductive RErr where
  | intr
  | block
  | hard
deriving DecidableEq, Repr

/-- Restartable: `is_interrupt_kind`, `value/rvalue/io.rs` l.146-151. -/
def RErr.restartable : RErr → Bool
  | .intr => true
  | .block => true
  | .hard => false

/-- The open file description: everything it holds, and its offset. -/
structure Fd where
  data : List Byte
  off : Nat
  seekable : Bool
deriving DecidableEq, Repr

/-- A reader: given a state, a buffer size and the kernel, the outcome of one `Read::read`. -/
abbrev Rd (σ : Type) := σ → Nat → ROs → Option (Except RErr (List Byte) × σ × ROs)

/-- `read(2)`. -/
def Fd.read : Rd Fd := fun fd want os =>
  match os.rd with
  | [] => none
  | .ready n :: rd =>
    some (.ok ((fd.data.drop fd.off).take (min (n + 1) want)),
      { fd with off := fd.off + ((fd.data.drop fd.off).take (min (n + 1) want)).length },
      ⟨os.polls, rd⟩)
  | .eintr :: rd => some (.error .intr, fd, ⟨os.polls, rd⟩)
  | .again :: rd => some (.error .block, fd, ⟨os.polls, rd⟩)
  | .fail :: rd => some (.error .hard, fd, ⟨os.polls, rd⟩)

/-- `std::io::SeekFrom`. -/
inductive Whence where
  | start (n : Nat)
  | current (n : Int)
  | fromEnd (n : Int)
deriving DecidableEq, Repr

/-- The largest file offset, `i64::MAX`. -/
def offMax : Int := 9223372036854775807

/-- The offset a seek asks for. -/
def Fd.target (fd : Fd) : Whence → Int
  | .start n => n
  | .current n => fd.off + n
  | .fromEnd n => fd.data.length + n

/-- `lseek(2)`: fails on an unseekable descriptor (`ESPIPE`), for a negative target (`EINVAL`)
and for one that does not fit in 63 bits (`EOVERFLOW`); otherwise moves the offset, possibly
past the end.  A failing `lseek` leaves the offset alone. -/
def Fd.seek (fd : Fd) (w : Whence) : Option Nat × Fd :=
  if fd.seekable = false ∨ fd.target w < 0 ∨ offMax < fd.target w then (none, fd)
  else (some (fd.target w).toNat, { fd with off := (fd.target w).toNat })

/-- `IoReader`, `value/rvalue/io/buf.rs` l.95-101. -/
structure Reader where
  fd : Fd
  arr : List Byte
  pos : Nat
  cap : Nat
deriving DecidableEq, Repr

/-- `IoReader::new`, `value/rvalue/io/buf.rs` l.113-120. -/
def Reader.new (fd : Fd) : Reader := ⟨fd, List.replicate ioBufCapa 0, 0, 0⟩

/-- `IoReader::buffer`, `value/rvalue/io/buf.rs` l.123-125. -/
def Reader.buffer (r : Reader) : List Byte := (r.arr.take r.cap).drop r.pos

/-- `IoReader::discard_buffer`, `value/rvalue/io/buf.rs` l.139-142. -/
def Reader.discard (r : Reader) : Reader := { r with pos := 0, cap := 0 }

/-- `BufRead::fill_buf`, `value/rvalue/io/buf.rs` l.166-175.  On success the result is the
buffer.  `read(2)` writes its bytes over the front of the array. -/
def Reader.fillBuf (r : Reader) (os : ROs) :
    Option (Except RErr (List Byte) × Reader × ROs) :=
  if r.pos ≥ r.cap then
    match r.fd.read r.arr.length os with
    | none => none
    | some (.error e, fd, os') => some (.error e, { r with fd := fd }, os')
    | some (.ok bs, fd, os') =>
      some (.ok bs, { fd := fd, arr := bs ++ r.arr.drop bs.length, pos := 0, cap := bs.length },
        os')
  else some (.ok r.buffer, r, os)

/-- `BufRead::consume`, `value/rvalue/io/buf.rs` l.177-179. -/
def Reader.consume (r : Reader) (n : Nat) : Reader := { r with pos := min (r.pos + n) r.cap }

/-- `Read::read`, `value/rvalue/io/buf.rs` l.146-162. -/
def Reader.read : Rd Reader := fun r want os =>
  if r.pos = r.cap ∧ want ≥ r.arr.length then
    match r.discard.fd.read want os with
    | none => none
    | some (res, fd, os') => some (res, { r.discard with fd := fd }, os')
  else
    match r.fillBuf os with
    | none => none
    | some (.error e, r', os') => some (.error e, r', os')
    | some (.ok avail, r', os') =>
      some (.ok (avail.take (min avail.length want)), r'.consume (min avail.length want), os')

/-- `i64::MIN`. -/
def i64Min : Int := -9223372036854775808

/-- `Seek::seek`, `value/rvalue/io/buf.rs` l.192-209. -/
def Reader.seek (r : Reader) (w : Whence) : Option Nat × Reader :=
  match w with
  | .current n =>
    if n - ((r.cap - r.pos : Nat) : Int) ≥ i64Min then
      match r.fd.seek (.current (n - ((r.cap - r.pos : Nat) : Int))) with
      | (none, fd) => (none, { r with fd := fd })
      | (some p, fd) => (some p, { r with fd := fd }.discard)
    else
      match r.fd.seek (.current (-((r.cap - r.pos : Nat) : Int))) with
      | (none, fd) => (none, { r with fd := fd })
      | (some _, fd) =>
        match fd.seek (.current n) with
        | (none, fd') => (none, { r with fd := fd' }.discard)
        | (some p, fd') => (some p, { r with fd := fd' }.discard)
  | w =>
    match r.fd.seek w with
    | (none, fd) => (none, { r with fd := fd })
    | (some p, fd) => (some p, { r with fd := fd }.discard)

/-! ### The interruptible read helpers -/

/-- `read_step`, `value/rvalue/io.rs` l.229-236.  Every round consumes an answer of the kernel,
so `k` greater than their number is never the limit. -/
def readStep {σ : Type} (rd : Rd σ) (k : Nat) (s : σ) (want : Nat) (os : ROs) :
    Option (Except RErr (List Byte) × σ × ROs) :=
  match k with
  | 0 => none
  | k + 1 =>
    match rd s want os with
    | none => none
    | some (.error .intr, s', os') =>
      if (pollSig os'.polls).1 then some (.error .intr, s', { os' with polls := (pollSig os'.polls).2 })
      else readStep rd k s' want { os' with polls := (pollSig os'.polls).2 }
    | some (r, s', os') => some (r, s', os')

/-- `READ_CHUNK`, `value/rvalue/io.rs` l.239. -/
def readChunk : Nat := 8192

/-- `read_upto`, `value/rvalue/io.rs` l.245-276.  Also returns `out`, which keeps the bytes read
so far when an error ends the loop.  Every round adds a byte, so `k` greater than `len` is never
the limit. -/
def readUpto {σ : Type} (rd : Rd σ) (k : Nat) (s : σ) (len : Nat) (out : List Byte) (os : ROs) :
    Option (Except RErr Unit × List Byte × σ × ROs) :=
  match k with
  | 0 => none
  | k + 1 =>
    if out.length < len then
      if (pollSig os.polls).1 then
        some (.error .intr, out, s, { os with polls := (pollSig os.polls).2 })
      else
        match readStep rd (os.rd.length + 1) s (min (len - out.length) readChunk)
            { os with polls := (pollSig os.polls).2 } with
        | none => none
        | some (.error e, s', os') => some (.error e, out, s', os')
        | some (.ok bs, s', os') =>
          if bs.length = 0 then some (.ok (), out ++ bs, s', os')
          else readUpto rd k s' len (out ++ bs) os'
    else some (.ok (), out, s, os)

/-- `read_all`, `value/rvalue/io.rs` l.280-301.  A round that does not consume an answer of the
kernel empties the reader's buffer, so `k` greater than twice their number plus one is never the
limit. -/
def readAll {σ : Type} (rd : Rd σ) (k : Nat) (s : σ) (out : List Byte) (os : ROs) :
    Option (Except RErr Unit × List Byte × σ × ROs) :=
  match k with
  | 0 => none
  | k + 1 =>
    if (pollSig os.polls).1 then
      some (.error .intr, out, s, { os with polls := (pollSig os.polls).2 })
    else
      match readStep rd (os.rd.length + 1) s readChunk { os with polls := (pollSig os.polls).2 } with
      | none => none
      | some (.error e, s', os') => some (.error e, out, s', os')
      | some (.ok bs, s', os') =>
        if bs.length = 0 then some (.ok (), out ++ bs, s', os')
        else readAll rd k s' (out ++ bs) os'

/-- `read_until_step`, `value/rvalue/io.rs` l.305-343.  `total` is only used by the caller to
tell an empty result, which `out.length` does as well, so it is left out. -/
def readUntil (k : Nat) (r : Reader) (delim : Byte) (out : List Byte) (os : ROs) :
    Option (Except RErr Unit × List Byte × Reader × ROs) :=
  match k with
  | 0 => none
  | k + 1 =>
    if (pollSig os.polls).1 then
      some (.error .intr, out, r, { os with polls := (pollSig os.polls).2 })
    else
      match r.fillBuf { os with polls := (pollSig os.polls).2 } with
      | none => none
      | some (.error .intr, r', os') =>
        if (pollSig os'.polls).1 then
          some (.error .intr, out, r', { os' with polls := (pollSig os'.polls).2 })
        else readUntil k r' delim out { os' with polls := (pollSig os'.polls).2 }
      | some (.error e, r', os') => some (.error e, out, r', os')
      | some (.ok avail, r', os') =>
        match avail.findIdx? (· == delim) with
        | some i => some (.ok (), out ++ avail.take (i + 1), r'.consume (i + 1), os')
        | none =>
          if avail.length = 0 then some (.ok (), out ++ avail, r'.consume avail.length, os')
          else readUntil k (r'.consume avail.length) delim (out ++ avail) os'

/-- `read_partial_chunk`, `value/rvalue/io.rs` l.350-380. -/
def readPartialChunk (k : Nat) (r : Reader) (need : Nat) (noBlock : Bool) (os : ROs) :
    Option (Except RErr (List Byte) × Reader × ROs) :=
  match k with
  | 0 => none
  | k + 1 =>
    if noBlock then
      some (.ok (r.buffer.take (min r.buffer.length need)),
        r.consume (min r.buffer.length need), os)
    else
      match r.fillBuf os with
      | none => none
      | some (.error .intr, r', os') =>
        if (pollSig os'.polls).1 then
          some (.error .intr, r', { os' with polls := (pollSig os'.polls).2 })
        else readPartialChunk k r' need noBlock { os' with polls := (pollSig os'.polls).2 }
      | some (.error e, r', os') => some (.error e, r', os')
      | some (.ok _, r', os') =>
        some (.ok (r'.buffer.take (min r'.buffer.length need)),
          r'.consume (min r'.buffer.length need), os')

/-! ### The IO object -/

/-- The readable kinds of stream (`IoKind`, `value/rvalue/io.rs` l.486-499): `file` covers
regular files, pipes and sockets opened by descriptor, `popen` the output of a child process.
Closed and write-only streams raise before anything modelled here happens. -/
inductive Kind where
  | stdin
  | file
  | popen
deriving DecidableEq, Repr

/-- A readable IO object: the reader and the `ungetc` pushback buffer (`FileDescriptor`,
`PopenDescriptor`, `value/rvalue/io.rs` l.404-483).  The write buffer is left out here; it is
empty on a stream that is only read, and then `flush_wbuf_before_read` (l.1003-1012) does
nothing.  `Rw` adds it. -/
structure Io where
  kind : Kind
  rd : Reader
  pushback : List Byte
deriving DecidableEq, Repr

/-- Result of an operation on an IO object. -/
abbrev IoRes (α : Type) := Option (Except RErr α × Io × ROs)

/-- `unget`, `value/rvalue/io.rs` l.1054-1071: standard input has no pushback buffer and raises
(`none`). -/
def Io.unget (io : Io) (bs : List Byte) : Option Io :=
  match io.kind with
  | .stdin => none
  | .file => some { io with pushback := bs ++ io.pushback }
  | .popen => some { io with pushback := bs ++ io.pushback }

/-- `let _ = self.unget(..)`. -/
def Io.ungetQuiet (io : Io) (bs : List Byte) : Io := (io.unget bs).getD io

/-- `take_pushback`, `value/rvalue/io.rs` l.1074-1086.  (Standard input's is always empty.) -/
def Io.takePushback (io : Io) (max : Option Nat) : List Byte × Io :=
  match max with
  | some m => (io.pushback.take (min m io.pushback.length),
      { io with pushback := io.pushback.drop (min m io.pushback.length) })
  | none => (io.pushback, { io with pushback := [] })

/-- The number of rounds after which `read_all`, `read_until_step` and `read_partial_chunk` must
have stopped: see their definitions. -/
def ROs.rounds (os : ROs) : Nat := 2 * os.rd.length + 2

/-- The end of `read_underlying`: bytes read before a restartable interrupt are pushed back,
except on standard input (`value/rvalue/io.rs` l.1160-1172, l.1222-1228, l.1243-1249). -/
def Io.finishRead (io : Io) : Except RErr Unit → List Byte → ROs → IoRes (List Byte)
  | .ok (), buf, os => some (.ok buf, io, os)
  | .error e, buf, os =>
    if e.restartable ∧ io.kind ≠ .stdin then
      some (.error e, { io with pushback := buf ++ io.pushback }, os)
    else some (.error e, io, os)

/-- `read_underlying`, `value/rvalue/io.rs` l.1150-1251. -/
def Io.readUnderlying (io : Io) (length : Option Nat) (exact : Bool) (os : ROs) :
    IoRes (List Byte) :=
  match length with
  | none =>
    match readAll Reader.read os.rounds io.rd [] os with
    | none => none
    | some (res, buf, rd, os') => { io with rd := rd }.finishRead res buf os'
  | some len =>
    if exact ∧ io.kind = .file then
      -- drain what the reader holds, then read the descriptor directly
      if (io.rd.buffer.take (min io.rd.buffer.length len)).length < len then
        match readUpto Fd.read (len + 1) (io.rd.consume (min io.rd.buffer.length len)).fd len
            (io.rd.buffer.take (min io.rd.buffer.length len)) os with
        | none => none
        | some (res, buf, fd, os') =>
          { io with rd := { io.rd.consume (min io.rd.buffer.length len) with fd := fd } }.finishRead
            res buf os'
      else
        { io with rd := io.rd.consume (min io.rd.buffer.length len) }.finishRead (.ok ())
          (io.rd.buffer.take (min io.rd.buffer.length len)) os
    else
      match readUpto Reader.read (len + 1) io.rd len [] os with
      | none => none
      | some (res, buf, rd, os') => { io with rd := rd }.finishRead res buf os'

/-- `read_more_preserving`, `value/rvalue/io.rs` l.1128-1148. -/
def Io.readMorePreserving (io : Io) (out : List Byte) (length : Option Nat) (exact : Bool)
    (os : ROs) : IoRes (List Byte) :=
  match io.readUnderlying length exact os with
  | none => none
  | some (.ok chunk, io', os') => some (.ok (out ++ chunk), io', os')
  | some (.error e, io', os') =>
    if e.restartable then some (.error e, io'.ungetQuiet out, os')
    else some (.error e, io', os')

/-- `read_impl`, `value/rvalue/io.rs` l.1100-1119: `IO#read` (`exact`), `getbyte` (not
`exact`). -/
def Io.readImpl (io : Io) (length : Option Nat) (exact : Bool) (os : ROs) : IoRes (List Byte) :=
  if 0 < io.pushback.length then
    match length with
    | some 0 => some (.ok [], io, os)
    | some n =>
      if n ≤ io.pushback.length then
        some (.ok (io.takePushback (some n)).1, (io.takePushback (some n)).2, os)
      else
        (io.takePushback none).2.readMorePreserving (io.takePushback none).1
          (some (n - (io.takePushback none).1.length)) exact os
    | none =>
      (io.takePushback none).2.readMorePreserving (io.takePushback none).1 none exact os
  else io.readUnderlying length exact os

/-- `readpartial`, `value/rvalue/io.rs` l.1427-1470. -/
def Io.readpartial (io : Io) (maxlen : Nat) (os : ROs) : IoRes (List Byte) :=
  if 0 < io.pushback.length then
    if (io.takePushback (some maxlen)).1.length ≥ maxlen then
      some (.ok (io.takePushback (some maxlen)).1, (io.takePushback (some maxlen)).2, os)
    else
      match readPartialChunk os.rounds (io.takePushback (some maxlen)).2.rd
          (maxlen - (io.takePushback (some maxlen)).1.length) true os with
      | none => none
      | some (.ok chunk, rd, os') =>
        some (.ok ((io.takePushback (some maxlen)).1 ++ chunk),
          { (io.takePushback (some maxlen)).2 with rd := rd }, os')
      | some (.error e, rd, os') =>
        some (.error e, { (io.takePushback (some maxlen)).2 with rd := rd }, os')
  else if maxlen = 0 then some (.ok [], io, os)
  else
    match readPartialChunk os.rounds io.rd maxlen false os with
    | none => none
    | some (.ok chunk, rd, os') => some (.ok chunk, { io with rd := rd }, os')
    | some (.error e, rd, os') => some (.error e, { io with rd := rd }, os')

/-- `sysread`, `value/rvalue/io.rs` l.1261-1338.  `reader.seek(SeekFrom::Current(0))` is tried on
a `file` and its failure ignored. -/
def Io.sysread (io : Io) (maxlen : Nat) (os : ROs) : IoRes (List Byte) :=
  if (io.takePushback (some maxlen)).1.length ≥ maxlen then
    some (.ok (io.takePushback (some maxlen)).1, (io.takePushback (some maxlen)).2, os)
  else
    let rd := if io.kind = .file then (io.rd.seek (.current 0)).2 else io.rd
    match readStep Fd.read (os.rd.length + 1) rd.fd
        (maxlen - (io.takePushback (some maxlen)).1.length) os with
    | none => none
    | some (.ok chunk, fd, os') =>
      some (.ok ((io.takePushback (some maxlen)).1 ++ chunk),
        { (io.takePushback (some maxlen)).2 with rd := { rd with fd := fd } }, os')
    | some (.error e, fd, os') =>
      if e.restartable then
        some (.error e, { (io.takePushback (some maxlen)).2 with
          rd := { rd with fd := fd }
          pushback := (io.takePushback (some maxlen)).1 ++
            (io.takePushback (some maxlen)).2.pushback }, os')
      else
        some (.error e, { (io.takePushback (some maxlen)).2 with rd := { rd with fd := fd } }, os')

/-- The newline byte. -/
def nl : Byte := 10

/-- `read_line_bytes_underlying`, `value/rvalue/io.rs` l.1504-1557. -/
def Io.readLineUnderlying (io : Io) (os : ROs) : IoRes (Option (List Byte)) :=
  match readUntil os.rounds io.rd nl [] os with
  | none => none
  | some (.ok (), buf, rd, os') =>
    some (.ok (if buf.length = 0 then none else some buf), { io with rd := rd }, os')
  | some (.error e, buf, rd, os') =>
    if e.restartable ∧ io.kind ≠ .stdin then
      some (.error e, { io with rd := rd, pushback := buf ++ io.pushback }, os')
    else some (.error e, { io with rd := rd }, os')

/-- `read_line_bytes`, `value/rvalue/io.rs` l.1481-1502. -/
def Io.readLine (io : Io) (os : ROs) : IoRes (Option (List Byte)) :=
  if 0 < io.pushback.length then
    match io.pushback.findIdx? (· == nl) with
    | some idx =>
      some (.ok (some (io.takePushback (some (idx + 1))).1),
        (io.takePushback (some (idx + 1))).2, os)
    | none =>
      match (io.takePushback none).2.readLineUnderlying os with
      | none => none
      | some (.ok rest, io', os') =>
        some (.ok (some ((io.takePushback none).1 ++ rest.getD [])), io', os')
      | some (.error e, io', os') => some (.error e, io', os')
  else io.readLineUnderlying os

/-- `read1`, `value/rvalue/io.rs` l.1560-1562. -/
def Io.read1 (io : Io) (os : ROs) : IoRes (Option Byte) :=
  match io.readImpl (some 1) true os with
  | none => none
  | some (.ok bs, io', os') => some (.ok bs.head?, io', os')
  | some (.error e, io', os') => some (.error e, io', os')

/-- `read1_preserving`, `value/rvalue/io.rs` l.1569-1581. -/
def Io.read1Preserving (io : Io) (acc : List Byte) (os : ROs) : IoRes (Option Byte) :=
  match io.read1 os with
  | none => none
  | some (.ok b, io', os') => some (.ok b, io', os')
  | some (.error e, io', os') =>
    if e.restartable ∧ acc ≠ [] then some (.error e, io'.ungetQuiet acc, os')
    else some (.error e, io', os')

/-- Number of bytes a UTF-8 lead byte announces: the `match b` of `utf8_missing_bytes`,
`value/rvalue/io.rs` l.395-401. -/
def utf8Need (b : Byte) : Nat :=
  if b ≤ 0x7f then 1
  else if 0xc0 ≤ b ∧ b ≤ 0xdf then 2
  else if 0xe0 ≤ b ∧ b ≤ 0xef then 3
  else if 0xf0 ≤ b ∧ b ≤ 0xf7 then 4
  else 1

/-- The loop of `utf8_missing_bytes` over the last bytes, last one first (`value/rvalue/io.rs`
l.389-404); `seen` bytes have been passed. -/
def utf8MissingLoop : Nat → List Byte → Nat → Nat
  | 0, _, _ => 0
  | _ + 1, [], _ => 0
  | k + 1, b :: bs, seen =>
    if b &&& 0xc0 = 0x80 then utf8MissingLoop k bs (seen + 1)
    else utf8Need b - (seen + 1)

/-- `utf8_missing_bytes`, `value/rvalue/io.rs` l.383-405. -/
def utf8Missing (buf : List Byte) : Nat := utf8MissingLoop 3 buf.reverse 0

/-- `complete_partial_char`, `value/rvalue/io.rs` l.1709-1720; `k` rounds are left. -/
def Io.completeChar (k : Nat) (io : Io) (buf : List Byte) (os : ROs) : IoRes (List Byte) :=
  match k with
  | 0 => some (.ok buf, io, os)
  | k + 1 =>
    if utf8Missing buf = 0 then some (.ok buf, io, os)
    else
      match io.read1Preserving buf os with
      | none => none
      | some (.ok none, io', os') => some (.ok buf, io', os')
      | some (.ok (some b), io', os') => io'.completeChar k (buf ++ [b]) os'
      | some (.error e, io', os') => some (.error e, io', os')

/-- The end of a line at the byte limit: complete the character if asked to. -/
def Io.atLimit (io : Io) (complete : Bool) (buf : List Byte) (os : ROs) : IoRes (List Byte) :=
  if complete then io.completeChar 16 buf os else some (.ok buf, io, os)

/-- The accumulation loop of `getline` for a general separator, `value/rvalue/io.rs`
l.1676-1696.  Every round adds a byte, consuming one; `k` bounds the rounds (`none` when it is
too small; the theorems quantify over it). -/
def Io.sepLoop (k : Nat) (io : Io) (sep : List Byte) (limit : Option Nat) (complete : Bool)
    (buf : List Byte) (os : ROs) : IoRes (List Byte) :=
  match k with
  | 0 => none
  | k + 1 =>
    if limit.any (fun l => decide (buf.length ≥ l)) then io.atLimit complete buf os
    else
      match io.read1Preserving buf os with
      | none => none
      | some (.ok none, io', os') => some (.ok buf, io', os')
      | some (.ok (some b), io', os') =>
        if sep.isSuffixOf (buf ++ [b]) then some (.ok (buf ++ [b]), io', os')
        else io'.sepLoop k sep limit complete (buf ++ [b]) os'
      | some (.error e, io', os') => some (.error e, io', os')

/-- The loop that skips newlines in paragraph mode before the paragraph, `value/rvalue/io.rs`
l.1624-1633 (`buf` is empty there, so nothing is pushed back on an interrupt); it yields the
first byte that is not a newline. -/
def Io.skipNl (k : Nat) (io : Io) (os : ROs) : IoRes (Option Byte) :=
  match k with
  | 0 => none
  | k + 1 =>
    match io.read1Preserving [] os with
    | none => none
    | some (.ok none, io', os') => some (.ok none, io', os')
    | some (.ok (some b), io', os') =>
      if b = nl then io'.skipNl k os' else some (.ok (some b), io', os')
    | some (.error e, io', os') => some (.error e, io', os')

/-- The paragraph loop, `value/rvalue/io.rs` l.1634-1655; the flag is `at_sep`. -/
def Io.paraLoop (k : Nat) (io : Io) (limit : Option Nat) (complete : Bool) (buf : List Byte)
    (os : ROs) : IoRes (List Byte × Bool) :=
  match k with
  | 0 => none
  | k + 1 =>
    if limit.any (fun l => decide (buf.length ≥ l)) then
      match io.atLimit complete buf os with
      | none => none
      | some (.ok buf', io', os') => some (.ok (buf', false), io', os')
      | some (.error e, io', os') => some (.error e, io', os')
    else
      match io.read1Preserving buf os with
      | none => none
      | some (.ok none, io', os') => some (.ok (buf, false), io', os')
      | some (.ok (some b), io', os') =>
        if [nl, nl].isSuffixOf (buf ++ [b]) then some (.ok (buf ++ [b], true), io', os')
        else io'.paraLoop k limit complete (buf ++ [b]) os'
      | some (.error e, io', os') => some (.error e, io', os')

/-- The loop that swallows the blank lines after a paragraph, `value/rvalue/io.rs`
l.1656-1670. -/
def Io.swallow (k : Nat) (io : Io) (buf : List Byte) (os : ROs) : IoRes Unit :=
  match k with
  | 0 => none
  | k + 1 =>
    match io.read1Preserving buf os with
    | none => none
    | some (.ok none, io', os') => some (.ok (), io', os')
    | some (.ok (some b), io', os') =>
      if b = nl then io'.swallow k buf os' else some (.ok (), io'.ungetQuiet [b], os')
    | some (.error e, io', os') => some (.error e, io', os')

/-- `getline`, `value/rvalue/io.rs` l.1598-1701; `k` bounds the rounds of each of its loops. -/
def Io.getline (k : Nat) (io : Io) (sep : Option (List Byte)) (limit : Option Nat)
    (complete : Bool) (os : ROs) : IoRes (Option (List Byte)) :=
  if limit = some 0 then some (.ok (some []), io, os)
  else match sep with
    | none =>
      match io.readImpl limit true os with
      | none => none
      | some (.ok buf, io', os') =>
        if buf = [] then some (.ok none, io', os')
        else if complete ∧ limit = some buf.length then
          match io'.completeChar 16 buf os' with
          | none => none
          | some (.ok buf', io'', os'') => some (.ok (some buf'), io'', os'')
          | some (.error e, io'', os'') => some (.error e, io'', os'')
        else some (.ok (some buf), io', os')
      | some (.error e, io', os') => some (.error e, io', os')
    | some [] =>
      match io.skipNl k os with
      | none => none
      | some (.ok none, io', os') => some (.ok none, io', os')
      | some (.ok (some b), io', os') =>
        match io'.paraLoop k limit complete [b] os' with
        | none => none
        | some (.ok (buf, false), io'', os'') => some (.ok (some buf), io'', os'')
        | some (.ok (buf, true), io'', os'') =>
          match io''.swallow k buf os'' with
          | none => none
          | some (.ok (), io₃, os₃) => some (.ok (some buf), io₃, os₃)
          | some (.error e, io₃, os₃) => some (.error e, io₃, os₃)
        | some (.error e, io'', os'') => some (.error e, io'', os'')
      | some (.error e, io', os') => some (.error e, io', os')
    | some s =>
      if s = [nl] ∧ limit = none then io.readLine os
      else
        match io.sepLoop k s limit complete [] os with
        | none => none
        | some (.ok buf, io', os') => some (.ok (if buf = [] then none else some buf), io', os')
        | some (.error e, io', os') => some (.error e, io', os')

/-- Bytes of the character a lead byte announces, for `IO#getc` on a UTF-8 stream:
`read_one_char`, `builtins/io.rs` l.3348-3360. -/
def charTotal (b : Byte) : Nat :=
  if b &&& 0x80 = 0 then 1
  else if b &&& 0xe0 = 0xc0 then 2
  else if b &&& 0xf0 = 0xe0 then 3
  else if b &&& 0xf8 = 0xf0 then 4
  else 1

/-- The continuation loop of `read_one_char`, `builtins/io.rs` l.3361-3369, with
`read_more_char_bytes` l.3375-3385: the bytes gathered so far are pushed back on a *signal*, not
when the read would block. -/
def Io.charLoop (k : Nat) (io : Io) (total : Nat) (buf : List Byte) (os : ROs) :
    IoRes (List Byte) :=
  match k with
  | 0 => none
  | k + 1 =>
    if buf.length < total then
      match io.readImpl (some (total - buf.length)) false os with
      | none => none
      | some (.ok next, io', os') =>
        if next = [] then some (.ok buf, io', os')
        else io'.charLoop k total (buf ++ next) os'
      | some (.error e, io', os') =>
        if e = .intr ∧ buf ≠ [] then some (.error e, io'.ungetQuiet buf, os')
        else some (.error e, io', os')
    else some (.ok buf, io, os)

/-- `read_one_char`, `builtins/io.rs` l.3343-3371 (UTF-8). -/
def Io.readChar (io : Io) (os : ROs) : IoRes (List Byte) :=
  match io.readImpl (some 1) false os with
  | none => none
  | some (.ok first, io', os') =>
    match first with
    | [] => some (.ok [], io', os')
    | b :: _ => io'.charLoop 5 (charTotal b) first os'
  | some (.error e, io', os') => some (.error e, io', os')

/-- `IO#eof?`, `io_eof_`, `builtins/io.rs` l.3284-3316, one attempt of its read included; the
final `unget` raises on standard input (`hard`). -/
def Io.eof (io : Io) (os : ROs) : IoRes Bool :=
  if 0 < io.pushback.length ∨ io.rd.buffer ≠ [] then some (.ok false, io, os)
  else
    match io.readImpl (some 1) true os with
    | none => none
    | some (.error e, io', os') => some (.error e, io', os')
    | some (.ok buf, io', os') =>
      if buf = [] then some (.ok true, io', os')
      else if io'.kind = .file ∧ (io'.rd.seek (.current (-1))).1.isSome then
        some (.ok false, { io' with rd := (io'.rd.seek (.current (-1))).2 }, os')
      else
        match io'.unget buf with
        | none => some (.error .hard, io', os')
        | some io'' => some (.ok false, io'', os')

/-- The retry loop around a reading operation: `blocking_io_region`, `builtins/io.rs`
l.1411-1500.  A signal runs the VM's poll point and retries, a would-block parks the thread and
retries; nothing else happens to the stream in between (simplification).  `k` bounds the
retries. -/
def Io.retry {α : Type} (f : Io → ROs → IoRes α) (k : Nat) (io : Io) (os : ROs) : IoRes α :=
  match k with
  | 0 => none
  | k + 1 =>
    match f io os with
    | none => none
    | some (.error .intr, io', os') => Io.retry f k io' os'
    | some (.error .block, io', os') => Io.retry f k io' os'
    | some (r, io', os') => some (r, io', os')

end Verif.IoBuf
