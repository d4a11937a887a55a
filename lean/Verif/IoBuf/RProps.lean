import Verif.IoBuf.IoLemmas

/-!
# C21: buffered reads return exactly the file's bytes

The buffered reader is compared with a file that has no buffer at all: its content and one
position.
-/

namespace Verif.IoBuf

/-- An unbuffered file: content, whether it can seek, and the one position. -/
structure Plain where
  data : List Byte
  seekable : Bool
  pos : Nat
deriving DecidableEq, Repr

/-- Where an unbuffered file is asked to go. -/
def Plain.target (f : Plain) : Whence → Int
  | .start n => n
  | .current n => f.pos + n
  | .fromEnd n => f.data.length + n

/-- The reader seen as an unbuffered file. -/
def Reader.plain (r : Reader) : Plain := ⟨r.fd.data, r.fd.seekable, r.lp⟩

/-- What one operation may do to an unbuffered file: `ReadStep f want res f'`. -/
def ReadStep (f : Plain) (want : Nat) : Except RErr (List Byte) → Plain → Prop
  | .ok bs, f' =>
    f'.data = f.data ∧ f'.seekable = f.seekable ∧
    -- the bytes at the position, no more than asked for
    f.data.drop f.pos = bs ++ f.data.drop f'.pos ∧ f'.pos = f.pos + bs.length ∧
    bs.length ≤ want ∧
    -- nothing only at the end of the file
    (bs = [] → want = 0 ∨ f.data.length ≤ f.pos)
  | .error _, f' => f' = f

theorem plain_ext {f g : Plain} (h1 : f.data = g.data) (h2 : f.seekable = g.seekable)
    (h3 : f.pos = g.pos) : f = g := by
  cases f; cases g; simp_all

/-- **C21.**  A read through the buffer returns bytes of the file from the position on, at most
as many as asked for, and none only at the end of the file; it moves the position by exactly what
it returned.  A read that fails leaves the position alone. -/
theorem C21_read {r : Reader} {want : Nat} {os os' : ROs} {res : Except RErr (List Byte)}
    {r' : Reader} (hI : r.Inv) (h : r.read want os = some (res, r', os')) :
    r'.Inv ∧ ReadStep r.plain want res r'.plain := by
  cases res with
  | ok bs =>
    obtain ⟨a, b, c, d, e, f, _⟩ := reader_rdSpec.ok hI h
    refine ⟨a, congrArg Prod.fst b, congrArg Prod.snd b, ?_, d, e, f⟩
    exact slice_split c d
  | error e =>
    obtain ⟨a, b, c, _⟩ := reader_rdSpec.err hI h
    exact ⟨a, plain_ext (congrArg Prod.fst b) (congrArg Prod.snd b) c⟩

example : (Reader.new ⟨[1, 2, 3, 4, 5], 0, true⟩).Inv := inv_new _

/-- The state after reading two of five bytes: two consumed, two more in the buffer. -/
def sampleReader : Reader := ⟨⟨[1, 2, 3, 4, 5], 4, true⟩, [1, 2, 3, 4] ++ List.replicate 8188 0, 2, 4⟩

example : sampleReader.Inv ∧ sampleReader.plain.pos = 2 ∧ sampleReader.buffer = [3, 4] := by
  have hb : sampleReader.buffer = [3, 4] := by
    unfold sampleReader Reader.buffer
    generalize List.replicate 8188 (0 : Byte) = z
    rfl
  have hl : sampleReader.arr.length = 8192 := by
    unfold sampleReader
    simp only [List.length_append, List.length_replicate, List.length_cons, List.length_nil]
  exact ⟨⟨hl, by decide, by rw [hl]; decide, by decide, by rw [hb]; rfl⟩, rfl, hb⟩

/-- **C21.**  Peeking returns bytes of the file at the position, none only at the end of the
file, and does not move it; consuming moves it by what is consumed. -/
theorem C21_peek_consume {r : Reader} {os os' : ROs} {res : Except RErr (List Byte)}
    {r' : Reader} (hI : r.Inv) (h : r.fillBuf os = some (res, r', os')) :
    r'.Inv ∧ r'.plain = r.plain ∧
    ∀ bs, res = .ok bs →
      bs = (r.fd.data.drop r.lp).take bs.length ∧ (bs = [] → r.fd.data.length ≤ r.lp) ∧
      ∀ n, n ≤ bs.length → (r'.consume n).Inv ∧ (r'.consume n).plain
        = { r.plain with pos := r.plain.pos + n } := by
  cases res with
  | ok bs =>
    obtain ⟨f1, f2, f3, f4, f5, f6, _⟩ := fillBuf_ok hI h
    refine ⟨f1, plain_ext (congrArg Prod.fst f2) (congrArg Prod.snd f2) f3, ?_⟩
    intro bs' hbs
    simp only [Except.ok.injEq] at hbs
    subst hbs
    refine ⟨f5, f6, ?_⟩
    intro n hn
    have hbl := buffer_length f1
    rw [f4] at hbl
    obtain ⟨c1, c2, c3, _⟩ := consume_spec f1 n (by omega)
    refine ⟨c1, plain_ext ?_ ?_ ?_⟩
    · exact (congrArg Prod.fst c3).trans (congrArg Prod.fst f2)
    · exact (congrArg Prod.snd c3).trans (congrArg Prod.snd f2)
    · show (r'.consume n).lp = r.lp + n
      rw [c2, f3]
  | error e =>
    obtain ⟨f1, f2, f3, _⟩ := fillBuf_err hI h
    exact ⟨f1, plain_ext (congrArg Prod.fst f2) (congrArg Prod.snd f2) f3, by simp⟩

/-- What `lseek(2)` does to an unbuffered file. -/
def SeekStep (f : Plain) (w : Whence) : Option Nat → Plain → Prop
  | some p, f' =>
    f.seekable = true ∧ 0 ≤ f.target w ∧ f.target w ≤ offMax ∧ (p : Int) = f.target w ∧
    f' = { f with pos := p }
  | none, f' => (f.seekable = false ∨ f.target w < 0 ∨ offMax < f.target w) ∧ f' = f

theorem fd_seek_cases (fd : Fd) (w : Whence) :
    ((fd.seekable = false ∨ fd.target w < 0 ∨ offMax < fd.target w) ∧ fd.seek w = (none, fd)) ∨
    (fd.seekable = true ∧ 0 ≤ fd.target w ∧ fd.target w ≤ offMax ∧
      fd.seek w = (some (fd.target w).toNat, { fd with off := (fd.target w).toNat })) := by
  unfold Fd.seek
  by_cases h : fd.seekable = false ∨ fd.target w < 0 ∨ offMax < fd.target w
  · left; exact ⟨h, if_pos h⟩
  · right
    have h' := h
    simp only [not_or, Bool.not_eq_false] at h'
    exact ⟨h'.1, by omega, by omega, if_neg h⟩

/-- **C21.**  A seek lands exactly where an unbuffered file would land and reports that position,
for every origin and every offset, whatever is buffered; it fails exactly when the unbuffered
seek would fail (an unseekable stream, a negative target, one that does not fit an offset), and a
failed seek leaves the position where it was.  The hypotheses on sizes are the types of the
program: the offset argument is an `i64`, and so is every offset of a descriptor. -/
theorem C21_seek {r : Reader} {w : Whence} (hI : r.Inv) (hoff : (r.fd.off : Int) ≤ offMax)
    (hn : ∀ n, w = .current n → i64Min ≤ n ∧ n ≤ offMax) :
    (r.seek w).2.Inv ∧ SeekStep r.plain w (r.seek w).1 (r.seek w).2.plain := by
  have h3 := hI.le
  have hlp : r.lp + (r.cap - r.pos) = r.fd.off := by unfold Reader.lp; omega
  have hcap : r.cap - r.pos ≤ 8192 := by
    have h1 := hI.cl; have h2 := hI.len; simp [ioBufCapa] at h2; omega
  have keep : ∀ fd : Fd, fd = r.fd → ({ r with fd := fd } : Reader).Inv ∧
      ({ r with fd := fd } : Reader).plain = r.plain := by
    intro fd h; subst h; exact ⟨hI, rfl⟩
  have disc : ∀ off : Nat,
      ({ r with fd := { r.fd with off := off } } : Reader).discard.Inv ∧
      ({ r with fd := { r.fd with off := off } } : Reader).discard.plain
        = { r.plain with pos := off } := by
    intro off
    exact ⟨inv_discard hI.len, rfl⟩
  have plainCase : ∀ w : Whence, (∀ fd : Fd, fd.data = r.fd.data → fd.target w = r.plain.target w) →
      (match r.fd.seek w with
        | (none, fd) => ((none, { r with fd := fd }) : Option Nat × Reader)
        | (some p, fd) => (some p, { r with fd := fd }.discard)).2.Inv ∧
      SeekStep r.plain w
        (match r.fd.seek w with
          | (none, fd) => ((none, { r with fd := fd }) : Option Nat × Reader)
          | (some p, fd) => (some p, { r with fd := fd }.discard)).1
        (match r.fd.seek w with
          | (none, fd) => ((none, { r with fd := fd }) : Option Nat × Reader)
          | (some p, fd) => (some p, { r with fd := fd }.discard)).2.plain := by
    intro w ht
    have ht := ht r.fd rfl
    rcases fd_seek_cases r.fd w with ⟨hc, he⟩ | ⟨hs, h0, hm, he⟩
    · rw [he]
      rw [ht] at hc
      exact ⟨(keep _ rfl).1, hc, (keep _ rfl).2⟩
    · rw [he]
      rw [ht] at h0 hm
      refine ⟨(disc _).1, hs, h0, hm, ?_, ?_⟩
      · rw [ht]; omega
      · exact (disc _).2
  cases w with
  | start n => exact plainCase (.start n) (fun _ _ => rfl)
  | fromEnd n => exact plainCase (.fromEnd n) (fun fd h => by simp [Fd.target, Plain.target, Reader.plain, h])
  | current n =>
    obtain ⟨hn1, hn2⟩ := hn n rfl
    unfold Reader.seek
    dsimp only
    by_cases hov : n - ((r.cap - r.pos : Nat) : Int) ≥ i64Min
    · rw [if_pos hov]
      have htgt : r.fd.target (.current (n - ((r.cap - r.pos : Nat) : Int)))
          = r.plain.target (.current n) := by
        simp only [Fd.target, Plain.target, Reader.plain]; omega
      rcases fd_seek_cases r.fd (.current (n - ((r.cap - r.pos : Nat) : Int))) with
        ⟨hc, he⟩ | ⟨hs, h0, hm, he⟩
      · rw [he]
        rw [htgt] at hc
        exact ⟨(keep _ rfl).1, hc, (keep _ rfl).2⟩
      · rw [he]
        rw [htgt] at h0 hm
        refine ⟨(disc _).1, hs, h0, hm, ?_, ?_⟩
        · rw [htgt]; omega
        · exact (disc _).2
    · rw [if_neg hov]
      have htgt : r.fd.target (.current (-((r.cap - r.pos : Nat) : Int))) = r.lp := by
        simp only [Fd.target]; omega
      have hneg : r.plain.target (.current n) < 0 := by
        simp only [Plain.target, Reader.plain]
        unfold i64Min at hov
        unfold offMax at hoff
        omega
      rcases fd_seek_cases r.fd (.current (-((r.cap - r.pos : Nat) : Int))) with
        ⟨hc, he⟩ | ⟨hs, h0, hm, he⟩
      · rw [he]
        exact ⟨(keep _ rfl).1, Or.inr (Or.inl hneg), (keep _ rfl).2⟩
      · rw [he]
        dsimp only
        rw [htgt]
        rcases fd_seek_cases { r.fd with off := (r.lp : Int).toNat } (.current n) with
          ⟨hc, he'⟩ | ⟨hs', h0', hm', he'⟩
        · rw [he']
          exact ⟨(disc _).1, Or.inr (Or.inl hneg), (disc _).2⟩
        · exfalso
          simp only [Fd.target] at h0'
          simp only [Plain.target, Reader.plain] at hneg
          omega

/-- A relative seek with two bytes buffered, and one that cannot be done. -/
example : (sampleReader.seek (.current 1)).1 = some 3 ∧
    (sampleReader.seek (.current (-3))).1 = none ∧
    (sampleReader.seek (.current i64Min)).1 = none ∧
    (sampleReader.seek (.current i64Min)).2.plain.pos = 2 ∧
    (sampleReader.seek (.fromEnd (-1))).2.plain.pos = 4 := by decide

/-! ### Whole histories -/

/-- What a program does with a reader. -/
inductive ROp where
  | read (want : Nat)
  | seek (w : Whence)
deriving DecidableEq, Repr

/-- What it sees. -/
inductive ROut where
  | read (res : Except RErr (List Byte))
  | seek (res : Option Nat)

/-- Run operations on the buffered reader. -/
def Reader.run (r : Reader) (os : ROs) : List ROp → Option (List ROut × Reader × ROs)
  | [] => some ([], r, os)
  | .read want :: ops =>
    match r.read want os with
    | none => none
    | some (res, r', os') =>
      match r'.run os' ops with
      | none => none
      | some (outs, r'', os'') => some (.read res :: outs, r'', os'')
  | .seek w :: ops =>
    match (r.seek w).2.run os ops with
    | none => none
    | some (outs, r'', os'') => some (.seek (r.seek w).1 :: outs, r'', os'')

/-- The same observations are possible on the unbuffered file `f`. -/
def PlainRun : Plain → List ROp → List ROut → Plain → Prop
  | f, [], [], f' => f' = f
  | f, .read want :: ops, .read res :: outs, f' =>
    ∃ f₁, ReadStep f want res f₁ ∧ PlainRun f₁ ops outs f'
  | f, .seek w :: ops, .seek res :: outs, f' =>
    ∃ f₁, SeekStep f w res f₁ ∧ PlainRun f₁ ops outs f'
  | _, _, _, _ => False

/-- The offsets of a history fit the program's types. -/
def ROp.wf : ROp → Prop
  | .read _ => True
  | .seek (.current n) => i64Min ≤ n ∧ n ≤ offMax
  | .seek _ => True

/-- The kernel's offset never leaves its type: reads stop at the end of the file, seeks are
checked. -/
def Fd.inRange (fd : Fd) : Prop := (fd.off : Int) ≤ offMax ∧ (fd.data.length : Int) ≤ offMax

theorem fdRead_inRange {fd : Fd} {want : Nat} {os os' : ROs} {res : Except RErr (List Byte)}
    {fd' : Fd} (hr : fd.inRange) (h : fd.read want os = some (res, fd', os')) : fd'.inRange := by
  unfold Fd.read at h
  split at h
  · cases h
  · simp only [Option.some.injEq, Prod.mk.injEq] at h
    obtain ⟨_, rfl, _⟩ := h
    refine ⟨?_, hr.2⟩
    have h1 := hr.1; have h2 := hr.2
    simp only [List.length_take, List.length_drop]
    omega
  all_goals
    simp only [Option.some.injEq, Prod.mk.injEq] at h
    obtain ⟨_, rfl, _⟩ := h
    exact hr

theorem fillBuf_inRange {r : Reader} {os os' : ROs} {res : Except RErr (List Byte)}
    {r' : Reader} (hr : r.fd.inRange) (h : r.fillBuf os = some (res, r', os')) :
    r'.fd.inRange := by
  unfold Reader.fillBuf at h
  split at h
  · split at h
    · cases h
    all_goals
      rename_i hf
      simp only [Option.some.injEq, Prod.mk.injEq] at h
      obtain ⟨_, rfl, _⟩ := h
      exact fdRead_inRange hr hf
  · simp only [Option.some.injEq, Prod.mk.injEq] at h
    obtain ⟨_, rfl, _⟩ := h
    exact hr

theorem read_inRange {r : Reader} {want : Nat} {os os' : ROs} {res : Except RErr (List Byte)}
    {r' : Reader} (hr : r.fd.inRange) (h : r.read want os = some (res, r', os')) :
    r'.fd.inRange := by
  unfold Reader.read at h
  split at h
  · split at h
    · cases h
    · rename_i hf
      simp only [Option.some.injEq, Prod.mk.injEq] at h
      obtain ⟨_, rfl, _⟩ := h
      exact fdRead_inRange hr hf
  · split at h
    · cases h
    all_goals
      rename_i hf
      simp only [Option.some.injEq, Prod.mk.injEq] at h
      obtain ⟨_, rfl, _⟩ := h
      have := fillBuf_inRange hr hf
      exact this

theorem fdSeek_inRange {fd : Fd} {w : Whence} (hr : fd.inRange) : (fd.seek w).2.inRange := by
  rcases fd_seek_cases fd w with ⟨_, he⟩ | ⟨_, h0, hm, he⟩
  · rw [he]; exact hr
  · rw [he]; exact ⟨by show ((fd.target w).toNat : Int) ≤ offMax; omega, hr.2⟩

theorem seek_inRange {r : Reader} {w : Whence} (hr : r.fd.inRange) :
    (r.seek w).2.fd.inRange := by
  have h1 : ∀ w, (r.fd.seek w).2.inRange := fun w => fdSeek_inRange hr
  cases w with
  | start n =>
    have := h1 (.start n)
    unfold Reader.seek
    dsimp only
    split <;> (rename_i he; rw [he] at this; exact this)
  | fromEnd n =>
    have := h1 (.fromEnd n)
    unfold Reader.seek
    dsimp only
    split <;> (rename_i he; rw [he] at this; exact this)
  | current n =>
    unfold Reader.seek
    dsimp only
    split
    · have := h1 (.current (n - ((r.cap - r.pos : Nat) : Int)))
      split <;> (rename_i he; rw [he] at this; exact this)
    · have := h1 (.current (-((r.cap - r.pos : Nat) : Int)))
      split
      · rename_i he; rw [he] at this; exact this
      · rename_i he
        rw [he] at this
        have := fdSeek_inRange (w := .current n) this
        split <;> (rename_i he'; rw [he'] at this; exact this)

/-- **C21.**  Whatever sequence of reads and seeks a program performs, and whatever the kernel
does, what the program sees through the buffer is something it could have seen on the same file
without a buffer: every read returns the bytes at the one position, every seek lands where an
unbuffered seek lands, errors change nothing. -/
theorem C21_refines_unbuffered (ops : List ROp) (hops : ∀ op ∈ ops, op.wf) :
    ∀ (r : Reader) (os : ROs) (outs : List ROut) (r' : Reader) (os' : ROs),
      r.Inv → r.fd.inRange → r.run os ops = some (outs, r', os') →
      PlainRun r.plain ops outs r'.plain := by
  induction ops with
  | nil =>
    intro r os outs r' os' _ _ h
    simp [Reader.run] at h
    obtain ⟨rfl, rfl, rfl⟩ := h
    rfl
  | cons op ops ih =>
    intro r os outs r' os' hI hr h
    have ih := ih (fun op h => hops op (List.mem_cons_of_mem _ h))
    cases op with
    | read want =>
      unfold Reader.run at h
      split at h
      · cases h
      · rename_i res r₁ os₁ hrd
        split at h
        · cases h
        · rename_i outs₁ r₂ os₂ hrun
          simp only [Option.some.injEq, Prod.mk.injEq] at h
          obtain ⟨rfl, rfl, rfl⟩ := h
          obtain ⟨c1, c2⟩ := C21_read hI hrd
          exact ⟨_, c2, ih _ _ _ _ _ c1 (read_inRange hr hrd) hrun⟩
    | seek w =>
      unfold Reader.run at h
      split at h
      · cases h
      · rename_i outs₁ r₂ os₂ hrun
        simp only [Option.some.injEq, Prod.mk.injEq] at h
        obtain ⟨rfl, rfl, rfl⟩ := h
        have hwf := hops _ (List.mem_cons_self ..)
        obtain ⟨c1, c2⟩ := C21_seek (w := w) hI hr.1 (by
          intro n hn; subst hn; exact hwf)
        exact ⟨_, c2, ih _ _ _ _ _ c1 (seek_inRange hr) hrun⟩

/-- Reads and seeks on a seven-byte file with short reads and an interrupt. -/
example :
    ((Reader.new ⟨[1, 2, 3, 4, 5, 6, 7], 0, true⟩).run ⟨[], [.ready 3, .eintr, .ready 9]⟩
        [.read 2, .read 5, .seek (.current (-1)), .read 1, .read 2]).map (fun r => r.1.map
          (fun o => match o with | .read (.ok bs) => bs | .read _ => [99] | .seek p => [p.getD 77 |>.toUInt8]))
      = some [[1, 2], [3, 4], [3], [99], [4, 5]] := by
  decide +kernel

end Verif.IoBuf
