import Verif.IoBuf.RwModel
import Verif.IoBuf.WLemmas
import Verif.IoBuf.IoProps

/-!
# C45: a file opened for reading and writing is one file with one position
-/

namespace Verif.IoBuf

/-! ### The specification: content and one position -/

/-- A file without any buffer. -/
structure AFile where
  data : List Byte
  pos : Nat
deriving DecidableEq, Repr

/-- Content after writing `bs` at `pos`, byte by byte: what was written wins, otherwise what was
there, otherwise (in a gap past the old end) zero. -/
def AFile.wrote (f : AFile) (bs : List Byte) (f' : AFile) : Prop :=
  f'.pos = f.pos + bs.length ∧
  (bs = [] → f'.data = f.data) ∧
  (bs ≠ [] → f'.data.length = max f.data.length (f.pos + bs.length) ∧
    ∀ i, i < f'.data.length → f'.data[i]? = some
      (if f.pos ≤ i ∧ i < f.pos + bs.length then bs[i - f.pos]?.getD 0 else f.data[i]?.getD 0))

/-- Where a seek goes. -/
def AFile.target (f : AFile) : Whence → Int
  | .start n => n
  | .current n => f.pos + n
  | .fromEnd n => f.data.length + n

/-- What one operation does to a file without buffers. -/
def AStep (f : AFile) : FOp → FOut → AFile → Prop
  | .write _ _, .wrote bs, f' => f.wrote bs f'
  | .read n, .bytes bs, f' => bs = (f.data.drop f.pos).take n ∧ f' = { f with pos := f.pos + bs.length }
  | .getbytes n, .bytes bs, f' =>
    bs = (f.data.drop f.pos).take n ∧ f' = { f with pos := f.pos + bs.length }
  | .seek w, .at p, f' => (p : Int) = f.target w ∧ f' = { f with pos := p }
  | .pos, .at p, f' => p = f.pos ∧ f' = f
  | _, _, _ => False

/-- A whole history of it. -/
def ARun : AFile → List FOp → List FOut → AFile → Prop
  | f, [], [], f' => f' = f
  | f, op :: ops, o :: outs, f' => ∃ m, AStep f op o m ∧ ARun m ops outs f'
  | _, _, _, _ => False

/-! ### Patching -/

theorem patch_nil (d : List Byte) (o : Nat) : patch d o [] = d := by simp [patch]

theorem pad_take_length (d : List Byte) (o : Nat) :
    ((d ++ List.replicate (o - d.length) (0 : Byte)).take o).length = o := by
  simp; omega

theorem patch_length (d : List Byte) (o : Nat) (bs : List Byte) (h : bs ≠ []) :
    (patch d o bs).length = max d.length (o + bs.length) := by
  unfold patch
  rw [if_neg h, List.length_append, List.length_append, pad_take_length, List.length_drop]
  omega

theorem patch_ne (d : List Byte) (o : Nat) {bs : List Byte} (h : bs ≠ []) :
    patch d o bs = (d ++ List.replicate (o - d.length) 0).take o ++ bs
      ++ d.drop (o + bs.length) := by
  unfold patch; rw [if_neg h]

theorem patch_append (d : List Byte) (o : Nat) (a b : List Byte) :
    patch (patch d o a) (o + a.length) b = patch d o (a ++ b) := by
  by_cases ha : a = []
  · subst ha; simp [patch_nil]
  by_cases hb : b = []
  · subst hb; simp [patch_nil]
  have hl := patch_length d o a ha
  have hab : a ++ b ≠ [] := by simp [ha]
  rw [patch_ne (patch d o a) (o + a.length) hb]
  have h0 : o + a.length - (patch d o a).length = 0 := by omega
  rw [h0, List.replicate_zero, List.append_nil]
  have e := patch_ne d o ha
  have hpl : ((d ++ List.replicate (o - d.length) (0 : Byte)).take o ++ a).length = o + a.length := by
    rw [List.length_append, pad_take_length]
  rw [e]
  rw [List.take_append_of_le_length (by omega), List.take_of_length_le (by omega)]
  rw [List.drop_append, List.drop_eq_nil_of_le (by omega), List.nil_append, hpl, List.drop_drop]
  rw [patch_ne d o hab, List.length_append]
  have e2 : o + a.length + (o + a.length + b.length - (o + a.length)) = o + (a.length + b.length) := by
    omega
  rw [e2]
  simp

theorem patch_wrote (d : List Byte) (o : Nat) (bs : List Byte) :
    AFile.wrote ⟨d, o⟩ bs ⟨patch d o bs, o + bs.length⟩ := by
  refine ⟨rfl, fun h => by simp only [h, patch_nil], fun h => ⟨patch_length d o bs h, ?_⟩⟩
  intro i hi
  have hl := patch_length d o bs h
  dsimp only at hi ⊢
  unfold patch
  rw [if_neg h]
  by_cases h1 : i < o
  · rw [if_neg (by omega), List.append_assoc, List.getElem?_append_left (by rw [pad_take_length]; exact h1),
      List.getElem?_take_of_lt h1]
    by_cases h2 : i < d.length
    · rw [List.getElem?_append_left h2, List.getElem?_eq_getElem h2]; rfl
    · rw [List.getElem?_append_right (by omega), List.getElem?_replicate, if_pos (by omega),
        List.getElem?_eq_none (by omega)]
      rfl
  · by_cases h2 : i < o + bs.length
    · rw [if_pos ⟨by omega, h2⟩, List.append_assoc,
        List.getElem?_append_right (by rw [pad_take_length]; omega), pad_take_length,
        List.getElem?_append_left (by omega), List.getElem?_eq_getElem (by omega)]
      rfl
    · rw [if_neg (by omega),
        List.getElem?_append_right (by rw [List.length_append, pad_take_length]; omega),
        List.length_append, pad_take_length, List.getElem?_drop]
      have e : o + bs.length + (i - (o + bs.length)) = i := by omega
      rw [e, List.getElem?_eq_getElem (by omega)]
      rfl

/-! ### The abstraction -/

/-- Nothing is read ahead: the reader's buffer is empty. -/
def Rw.clean (s : Rw) : Prop := s.io.rd.pos = s.io.rd.cap

/-- Well-formed: what waits in the write buffer belongs at the descriptor's offset, so nothing may
be read ahead then. -/
structure Rw.Inv (s : Rw) : Prop where
  rd : s.io.rd.Inv
  kind : s.io.kind = .file
  pb : s.io.pushback = []
  off : (s.io.rd.fd.off : Int) ≤ offMax
  len : (s.io.rd.fd.data.length : Int) ≤ offMax
  pend : s.wb.buf ≠ [] → s.clean

/-- The file a program has in mind: everything written is in it, and the position is behind the
last byte read or written. -/
def Rw.file (s : Rw) : AFile :=
  ⟨patch s.io.rd.fd.data s.io.rd.fd.off s.wb.buf,
    if s.wb.buf = [] then s.io.rd.lp else s.io.rd.fd.off + s.wb.buf.length⟩

theorem clean_lp {s : Rw} (h : s.clean) : s.io.rd.lp = s.io.rd.fd.off := by
  unfold Reader.lp; unfold Rw.clean at h; omega

theorem file_clean {s : Rw} (h : s.clean) :
    s.file = ⟨patch s.io.rd.fd.data s.io.rd.fd.off s.wb.buf, s.io.rd.fd.off + s.wb.buf.length⟩ := by
  unfold Rw.file
  by_cases hb : s.wb.buf = []
  · rw [if_pos hb, hb, clean_lp h]; rfl
  · rw [if_neg hb]

theorem land_spec {s s' : Rw} {took : List Byte} {wb : WriteBuf} (hI : s.Inv)
    (hc : took ≠ [] → s.clean) (hpend : wb.buf ≠ [] → s.clean)
    (h : s.land took wb = some s') :
    s'.Inv ∧ s'.wb = wb ∧ (s.clean → s'.clean) ∧
    s'.io.rd.fd.data = patch s.io.rd.fd.data s.io.rd.fd.off took ∧
    s'.io.rd.fd.off = s.io.rd.fd.off + took.length ∧
    (s'.io.rd.lp = s.io.rd.lp + took.length) := by
  unfold Rw.land at h
  split at h
  · cases h
  · rename_i fd hput
    simp only [Option.some.injEq] at h
    subst h
    unfold Fd.put at hput
    split at hput
    · rename_i h0
      simp only [Option.some.injEq] at hput
      subst hput
      subst h0
      refine ⟨⟨hI.rd, hI.kind, hI.pb, hI.off, hI.len, hpend⟩, rfl, fun h => h, ?_, rfl, rfl⟩
      rw [patch_nil]
    · rename_i h0
      split at hput
      · cases hput
      · rename_i hmax
        simp only [Option.some.injEq] at hput
        subst hput
        have hcl := hc h0
        have hz : s.io.rd.cap - s.io.rd.pos = 0 := by unfold Rw.clean at hcl; omega
        refine ⟨⟨⟨hI.rd.len, hI.rd.pc, hI.rd.cl, ?_, ?_⟩, hI.kind, hI.pb, ?_, ?_, fun _ => hcl⟩,
          rfl, fun h => h, rfl, rfl, ?_⟩
        · show s.io.rd.cap - s.io.rd.pos ≤ _
          rw [hz]; exact Nat.zero_le _
        · have hb := hI.rd.buf
          rw [hz] at hb
          show s.io.rd.buffer = (List.drop _ _).take (s.io.rd.cap - s.io.rd.pos)
          rw [hb, hz]; simp
        · show ((s.io.rd.fd.off + took.length : Nat) : Int) ≤ offMax
          omega
        · show ((patch s.io.rd.fd.data s.io.rd.fd.off took).length : Int) ≤ offMax
          rw [patch_length _ _ _ h0]
          have := hI.len
          omega
        · show s.io.rd.fd.off + took.length - (s.io.rd.cap - s.io.rd.pos)
              = s.io.rd.fd.off - (s.io.rd.cap - s.io.rd.pos) + took.length
          rw [hz]; omega

/-- Draining moves bytes from the write buffer to the file; the file a program has in mind does
not change. -/
theorem rwDrain_spec {s s' : Rw} {os os' : WOs} (hI : s.Inv) (h : s.drain os = some (s', os')) :
    s'.Inv ∧ s'.wb.buf = [] ∧ s'.file = s.file ∧ (s.clean → s'.clean) := by
  unfold Rw.drain at h
  split at h
  · rename_i took wb os₁ hd
    split at h
    · cases h
    · rename_i s₁ hl
      simp only [Option.some.injEq, Prod.mk.injEq] at h
      obtain ⟨rfl, rfl⟩ := h
      obtain ⟨d1, _, _, d4, _, _⟩ := drain_spec hd
      have hwb := d4 rfl
      rw [hwb, List.append_nil] at d1
      subst d1
      obtain ⟨l1, l2, l3, l4, l5, l6⟩ := land_spec hI hI.pend (by rw [hwb]; simp) hl
      refine ⟨l1, by rw [l2, hwb], ?_, l3⟩
      by_cases hb : s.wb.buf = []
      · unfold Rw.file
        rw [l2, hwb, l4, l5, l6, hb]
        simp [patch_nil]
      · have hcl := hI.pend hb
        rw [file_clean hcl, file_clean (l3 hcl), l2, hwb, l4, l5, patch_nil]
        rfl
  · cases h

/-- **C45.**  A write with nothing read ahead: the bytes the stream accepted are written at the
position, and the position is behind them; whether they are still in the buffer or have reached
the descriptor, and however the kernel split, refused or interrupted the writing. -/
theorem C45_write_partial {s s' : Rw} {data : List Byte} {p p' : Nat} {os os' : WOs} {res : WRes}
    (hI : s.Inv) (hc : s.clean) (hp : p ≤ data.length)
    (h : s.write data p os = some (res, p', s', os')) :
    s'.Inv ∧ s'.clean ∧ s.file.wrote ((data.take p').drop p) s'.file ∧
    (res = .ok () → p' = data.length) := by
  unfold Rw.write at h
  split at h
  · cases h
  · rename_i res₁ p₁ took wb os₁ hw
    split at h
    · cases h
    · rename_i s₁ hl
      simp only [Option.some.injEq, Prod.mk.injEq] at h
      obtain ⟨rfl, rfl, rfl, rfl⟩ := h
      obtain ⟨_, _, w3, _, _, w6, _⟩ := write_spec hw hp
      obtain ⟨l1, l2, l3, l4, l5, l6⟩ := land_spec hI (fun _ => hc) (fun _ => hc) hl
      refine ⟨l1, l3 hc, ?_, w6⟩
      have e : s₁.file = ⟨patch (patch s.io.rd.fd.data s.io.rd.fd.off s.wb.buf)
          (s.io.rd.fd.off + s.wb.buf.length) ((data.take p₁).drop p),
          s.io.rd.fd.off + s.wb.buf.length + ((data.take p₁).drop p).length⟩ := by
        rw [file_clean (l3 hc), l2, l4, l5, patch_append, w3, ← patch_append]
        have := congrArg List.length w3
        rw [List.length_append, List.length_append] at this
        congr 1
        omega
      rw [e, file_clean hc]
      exact patch_wrote _ _ _

/-- `read(n)` on a file with an empty reader buffer leaves it empty. -/
theorem readUnderlying_clean {io io' : Io} {n : Nat} {os os' : ROs} {bs : List Byte}
    (hk : io.kind = .file) (hc : io.rd.pos = io.rd.cap)
    (h : io.readUnderlying (some n) true os = some (.ok bs, io', os')) :
    io'.rd.pos = io'.rd.cap := by
  have hcl : ∀ m, (io.rd.consume m).pos = (io.rd.consume m).cap := by
    intro m; simp only [Reader.consume]; omega
  have fin : ∀ {io₁ io' : Io} {res : Except RErr Unit} {buf bs : List Byte} {os os' : ROs},
      io₁.finishRead res buf os = some (.ok bs, io', os') → io' = io₁ := by
    intro io₁ io' res buf bs os os' h
    unfold Io.finishRead at h
    split at h
    · simp only [Option.some.injEq, Prod.mk.injEq] at h; exact h.2.1.symm
    · split at h <;> simp at h
  unfold Io.readUnderlying at h
  simp only [hk, and_self, if_true] at h
  split at h
  · split at h
    · cases h
    · rw [fin h]; exact hcl _
  · rw [fin h]; exact hcl _

/-- **C45.**  A read returns the bytes of the file at the position, those included that are still
waiting in the write buffer, and moves the position behind them.  `read(n)` reads nothing
ahead. -/
theorem C45_read {s s' : Rw} {n : Nat} {exact' : Bool} {wos wos' : WOs} {ros ros' : ROs}
    {bs : List Byte} (hI : s.Inv) (h : s.read n exact' wos ros = some (bs, s', wos', ros')) :
    s'.Inv ∧ bs = (s.file.data.drop s.file.pos).take n ∧
    s'.file = { s.file with pos := s.file.pos + bs.length } ∧
    (exact' = true → s.clean → s'.clean) := by
  unfold Rw.read at h
  split at h
  · cases h
  · rename_i s₁ wos₁ hd
    obtain ⟨d1, d2, d3, d4⟩ := rwDrain_spec hI hd
    split at h
    · rename_i bs₁ io₁ ros₁ hr
      simp only [Option.some.injEq, Prod.mk.injEq] at h
      obtain ⟨rfl, rfl, rfl, rfl⟩ := h
      have himpl : s₁.io.readImpl (some n) exact' ros = s₁.io.readUnderlying (some n) exact' ros := by
        unfold Io.readImpl; rw [d1.pb]; rfl
      rw [himpl] at hr
      have hIo : s₁.io.Inv := ⟨d1.rd, fun _ => d1.pb⟩
      obtain ⟨u1, u2, _⟩ := readUnderlying_spec hIo d1.pb hr
      obtain ⟨⟨v1, v2⟩, v3, _⟩ := u2 _ rfl
      obtain ⟨v4, v5⟩ := v3 n rfl
      have hrest : s₁.io.rest = s₁.io.rd.fd.data.drop s₁.io.rd.lp := by simp [Io.rest, d1.pb]
      have hfile : s₁.file = ⟨s₁.io.rd.fd.data, s₁.io.rd.lp⟩ := by
        unfold Rw.file; rw [d2, if_pos rfl, patch_nil]
      have hkd := Reader.key_data u1.key
      rw [← d3, hfile]
      have hfile' : Rw.file { s₁ with io := io₁ } = ⟨io₁.rd.fd.data, io₁.rd.lp⟩ := by
        unfold Rw.file; rw [d2, if_pos rfl, patch_nil]
      refine ⟨⟨u1.inv.rd, u1.kind.trans d1.kind, v1, ?_, by rw [hkd]; exact d1.len, fun hb => absurd d2 hb⟩, ?_, ?_, ?_⟩
      · -- the offset stays representable
        have hI₁ := u1.inv.rd
        have hl1 := buffer_length hI₁
        have hl2 := congrArg List.length hI₁.buf
        rw [hl1, List.length_take, List.length_drop, hkd] at hl2
        have hle := hI₁.le
        have hlp : io₁.rd.lp = io₁.rd.fd.off - (io₁.rd.cap - io₁.rd.pos) := rfl
        have hlp₁ : s₁.io.rd.lp = s₁.io.rd.fd.off - (s₁.io.rd.cap - s₁.io.rd.pos) := rfl
        have ho := d1.off
        have hbl : bs₁.length = min n (s₁.io.rd.fd.data.length - s₁.io.rd.lp) := by
          rw [v4, hrest, List.length_take, List.length_drop]
        show (io₁.rd.fd.off : Int) ≤ offMax
        have hmax := d1.len
        omega
      · rw [← hrest]; exact v4
      · rw [hfile', hkd, v2]
      · intro hex hcl
        subst hex
        exact readUnderlying_clean d1.kind (d4 hcl) hr
    · cases h

theorem seek_discards {r : Reader} {w : Whence} {p : Nat} (h : (r.seek w).1 = some p) :
    (r.seek w).2.pos = (r.seek w).2.cap := by
  have key : ∀ fd : Fd, ({ r with fd := fd }.discard).pos = ({ r with fd := fd }.discard).cap :=
    fun _ => rfl
  revert h
  unfold Reader.seek
  cases w with
  | current n =>
    dsimp only
    split
    · rcases r.fd.seek (.current (n - ((r.cap - r.pos : Nat) : Int))) with ⟨_ | q, fd⟩
      · intro h; cases h
      · intro _; exact key fd
    · rcases r.fd.seek (.current (-((r.cap - r.pos : Nat) : Int))) with ⟨_ | q, fd⟩
      · intro h; cases h
      · dsimp only
        rcases fd.seek (.current n) with ⟨_ | q, fd'⟩
        · intro h; cases h
        · intro _; exact key fd'
  | start n =>
    dsimp only
    rcases r.fd.seek (.start n) with ⟨_ | q, fd⟩
    · intro h; cases h
    · intro _; exact key fd
  | fromEnd n =>
    dsimp only
    rcases r.fd.seek (.fromEnd n) with ⟨_ | q, fd⟩
    · intro h; cases h
    · intro _; exact key fd

/-- **C45.**  A seek goes where it would go in the file a program has in mind, with everything
written so far in it; afterwards nothing is read ahead. -/
theorem C45_seek {s s' : Rw} {w : Whence} {p : Nat} {wos wos' : WOs} (hI : s.Inv)
    (hn : ∀ n, w = .current n → i64Min ≤ n ∧ n ≤ offMax)
    (h : s.seek w wos = some (some p, s', wos')) :
    s'.Inv ∧ s'.clean ∧ (p : Int) = s.file.target w ∧ s'.file = { s.file with pos := p } := by
  unfold Rw.seek at h
  split at h
  · cases h
  · rename_i s₁ wos₁ hd
    obtain ⟨d1, d2, d3, d4⟩ := rwDrain_spec hI hd
    simp only [Option.some.injEq, Prod.mk.injEq] at h
    obtain ⟨h1, rfl, rfl⟩ := h
    obtain ⟨a, b⟩ := C21_seek d1.rd d1.off hn
    rw [h1] at b
    obtain ⟨b1, b2, b3, b4, b5⟩ := b
    have hcl := seek_discards h1
    have hfile : s₁.file = ⟨s₁.io.rd.fd.data, s₁.io.rd.lp⟩ := by
      unfold Rw.file; rw [d2, if_pos rfl, patch_nil]
    have hdata : (s₁.io.rd.seek w).2.fd.data = s₁.io.rd.fd.data := congrArg Plain.data b5
    have hpos : (s₁.io.rd.seek w).2.lp = p := congrArg Plain.pos b5
    have hlpo : (s₁.io.rd.seek w).2.lp = (s₁.io.rd.seek w).2.fd.off := by
      unfold Reader.lp; omega
    have ht : s₁.io.rd.plain.target w = s.file.target w := by
      rw [← d3, hfile]; cases w <;> rfl
    refine ⟨⟨a, d1.kind, d1.pb, ?_, by show ((s₁.io.rd.seek w).2.fd.data.length : Int) ≤ _; rw [hdata]; exact d1.len,
      fun _ => hcl⟩, hcl, by rw [b4, ht], ?_⟩
    · show ((s₁.io.rd.seek w).2.fd.off : Int) ≤ offMax
      rw [← hlpo, hpos, b4]; exact b3
    · rw [← d3, hfile]
      unfold Rw.file
      rw [if_pos d2, d2, patch_nil]
      show AFile.mk _ _ = AFile.mk _ _
      rw [hdata, hpos]

/-- **C45.**  `pos` is the position, and asking for it changes nothing a program can see. -/
theorem C45_pos {s s' : Rw} {p : Nat} {wos wos' : WOs} (hI : s.Inv)
    (h : s.pos wos = some (some p, s', wos')) :
    s'.Inv ∧ s'.clean ∧ p = s.file.pos ∧ s'.file = s.file := by
  unfold Rw.pos at h
  split at h
  · cases h
  · rename_i q s₁ wos₁ hs
    simp only [Option.some.injEq, Prod.mk.injEq, Option.map_eq_some_iff] at h
    obtain ⟨⟨q', rfl, hq⟩, rfl, rfl⟩ := h
    obtain ⟨a, b, c, d⟩ := C45_seek hI (by intro n hn; cases hn; decide) hs
    have hq' : q' = s.file.pos := by
      have : s.file.target (.current 0) = (s.file.pos : Int) + 0 := rfl
      rw [this] at c; omega
    rw [hI.pb] at hq
    have : p = q' := by rw [← hq]; simp
    refine ⟨a, b, by rw [this, hq'], ?_⟩
    rw [d, hq']

/-- The rule of C's standard library: after reading through the buffer, reposition (or ask for the
position) before writing.  `dirty` tells whether something may be read ahead. -/
def Disciplined : Bool → List FOp → Prop
  | _, [] => True
  | dirty, .write _ _ :: ops => dirty = false ∧ Disciplined false ops
  | dirty, .read _ :: ops => Disciplined dirty ops
  | _, .getbytes _ :: ops => Disciplined true ops
  | _, .seek w :: ops => (∀ n, w = .current n → i64Min ≤ n ∧ n ≤ offMax) ∧ Disciplined false ops
  | _, .pos :: ops => Disciplined false ops

theorem rwStep_spec {s s' : Rw} {wos wos' : WOs} {ros ros' : ROs} {op : FOp} {o : FOut}
    {dirty : Bool} {ops : List FOp} (hI : s.Inv) (hd : dirty = false → s.clean)
    (hdis : Disciplined dirty (op :: ops))
    (h : s.step wos ros op = some (o, s', wos', ros')) :
    s'.Inv ∧ AStep s.file op o s'.file ∧
    ∃ dirty', (dirty' = false → s'.clean) ∧ Disciplined dirty' ops := by
  cases op with
  | write data p =>
    simp only [Rw.step] at h
    split at h
    · rename_i hp
      split at h
      · cases h
      · rename_i r p' s₁ wos₁ hw
        simp only [Option.some.injEq, Prod.mk.injEq] at h
        obtain ⟨rfl, rfl, rfl, rfl⟩ := h
        obtain ⟨a, b, c, _⟩ := C45_write_partial hI (hd hdis.1) hp hw
        exact ⟨a, c, false, fun _ => b, hdis.2⟩
    · cases h
  | read n =>
    simp only [Rw.step] at h
    split at h
    · cases h
    · rename_i bs s₁ wos₁ ros₁ hr
      simp only [Option.some.injEq, Prod.mk.injEq] at h
      obtain ⟨rfl, rfl, rfl, rfl⟩ := h
      obtain ⟨a, b, c, d⟩ := C45_read hI hr
      exact ⟨a, ⟨b, c⟩, dirty, fun hdf => d rfl (hd hdf), hdis⟩
  | getbytes n =>
    simp only [Rw.step] at h
    split at h
    · cases h
    · rename_i bs s₁ wos₁ ros₁ hr
      simp only [Option.some.injEq, Prod.mk.injEq] at h
      obtain ⟨rfl, rfl, rfl, rfl⟩ := h
      obtain ⟨a, b, c, d⟩ := C45_read hI hr
      exact ⟨a, ⟨b, c⟩, true, by simp, hdis⟩
  | seek w =>
    simp only [Rw.step] at h
    split at h
    · rename_i p s₁ wos₁ hs
      simp only [Option.some.injEq, Prod.mk.injEq] at h
      obtain ⟨rfl, rfl, rfl, rfl⟩ := h
      obtain ⟨a, b, c, d⟩ := C45_seek hI hdis.1 hs
      exact ⟨a, ⟨c, d⟩, false, fun _ => b, hdis.2⟩
    · cases h
  | pos =>
    simp only [Rw.step] at h
    split at h
    · rename_i p s₁ wos₁ hs
      simp only [Option.some.injEq, Prod.mk.injEq] at h
      obtain ⟨rfl, rfl, rfl, rfl⟩ := h
      obtain ⟨a, b, c, d⟩ := C45_pos hI hs
      exact ⟨a, ⟨c, d⟩, false, fun _ => b, hdis⟩
    · cases h

theorem rwRun_spec (ops : List FOp) :
    ∀ {s s' : Rw} {wos : WOs} {ros : ROs} {dirty : Bool} {outs : List FOut}, s.Inv →
      (dirty = false → s.clean) → Disciplined dirty ops →
      s.run wos ros ops = some (outs, s') → s'.Inv ∧ ARun s.file ops outs s'.file := by
  induction ops with
  | nil =>
    intro s s' wos ros dirty outs hI _ _ h
    simp only [Rw.run, Option.some.injEq, Prod.mk.injEq] at h
    obtain ⟨rfl, rfl⟩ := h
    exact ⟨hI, rfl⟩
  | cons op ops ih =>
    intro s s' wos ros dirty outs hI hd hdis h
    unfold Rw.run at h
    split at h
    · cases h
    · rename_i o s₁ wos₁ ros₁ hs
      obtain ⟨a, b, dirty', c, d⟩ := rwStep_spec hI hd hdis hs
      split at h
      · cases h
      · rename_i outs' s₂ hr
        simp only [Option.some.injEq, Prod.mk.injEq] at h
        obtain ⟨rfl, rfl⟩ := h
        obtain ⟨i1, i2⟩ := ih a c d hr
        exact ⟨i1, s₁.file, b, i2⟩

/-- A freshly opened file. -/
def Rw.new (data : List Byte) (sync : Bool) : Rw :=
  ⟨⟨.file, Reader.new ⟨data, 0, true⟩, []⟩, WriteBuf.new sync false⟩

theorem rwNew_inv (data : List Byte) (sync : Bool) (h : (data.length : Int) ≤ offMax) : (Rw.new data sync).Inv :=
  ⟨inv_new _, rfl, rfl, (by show ((0 : Nat) : Int) ≤ offMax; decide), h, by simp [Rw.new, WriteBuf.new]⟩

/-- **C45.**  Every history of reads, writes, seeks and `pos` on a freshly opened file in which no
write directly follows a buffered read acts on one file with one position: reads see all earlier
writes, writes land at the position, both move it.  What is missing: writes directly after a
buffered read (they land elsewhere, `C45_write_after_read_lands_elsewhere`), ungot bytes
(`C45_seek_keeps_ungot_bytes`), and operations cut short by an interrupt. -/
theorem C45_one_position_partial {data : List Byte} {sync : Bool} {ops : List FOp}
    {wos : WOs} {ros : ROs} {outs : List FOut} {s' : Rw}
    (hlen : (data.length : Int) ≤ offMax) (hdis : Disciplined false ops)
    (h : (Rw.new data sync).run wos ros ops = some (outs, s')) :
    ARun ⟨data, 0⟩ ops outs s'.file := by
  have hc : (Rw.new data sync).clean := rfl
  obtain ⟨_, b⟩ := rwRun_spec ops (rwNew_inv data sync hlen) (fun _ => hc) hdis h
  rw [file_clean hc] at b
  have : patch data 0 [] = data := patch_nil _ _
  simpa [Rw.new, WriteBuf.new, Reader.new, this] using b

/-- A history that satisfies the rule: write, seek back, read it with what follows, write again,
ask for the position. -/
def sampleOps : List FOp :=
  [.read 1, .write [7, 8] 0, .seek (.current (-1)), .getbytes 2, .pos, .write [9] 0, .seek (.start 0),
    .read 9]

example : Disciplined false sampleOps := by
  refine ⟨rfl, ?_, rfl, ?_, trivial⟩
  · intro n hn; cases hn; decide
  · intro n hn; cases hn

example : ((Rw.new [1, 2, 3, 4, 5] false).run ⟨[], [.took 0, .took 0, .took 0]⟩
      ⟨[], List.replicate 20 (.ready 9)⟩ sampleOps).map (fun r => (r.1, r.2.io.rd.fd.data))
    = some ([.bytes [1], .wrote [7, 8], .at 2, .bytes [8, 4], .at 4, .wrote [9], .at 0,
        .bytes [1, 7, 8, 4, 9]], [1, 7, 8, 4, 9]) := by
  decide +kernel

/-- **C45, failure.**  A write directly after a buffered read does not land at the position: after
`getbyte` on `1 2 3 4 5` the position is 1, but a byte written then is appended at 5. -/
theorem C45_write_after_read_lands_elsewhere :
    ((Rw.new [1, 2, 3, 4, 5] true).run ⟨[], [.took 0]⟩ ⟨[], [.ready 9]⟩
      [.getbytes 1, .write [9] 0]).map (fun r => r.2.io.rd.fd.data)
      = some [1, 2, 3, 4, 5, 9] ∧
    ∀ outs f, ARun ⟨[1, 2, 3, 4, 5], 0⟩ [.getbytes 1, .write [9] 0] outs f →
      outs = [.bytes [1], .wrote [9]] → f.data[1]? = some 9 := by
  constructor
  · decide +kernel
  · rintro outs f h rfl
    obtain ⟨m, ⟨_, rfl⟩, m', ⟨_, _, hw⟩, hf⟩ := h
    have hf : f = m' := hf
    subst hf
    obtain ⟨hl, hw⟩ := hw (by simp)
    have hlen : f.data.length = 5 := by rw [hl]; rfl
    rw [hw 1 (by rw [hlen]; decide)]
    rfl

/-- **C45, failure.**  `seek`, `pos=` and `rewind` keep ungot bytes: after `ungetbyte 9` and
`rewind`, `read(2)` on `1 2` returns `9 1`. -/
theorem C45_seek_keeps_ungot_bytes :
    (((Rw.new [1, 2] true).io.unget [9]).bind fun io =>
      (Rw.seek ⟨io, WriteBuf.new true false⟩ (.start 0) ⟨[], []⟩).bind fun r =>
        (r.2.1.read 2 true r.2.2 ⟨[], [.ready 9, .ready 9]⟩).map fun q => (r.1, q.1))
      = some (some 0, [9, 1]) := by
  decide +kernel

end Verif.IoBuf
