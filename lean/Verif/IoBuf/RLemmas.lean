import Verif.IoBuf.RModel

/-!
# Lemmas about the read side

`RdSpec` is what every reader (the bare descriptor, the buffered reader) satisfies: it delivers
the bytes at its logical position, and an error leaves the position where it was.
-/

namespace Verif.IoBuf

/-- What it means for `rd` to read the byte sequence `key` from position `lp` on. -/
structure RdSpec {σ : Type} (rd : Rd σ) (I : σ → Prop) (key : σ → List Byte × Bool)
    (lp : σ → Nat) : Prop where
  ok : ∀ {s want os bs s' os'}, I s → rd s want os = some (.ok bs, s', os') →
    I s' ∧ key s' = key s ∧ bs = ((key s).1.drop (lp s)).take bs.length ∧
    lp s' = lp s + bs.length ∧ bs.length ≤ want ∧
    (bs = [] → want = 0 ∨ (key s).1.length ≤ lp s) ∧ os'.rd.length ≤ os.rd.length
  err : ∀ {s want os e s' os'}, I s → rd s want os = some (.error e, s', os') →
    I s' ∧ key s' = key s ∧ lp s' = lp s ∧ os'.rd.length < os.rd.length

theorem take_length_self (l : List Byte) (n : Nat) : l.take n = l.take (l.take n).length := by
  rw [List.length_take]
  rcases Nat.le_total n l.length with h | h
  · rw [Nat.min_eq_left h]
  · rw [Nat.min_eq_right h, List.take_of_length_le h, List.take_of_length_le (Nat.le_refl _)]

/-- The bare descriptor. -/
theorem fd_rdSpec : RdSpec Fd.read (fun _ => True) (fun fd => (fd.data, fd.seekable)) Fd.off where
  ok := by
    intro fd want os bs s' os' _ h
    unfold Fd.read at h
    split at h
    · cases h
    · rename_i n rd hrd
      simp only [Option.some.injEq, Prod.mk.injEq, Except.ok.injEq] at h
      obtain ⟨rfl, rfl, rfl⟩ := h
      refine ⟨trivial, rfl, take_length_self _ _, rfl, ?_, ?_, ?_⟩
      · simp; omega
      · intro h0
        have : ((fd.data.drop fd.off).take (min (n + 1) want)).length = 0 := by rw [h0]; rfl
        simp only [List.length_take, List.length_drop] at this
        show want = 0 ∨ fd.data.length ≤ fd.off
        omega
      · rw [hrd]; simp
    all_goals simp at h
  err := by
    intro fd want os e s' os' _ h
    unfold Fd.read at h
    split at h
    · cases h
    · simp at h
    all_goals
      rename_i rd hrd
      simp only [Option.some.injEq, Prod.mk.injEq] at h
      obtain ⟨_, rfl, rfl⟩ := h
      exact ⟨trivial, rfl, rfl, by rw [hrd]; simp⟩

/-- Well-formed reader: the indices are in range, and the buffered bytes are the ones just
before the descriptor's offset. -/
structure Reader.Inv (r : Reader) : Prop where
  len : r.arr.length = ioBufCapa
  pc : r.pos ≤ r.cap
  cl : r.cap ≤ r.arr.length
  le : r.cap - r.pos ≤ r.fd.off
  buf : r.buffer = (r.fd.data.drop (r.fd.off - (r.cap - r.pos))).take (r.cap - r.pos)

/-- The position Ruby sees. -/
def Reader.lp (r : Reader) : Nat := r.fd.off - (r.cap - r.pos)

/-- The content of the file behind the reader. -/
def Reader.key (r : Reader) : List Byte × Bool := (r.fd.data, r.fd.seekable)

theorem buffer_length {r : Reader} (h : r.Inv) : r.buffer.length = r.cap - r.pos := by
  have := h.pc; have := h.cl
  simp [Reader.buffer]; omega

theorem inv_new (fd : Fd) : (Reader.new fd).Inv where
  len := by simp [Reader.new]
  pc := by simp [Reader.new]
  cl := by simp [Reader.new]
  le := by simp [Reader.new]
  buf := by simp [Reader.new, Reader.buffer]

theorem inv_discard {r : Reader} (h : r.arr.length = ioBufCapa) : r.discard.Inv where
  len := h
  pc := by simp [Reader.discard]
  cl := by simp [Reader.discard]
  le := by simp [Reader.discard]
  buf := by simp [Reader.discard, Reader.buffer]

theorem consume_spec {r : Reader} (h : r.Inv) (n : Nat) (hn : n ≤ r.cap - r.pos) :
    (r.consume n).Inv ∧ (r.consume n).lp = r.lp + n ∧ (r.consume n).key = r.key ∧
    (r.consume n).buffer = r.buffer.drop n := by
  have h1 := h.pc; have h2 := h.cl; have h3 := h.le
  have hm : min (r.pos + n) r.cap = r.pos + n := by omega
  have hb : (r.consume n).buffer = r.buffer.drop n := by
    simp [Reader.consume, Reader.buffer, hm, List.drop_drop]
  refine ⟨⟨h.len, ?_, h2, ?_, ?_⟩, ?_, rfl, hb⟩
  · simp [Reader.consume]; omega
  · simp only [Reader.consume, hm]; omega
  · rw [hb, h.buf]
    have e1 : r.fd.off - (r.cap - r.pos) + n = r.fd.off - (r.cap - (r.pos + n)) := by omega
    have e2 : r.cap - r.pos - n = r.cap - (r.pos + n) := by omega
    simp only [Reader.consume, hm]
    rw [List.drop_take, List.drop_drop, e1, e2]
  · simp only [Reader.lp, Reader.consume, hm]; omega

theorem fillBuf_ok {r : Reader} {os : ROs} {bs : List Byte} {r' : Reader} {os' : ROs}
    (h : r.Inv) (hr : r.fillBuf os = some (.ok bs, r', os')) :
    r'.Inv ∧ r'.key = r.key ∧ r'.lp = r.lp ∧ r'.buffer = bs ∧
    bs = (r.fd.data.drop r.lp).take bs.length ∧ (bs = [] → r.fd.data.length ≤ r.lp) ∧
    os'.rd.length ≤ os.rd.length ∧ (r.cap ≤ r.pos → os'.rd.length < os.rd.length) ∧
    os'.polls = os.polls := by
  have h1 := h.pc; have h2 := h.cl; have h3 := h.le; have hl := h.len
  unfold Reader.fillBuf at hr
  split at hr
  · rename_i hpc
    have hlp : r.lp = r.fd.off := by unfold Reader.lp; omega
    split at hr
    · cases hr
    · simp at hr
    · rename_i bs₁ fd os₁ hfd
      simp only [Option.some.injEq, Prod.mk.injEq, Except.ok.injEq] at hr
      obtain ⟨rfl, rfl, rfl⟩ := hr
      obtain ⟨_, hk, hbs, hoff, hle, hnil, hos⟩ := fd_rdSpec.ok trivial hfd
      dsimp only at hk hbs hoff hnil
      simp only [Prod.mk.injEq] at hk
      have hlt : os₁.rd.length < os.rd.length ∧ os₁.polls = os.polls := by
        unfold Fd.read at hfd
        split at hfd
        · cases hfd
        · rename_i hrd
          simp only [Option.some.injEq, Prod.mk.injEq] at hfd
          obtain ⟨_, _, rfl⟩ := hfd
          rw [hrd]; simp
        all_goals simp at hfd
      have hbuf : Reader.buffer ⟨fd, bs₁ ++ r.arr.drop bs₁.length, 0, bs₁.length⟩ = bs₁ := by simp [Reader.buffer]
      refine ⟨⟨?_, ?_, ?_, ?_, ?_⟩, ?_, ?_, ?_, ?_, ?_, ?_, ?_, ?_⟩
      · simp; omega
      · simp
      · simp
      · simp; omega
      · rw [hbuf]
        simp only [Nat.sub_zero]
        rw [hoff, hk.1, Nat.add_sub_cancel]
        exact hbs
      · simp [Reader.key, hk.1, hk.2]
      · simp only [Reader.lp, Nat.sub_zero]; unfold Reader.lp at hlp; omega
      · exact hbuf
      · rw [hlp]; exact hbs
      · intro h0
        rw [hlp]
        rcases hnil h0 with h | h
        · simp [ioBufCapa] at hl; omega
        · exact h
      · omega
      · intro _; exact hlt.1
      · exact hlt.2
  · rename_i hpc
    simp only [Option.some.injEq, Prod.mk.injEq, Except.ok.injEq] at hr
    obtain ⟨rfl, rfl, rfl⟩ := hr
    have hbl := buffer_length h
    refine ⟨h, rfl, rfl, rfl, ?_, ?_, Nat.le_refl _, ?_, rfl⟩
    · rw [hbl]; exact h.buf
    · intro h0; rw [h0] at hbl; simp at hbl; omega
    · intro h; omega

theorem fillBuf_err {r : Reader} {os : ROs} {e : RErr} {r' : Reader} {os' : ROs}
    (h : r.Inv) (hr : r.fillBuf os = some (.error e, r', os')) :
    r'.Inv ∧ r'.key = r.key ∧ r'.lp = r.lp ∧ r'.buffer = r.buffer ∧
    os'.rd.length < os.rd.length ∧ r.cap ≤ r.pos ∧ r' = r := by
  unfold Reader.fillBuf at hr
  split at hr
  · rename_i hpc
    split at hr
    · cases hr
    · rename_i e₁ fd os₁ hfd
      simp only [Option.some.injEq, Prod.mk.injEq, Except.error.injEq] at hr
      obtain ⟨rfl, rfl, rfl⟩ := hr
      obtain ⟨_, hk, ho, hos⟩ := fd_rdSpec.err trivial hfd
      have hfdeq : fd = r.fd := by
        obtain ⟨d, o, sk⟩ := fd
        simp only [Prod.mk.injEq] at hk ho
        cases hfd' : r.fd
        simp [hfd'] at hk ho
        simp [hk, ho]
      subst hfdeq
      exact ⟨h, rfl, rfl, rfl, hos, hpc, rfl⟩
    · simp at hr
  · simp at hr

/-- The buffered reader. -/
theorem reader_rdSpec : RdSpec Reader.read Reader.Inv Reader.key Reader.lp where
  ok := by
    intro r want os bs r' os' h hr
    have h1 := h.pc; have h2 := h.cl; have h3 := h.le; have hl := h.len
    unfold Reader.read at hr
    split at hr
    · rename_i hc
      split at hr
      · cases hr
      · rename_i res fd os₁ hfd
        simp only [Option.some.injEq, Prod.mk.injEq] at hr
        obtain ⟨rfl, rfl, rfl⟩ := hr
        have hlp : r.lp = r.fd.off := by unfold Reader.lp; omega
        obtain ⟨_, hk, hbs, hoff, hle, hnil, hos⟩ := fd_rdSpec.ok trivial hfd
        dsimp only [Reader.discard] at hk hbs hoff hnil
        simp only [Prod.mk.injEq] at hk
        refine ⟨⟨hl, ?_, ?_, ?_, ?_⟩, ?_, ?_, ?_, hle, ?_, hos⟩
        · simp [Reader.discard]
        · simp [Reader.discard]
        · simp [Reader.discard]
        · simp [Reader.discard, Reader.buffer]
        · simp [Reader.key, hk.1, hk.2]
        · rw [hlp]; exact hbs
        · unfold Reader.lp at hlp ⊢; simp only [Reader.discard]; omega
        · rw [hlp]; exact hnil
    · rename_i hc
      split at hr
      · cases hr
      · simp at hr
      · rename_i avail r₁ os₁ hf
        simp only [Option.some.injEq, Prod.mk.injEq, Except.ok.injEq] at hr
        obtain ⟨rfl, rfl, rfl⟩ := hr
        obtain ⟨hi, hk, hlp, hb, hav, hnil, hos, _, _⟩ := fillBuf_ok h hf
        have hbl := buffer_length hi
        rw [hb] at hbl
        obtain ⟨c1, c2, c3, _⟩ := consume_spec hi (min avail.length want) (by omega)
        have hlen : (avail.take (min avail.length want)).length = min avail.length want := by
          simp
        refine ⟨c1, by rw [c3, hk], ?_, ?_, ?_, ?_, hos⟩
        · rw [hlen]
          have : avail.take (min avail.length want)
              = ((r.fd.data.drop r.lp).take avail.length).take (min avail.length want) := by
            rw [← hav]
          rw [this, List.take_take, Nat.min_eq_left (Nat.min_le_left _ _)]
          rfl
        · rw [c2, hlp, hlen]
        · rw [hlen]; omega
        · intro h0
          rw [h0] at hlen
          simp at hlen
          rcases Nat.eq_zero_or_pos want with hw | hw
          · exact Or.inl hw
          · right
            exact hnil (List.eq_nil_of_length_eq_zero (by omega))
  err := by
    intro r want os e r' os' h hr
    have h1 := h.pc; have h2 := h.cl; have h3 := h.le; have hl := h.len
    unfold Reader.read at hr
    split at hr
    · rename_i hc
      split at hr
      · cases hr
      · rename_i res fd os₁ hfd
        simp only [Option.some.injEq, Prod.mk.injEq] at hr
        obtain ⟨rfl, rfl, rfl⟩ := hr
        have hlp : r.lp = r.fd.off := by unfold Reader.lp; omega
        obtain ⟨_, hk, hoff, hos⟩ := fd_rdSpec.err trivial hfd
        dsimp only [Reader.discard] at hk hoff
        simp only [Prod.mk.injEq] at hk
        refine ⟨⟨hl, ?_, ?_, ?_, ?_⟩, ?_, ?_, hos⟩
        · simp [Reader.discard]
        · simp [Reader.discard]
        · simp [Reader.discard]
        · simp [Reader.discard, Reader.buffer]
        · simp [Reader.key, hk.1, hk.2]
        · unfold Reader.lp at hlp ⊢; simp only [Reader.discard]; omega
    · split at hr
      · cases hr
      · rename_i e₁ r₁ os₁ hf
        simp only [Option.some.injEq, Prod.mk.injEq, Except.error.injEq] at hr
        obtain ⟨rfl, rfl, rfl⟩ := hr
        obtain ⟨hi, hk, hlp, hb, hos, _⟩ := fillBuf_err h hf
        exact ⟨hi, hk, hlp, hos⟩
      · simp at hr

section generic

variable {σ : Type} {rd : Rd σ} {I : σ → Prop} {key : σ → List Byte × Bool} {lp : σ → Nat}

/-- `read_step` is as good a reader. -/
theorem readStep_spec (sp : RdSpec rd I key lp) (k : Nat) :
    RdSpec (readStep rd k) I key lp := by
  induction k with
  | zero => exact ⟨by simp [readStep], by simp [readStep]⟩
  | succ k ih =>
    constructor
    · intro s want os bs s' os' hI h
      unfold readStep at h
      split at h
      · cases h
      · rename_i s₁ os₁ hrd
        have he := sp.err hI hrd
        split at h
        · simp at h
        · obtain ⟨a, b, c, d, e, f, g⟩ := ih.ok he.1 h
          rw [he.2.1] at b c f
          rw [he.2.2.1] at c d f
          exact ⟨a, b, c, d, e, f, by have := he.2.2.2; dsimp only at g; omega⟩
      · rename_i hrd
        simp only [Option.some.injEq, Prod.mk.injEq] at h
        obtain ⟨rfl, rfl, rfl⟩ := h
        exact sp.ok hI (by assumption)
    · intro s want os e s' os' hI h
      unfold readStep at h
      split at h
      · cases h
      · rename_i s₁ os₁ hrd
        have he := sp.err hI hrd
        split at h
        · simp only [Option.some.injEq, Prod.mk.injEq] at h
          obtain ⟨_, rfl, rfl⟩ := h
          exact ⟨he.1, he.2.1, he.2.2.1, he.2.2.2⟩
        · obtain ⟨a, b, c, d⟩ := ih.err he.1 h
          exact ⟨a, by rw [b, he.2.1], by rw [c, he.2.2.1],
            by have := he.2.2.2; dsimp only at d; omega⟩
      · rename_i hrd
        simp only [Option.some.injEq, Prod.mk.injEq] at h
        obtain ⟨rfl, rfl, rfl⟩ := h
        exact sp.err hI (by assumption)

theorem take_take_drop (l : List Byte) (a : Nat) (x y : List Byte)
    (hx : x = (l.drop a).take x.length) (hy : y = (l.drop (a + x.length)).take y.length) : x ++ y = (l.drop a).take (x ++ y).length := by
  rw [List.length_append, List.take_add, List.drop_drop, ← hx, ← hy]

/-- What `read_upto` does: `got` is what it appended to `out`. -/
theorem readUpto_spec (sp : RdSpec rd I key lp) (k : Nat) :
    ∀ {s : σ} {len : Nat} {out : List Byte} {os : ROs} {res : Except RErr Unit}
      {out' : List Byte} {s' : σ} {os' : ROs},
      I s → out.length ≤ len → readUpto rd k s len out os = some (res, out', s', os') →
      ∃ got, out' = out ++ got ∧ I s' ∧ key s' = key s ∧
        got = ((key s).1.drop (lp s)).take got.length ∧ lp s' = lp s + got.length ∧
        out'.length ≤ len ∧
        (res = .ok () → out'.length = len ∨ (key s).1.length ≤ lp s') := by
  induction k with
  | zero => simp [readUpto]
  | succ k ih =>
    intro s len out os res out' s' os' hI hlen h
    unfold readUpto at h
    split at h
    · rename_i hlt
      split at h
      · simp only [Option.some.injEq, Prod.mk.injEq] at h
        obtain ⟨rfl, rfl, rfl, rfl⟩ := h
        exact ⟨[], by simp, hI, rfl, by simp, by simp, hlen, (fun h => by cases h)⟩
      · split at h
        · cases h
        · rename_i e s₁ os₁ hrd
          simp only [Option.some.injEq, Prod.mk.injEq] at h
          obtain ⟨rfl, rfl, rfl, rfl⟩ := h
          have he := (readStep_spec sp _).err hI hrd
          exact ⟨[], by simp, he.1, he.2.1, by simp, by simp [he.2.2.1], hlen,
            (fun h => by cases h)⟩
        · rename_i bs s₁ os₁ hrd
          obtain ⟨a, b, c, d, e, f, g⟩ := (readStep_spec sp _).ok hI hrd
          split at h
          · rename_i h0
            simp only [Option.some.injEq, Prod.mk.injEq] at h
            obtain ⟨rfl, rfl, rfl, rfl⟩ := h
            have hnil := List.eq_nil_of_length_eq_zero h0
            refine ⟨bs, rfl, a, b, c, d, by simp [hnil]; omega, fun _ => ?_⟩
            rcases f hnil with hw | hw
            · simp [readChunk] at hw; omega
            · right; omega
          · obtain ⟨got, g1, g2, g3, g4, g5, g6, g7⟩ :=
              ih a (by simp; omega) h
            rw [b] at g3 g4 g7
            rw [d] at g4
            refine ⟨bs ++ got, by rw [g1]; simp, g2, g3, ?_, by rw [g5, d]; simp; omega, g6, g7⟩
            exact take_take_drop _ _ _ _ c g4
    · simp only [Option.some.injEq, Prod.mk.injEq] at h
      obtain ⟨rfl, rfl, rfl, rfl⟩ := h
      exact ⟨[], by simp, hI, rfl, by simp, by simp, hlen, fun _ => by left; omega⟩

/-- What `read_all` does. -/
theorem readAll_spec (sp : RdSpec rd I key lp) (k : Nat) :
    ∀ {s : σ} {out : List Byte} {os : ROs} {res : Except RErr Unit}
      {out' : List Byte} {s' : σ} {os' : ROs},
      I s → readAll rd k s out os = some (res, out', s', os') →
      ∃ got, out' = out ++ got ∧ I s' ∧ key s' = key s ∧
        got = ((key s).1.drop (lp s)).take got.length ∧ lp s' = lp s + got.length ∧
        (res = .ok () → (key s).1.length ≤ lp s') := by
  induction k with
  | zero => simp [readAll]
  | succ k ih =>
    intro s out os res out' s' os' hI h
    unfold readAll at h
    split at h
    · simp only [Option.some.injEq, Prod.mk.injEq] at h
      obtain ⟨rfl, rfl, rfl, rfl⟩ := h
      exact ⟨[], by simp, hI, rfl, by simp, by simp, (fun h => by cases h)⟩
    · split at h
      · cases h
      · rename_i e s₁ os₁ hrd
        simp only [Option.some.injEq, Prod.mk.injEq] at h
        obtain ⟨rfl, rfl, rfl, rfl⟩ := h
        have he := (readStep_spec sp _).err hI hrd
        exact ⟨[], by simp, he.1, he.2.1, by simp, by simp [he.2.2.1], (fun h => by cases h)⟩
      · rename_i bs s₁ os₁ hrd
        obtain ⟨a, b, c, d, e, f, g⟩ := (readStep_spec sp _).ok hI hrd
        split at h
        · rename_i h0
          simp only [Option.some.injEq, Prod.mk.injEq] at h
          obtain ⟨rfl, rfl, rfl, rfl⟩ := h
          have hnil := List.eq_nil_of_length_eq_zero h0
          refine ⟨bs, rfl, a, b, c, d, fun _ => ?_⟩
          rcases f hnil with hw | hw
          · simp [readChunk] at hw
          · omega
        · obtain ⟨got, g1, g2, g3, g4, g5, g6⟩ := ih a h
          rw [b] at g3 g4 g6
          rw [d] at g4
          refine ⟨bs ++ got, by rw [g1]; simp, g2, g3, ?_, by rw [g5, d]; simp; omega, g6⟩
          exact take_take_drop _ _ _ _ c g4

end generic

/-- What `read_until_step` does: it appends everything up to and including the first delimiter,
or everything there is. -/
theorem readUntil_spec (delim : Byte) (k : Nat) :
    ∀ {r : Reader} {out : List Byte} {os : ROs} {res : Except RErr Unit}
      {out' : List Byte} {r' : Reader} {os' : ROs},
      r.Inv → readUntil k r delim out os = some (res, out', r', os') →
      ∃ got, out' = out ++ got ∧ r'.Inv ∧ r'.key = r.key ∧
        got = (r.fd.data.drop r.lp).take got.length ∧ r'.lp = r.lp + got.length ∧
        (res = .ok () →
          (∃ l, got = l ++ [delim] ∧ delim ∉ l) ∨ (delim ∉ got ∧ r.fd.data.length ≤ r'.lp)) ∧
        (res ≠ .ok () → delim ∉ got) := by
  induction k with
  | zero => simp [readUntil]
  | succ k ih =>
    intro r out os res out' r' os' hI h
    unfold readUntil at h
    split at h
    · simp only [Option.some.injEq, Prod.mk.injEq] at h
      obtain ⟨rfl, rfl, rfl, rfl⟩ := h
      exact ⟨[], by simp, hI, rfl, by simp, by simp, (fun h => by cases h), by simp⟩
    · split at h
      · cases h
      · rename_i r₁ os₁ hf
        obtain ⟨e1, e2, e3, _⟩ := fillBuf_err hI hf
        split at h
        · simp only [Option.some.injEq, Prod.mk.injEq] at h
          obtain ⟨rfl, rfl, rfl, rfl⟩ := h
          exact ⟨[], by simp, e1, e2, by simp, by simp [e3], (fun h => by cases h), by simp⟩
        · obtain ⟨got, g1, g2, g3, g4, g5, g6, g7⟩ := ih e1 h
          have ed : r₁.fd.data = r.fd.data := congrArg Prod.fst e2
          rw [ed, e3] at g4
          rw [ed] at g6
          exact ⟨got, g1, g2, by rw [g3, e2], g4, by rw [g5, e3], g6, g7⟩
      · rename_i e r₁ os₁ hne hf
        simp only [Option.some.injEq, Prod.mk.injEq] at h
        obtain ⟨rfl, rfl, rfl, rfl⟩ := h
        obtain ⟨e1, e2, e3, _⟩ := fillBuf_err hI hf
        exact ⟨[], by simp, e1, e2, by simp, by simp [e3], (fun h => by cases h), by simp⟩
      · rename_i avail r₁ os₁ hf
        obtain ⟨f1, f2, f3, f4, f5, f6, f7, _, _⟩ := fillBuf_ok hI hf
        have hbl := buffer_length f1
        rw [f4] at hbl
        have ed : r₁.fd.data = r.fd.data := congrArg Prod.fst f2
        split at h
        · rename_i i hi
          rw [List.findIdx?_eq_some_iff_getElem] at hi
          obtain ⟨hil, hp, hbefore⟩ := hi
          simp only [Option.some.injEq, Prod.mk.injEq] at h
          obtain ⟨rfl, rfl, rfl, rfl⟩ := h
          obtain ⟨c1, c2, c3, _⟩ := consume_spec f1 (i + 1) (by omega)
          have hl : (avail.take (i + 1)).length = i + 1 := by simp; omega
          refine ⟨avail.take (i + 1), rfl, c1, by rw [c3, f2], ?_, by rw [c2, f3, hl],
            fun _ => ?_, by simp⟩
          · rw [hl]
            conv => lhs; rw [f5]
            rw [List.take_take, Nat.min_eq_left (by omega)]
          · left
            refine ⟨avail.take i, ?_, ?_⟩
            · rw [List.take_succ_eq_append_getElem hil]
              simp at hp; rw [hp]
            · intro hm
              rw [List.mem_take_iff_getElem] at hm
              obtain ⟨j, hj, he⟩ := hm
              have := hbefore j (by omega)
              simp [he] at this
        · rename_i hi
          rw [List.findIdx?_eq_none_iff] at hi
          have hnm : delim ∉ avail := by
            intro hm; have := hi _ hm; simp at this
          obtain ⟨c1, c2, c3, _⟩ := consume_spec f1 avail.length (by omega)
          split at h
          · rename_i h0
            simp only [Option.some.injEq, Prod.mk.injEq] at h
            obtain ⟨rfl, rfl, rfl, rfl⟩ := h
            refine ⟨avail, rfl, c1, by rw [c3, f2], f5, by rw [c2, f3], fun _ => ?_, fun _ => hnm⟩
            right
            refine ⟨hnm, ?_⟩
            have := f6 (List.eq_nil_of_length_eq_zero h0)
            rw [c2, f3]; omega
          · obtain ⟨got, g1, g2, g3, g4, g5, g6, g7⟩ := ih c1 h
            have cd : (r₁.consume avail.length).fd.data = r₁.fd.data := rfl
            rw [cd, ed, c2, f3] at g4
            rw [cd, ed] at g6
            refine ⟨avail ++ got, by rw [g1]; simp, g2, by rw [g3, c3, f2],
              take_take_drop _ _ _ _ f5 g4, by rw [g5, c2, f3]; simp; omega, ?_, ?_⟩
            · intro hr
              rcases g6 hr with ⟨l, hl, hn⟩ | ⟨hn, hle⟩
              · left
                refine ⟨avail ++ l, by rw [hl]; simp, by simp [hnm, hn]⟩
              · right
                exact ⟨by simp [hnm, hn], hle⟩
            · intro hr
              have := g7 hr
              simp [hnm, this]

theorem readPartialChunk_spec (need : Nat) (noBlock : Bool) (k : Nat) :
    ∀ {r : Reader} {os : ROs} {res : Except RErr (List Byte)} {r' : Reader} {os' : ROs},
      r.Inv → readPartialChunk k r need noBlock os = some (res, r', os') →
      r'.Inv ∧ r'.key = r.key ∧
      (∀ bs, res = .ok bs → bs = (r.fd.data.drop r.lp).take bs.length ∧ r'.lp = r.lp + bs.length ∧
        bs.length ≤ need ∧
        (bs = [] → noBlock = false → need = 0 ∨ r.fd.data.length ≤ r.lp)) ∧
      (∀ e, res = .error e → r'.lp = r.lp ∧ noBlock = false) := by
  induction k with
  | zero => simp [readPartialChunk]
  | succ k ih =>
    intro r os res r' os' hI h
    unfold readPartialChunk at h
    have take_part : ∀ {q : Reader} {n : Nat}, q.Inv → n ≤ q.buffer.length →
        q.buffer.take n = (q.fd.data.drop q.lp).take n := by
      intro q n hq hn
      have hbl := buffer_length hq
      rw [hq.buf, List.take_take, Nat.min_eq_left (by omega)]
      rfl
    split at h
    · rename_i hnb
      simp only [Option.some.injEq, Prod.mk.injEq] at h
      obtain ⟨rfl, rfl, rfl⟩ := h
      have hbl := buffer_length hI
      obtain ⟨c1, c2, c3, _⟩ := consume_spec hI (min r.buffer.length need) (by omega)
      have hl : (r.buffer.take (min r.buffer.length need)).length = min r.buffer.length need := by
        simp
      refine ⟨c1, c3, ?_, by simp⟩
      intro bs hbs
      simp only [Except.ok.injEq] at hbs
      subst hbs
      refine ⟨?_, by rw [c2, hl], by rw [hl]; omega, fun _ hf => by rw [hnb] at hf; cases hf⟩
      rw [hl]; exact take_part hI (by omega)
    · rename_i hnb
      split at h
      · cases h
      · rename_i r₁ os₁ hf
        obtain ⟨e1, e2, e3, _⟩ := fillBuf_err hI hf
        split at h
        · 
          simp only [Option.some.injEq, Prod.mk.injEq] at h
          obtain ⟨rfl, rfl, rfl⟩ := h
          exact ⟨e1, e2, by simp, fun _ _ => ⟨e3, by simpa using hnb⟩⟩
        · obtain ⟨g1, g2, g3, g4⟩ := ih e1 h
          have ed : r₁.fd.data = r.fd.data := congrArg Prod.fst e2
          rw [ed, e3] at g3
          rw [e3] at g4
          exact ⟨g1, by rw [g2, e2], g3, g4⟩
      · rename_i e r₁ os₁ hne hf
        simp only [Option.some.injEq, Prod.mk.injEq] at h
        obtain ⟨rfl, rfl, rfl⟩ := h
        obtain ⟨e1, e2, e3, _⟩ := fillBuf_err hI hf
        exact ⟨e1, e2, by simp, fun _ _ => ⟨e3, by simpa using hnb⟩⟩
      · rename_i avail r₁ os₁ hf
        simp only [Option.some.injEq, Prod.mk.injEq] at h
        obtain ⟨rfl, rfl, rfl⟩ := h
        obtain ⟨f1, f2, f3, f4, f5, f6, f7, _, _⟩ := fillBuf_ok hI hf
        have ed : r₁.fd.data = r.fd.data := congrArg Prod.fst f2
        have hbl := buffer_length f1
        obtain ⟨c1, c2, c3, _⟩ := consume_spec f1 (min r₁.buffer.length need) (by omega)
        have hl : (r₁.buffer.take (min r₁.buffer.length need)).length
            = min r₁.buffer.length need := by simp
        refine ⟨c1, by rw [c3, f2], ?_, by simp⟩
        intro bs hbs
        simp only [Except.ok.injEq] at hbs
        subst hbs
        refine ⟨?_, by rw [c2, hl, f3], by rw [hl]; omega, fun h0 _ => ?_⟩
        · rw [hl, ← ed, ← f3]; exact take_part f1 (by omega)
        · rw [h0] at hl
          simp at hl
          rcases Nat.eq_zero_or_pos need with hw | hw
          · exact Or.inl hw
          · right
            refine f6 ?_
            rw [← f4]
            exact List.eq_nil_of_length_eq_zero (by omega)

end Verif.IoBuf
