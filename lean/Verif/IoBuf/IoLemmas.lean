import Verif.IoBuf.RLemmas

/-!
# Lemmas about the IO object

`Io.rest` is the byte sequence a program has still to read.
-/

namespace Verif.IoBuf

/-- What is still to be read: the pushed-back bytes, then the file from the logical position. -/
def Io.rest (io : Io) : List Byte := io.pushback ++ io.rd.fd.data.drop io.rd.lp

/-- Well-formed IO object. -/
structure Io.Inv (io : Io) : Prop where
  rd : io.rd.Inv
  pb : io.kind = .stdin → io.pushback = []

/-- The same stream, still well formed. -/
structure Kept (io io' : Io) : Prop where
  inv : io'.Inv
  kind : io'.kind = io.kind
  key : io'.rd.key = io.rd.key

theorem Kept.refl {io : Io} (h : io.Inv) : Kept io io := ⟨h, rfl, rfl⟩

theorem Kept.trans {a b c : Io} (h1 : Kept a b) (h2 : Kept b c) : Kept a c :=
  ⟨h2.inv, h2.kind.trans h1.kind, h2.key.trans h1.key⟩

theorem slice_split {data bs : List Byte} {p q : Nat}
    (h1 : bs = (data.drop p).take bs.length) (h2 : q = p + bs.length) :
    data.drop p = bs ++ data.drop q := by
  subst h2
  conv => lhs; rw [← List.take_append_drop bs.length (data.drop p)]
  rw [← h1, List.drop_drop]

theorem slice_exact {data bs : List Byte} {p q n : Nat}
    (h1 : bs = (data.drop p).take bs.length) (h2 : q = p + bs.length) (hle : bs.length ≤ n)
    (h : bs.length = n ∨ data.length ≤ q) :
    bs = (data.drop p).take n ∧ data.drop q = (data.drop p).drop n := by
  have hs := slice_split h1 h2
  rcases h with h | h
  · subst h
    refine ⟨h1, ?_⟩
    rw [hs]; simp
  · have h0 : data.drop q = [] := List.drop_eq_nil_of_le h
    rw [h0] at hs ⊢
    rw [hs]
    simp only [List.append_nil]
    exact ⟨(List.take_of_length_le hle).symm, (List.drop_eq_nil_of_le hle).symm⟩

theorem Reader.key_data {r r' : Reader} (h : r'.key = r.key) : r'.fd.data = r.fd.data :=
  congrArg Prod.fst h

/-- What the end of `read_underlying` makes of the outcome of the read loops. -/
theorem finishRead_spec {io io₁ : Io} {res : Except RErr Unit} {buf : List Byte} {os os' : ROs}
    {res' : Except RErr (List Byte)} {io' : Io} {length : Option Nat}
    (hk : Kept io io₁) (hpb : io.pushback = []) (hpb₁ : io₁.pushback = [])
    (hbuf : buf = (io.rd.fd.data.drop io.rd.lp).take buf.length)
    (hlp : io₁.rd.lp = io.rd.lp + buf.length)
    (hlen : ∀ n, length = some n → buf.length ≤ n)
    (hok : res = .ok () → (∃ n, length = some n ∧ buf.length = n) ∨
      io.rd.fd.data.length ≤ io₁.rd.lp)
    (h : io₁.finishRead res buf os = some (res', io', os')) :
    Kept io io' ∧
    (∀ bs, res' = .ok bs → (io'.pushback = [] ∧ io'.rd.lp = io.rd.lp + bs.length) ∧
      (∀ n, length = some n → bs = io.rest.take n ∧ io'.rest = io.rest.drop n) ∧
      (length = none → bs = io.rest ∧ io'.rest = [])) ∧
    (∀ e, res' = .error e → e.restartable = true → io.kind ≠ .stdin → io'.rest = io.rest) := by
  have hd := Reader.key_data hk.key
  have hr : io.rest = io.rd.fd.data.drop io.rd.lp := by simp [Io.rest, hpb]
  have hr₁ : io₁.rest = io.rd.fd.data.drop io₁.rd.lp := by simp [Io.rest, hpb₁, hd]
  have hsplit := slice_split hbuf hlp
  unfold Io.finishRead at h
  split at h
  · simp only [Option.some.injEq, Prod.mk.injEq] at h
    obtain ⟨rfl, rfl, rfl⟩ := h
    refine ⟨hk, ?_, by simp⟩
    intro bs hbs
    simp only [Except.ok.injEq] at hbs
    subst hbs
    refine ⟨⟨hpb₁, hlp⟩, ?_, ?_⟩
    · intro n hn
      rw [hr, hr₁]
      refine slice_exact hbuf hlp (hlen n hn) ?_
      rcases hok rfl with ⟨m, hm, he⟩ | h
      · rw [hn] at hm; cases hm; exact Or.inl he
      · exact Or.inr h
    · intro hn
      rcases hok rfl with ⟨m, hm, he⟩ | h
      · rw [hn] at hm; cases hm
      · have h0 : io.rd.fd.data.drop io₁.rd.lp = [] := List.drop_eq_nil_of_le h
        rw [hr, hr₁, h0]
        rw [h0] at hsplit
        simp at hsplit
        exact ⟨hsplit.symm, rfl⟩
  · rename_i e
    split at h
    · rename_i hc
      simp only [Option.some.injEq, Prod.mk.injEq] at h
      obtain ⟨rfl, rfl, rfl⟩ := h
      refine ⟨⟨⟨hk.inv.rd, fun hs => absurd hs hc.2⟩, hk.kind, hk.key⟩, by simp, ?_⟩
      intro _ _ _ _
      rw [hr, hsplit]
      simp [Io.rest, hpb₁, hd]
    · rename_i hc
      simp only [Option.some.injEq, Prod.mk.injEq] at h
      obtain ⟨rfl, rfl, rfl⟩ := h
      refine ⟨hk, by simp, ?_⟩
      intro e' he' hre hns
      simp only [Except.error.injEq] at he'
      subst he'
      rw [← hk.kind] at hns
      exact absurd ⟨hre, hns⟩ hc

theorem readUnderlying_spec {io : Io} {length : Option Nat} {exact' : Bool} {os os' : ROs}
    {res : Except RErr (List Byte)} {io' : Io} (hI : io.Inv) (hpb : io.pushback = [])
    (h : io.readUnderlying length exact' os = some (res, io', os')) :
    Kept io io' ∧
    (∀ bs, res = .ok bs → (io'.pushback = [] ∧ io'.rd.lp = io.rd.lp + bs.length) ∧
      (∀ n, length = some n → bs = io.rest.take n ∧ io'.rest = io.rest.drop n) ∧
      (length = none → bs = io.rest ∧ io'.rest = [])) ∧
    (∀ e, res = .error e → e.restartable = true → io.kind ≠ .stdin → io'.rest = io.rest) := by
  unfold Io.readUnderlying at h
  split at h
  · split at h
    · cases h
    · rename_i res₁ buf rd os₁ hr
      obtain ⟨got, g1, g2, g3, g4, g5, g6⟩ := readAll_spec reader_rdSpec _ hI.rd hr
      simp only [List.nil_append] at g1
      subst g1
      exact finishRead_spec (io := io) (io₁ := { io with rd := rd }) ⟨⟨g2, hI.pb⟩, rfl, g3⟩ hpb hpb g4 g5 (by simp)
        (fun hok => Or.inr (g6 hok)) h
  · rename_i len
    split at h
    · rename_i hex
      have hbl := buffer_length hI.rd
      have hm : min io.rd.buffer.length len ≤ io.rd.cap - io.rd.pos := by omega
      obtain ⟨c1, c2, c3, c4⟩ := consume_spec hI.rd _ hm
      have htl : (io.rd.buffer.take (min io.rd.buffer.length len)).length
          = min io.rd.buffer.length len := by simp
      have htake : io.rd.buffer.take (min io.rd.buffer.length len)
          = (io.rd.fd.data.drop io.rd.lp).take (min io.rd.buffer.length len) := by
        have : io.rd.buffer.take (min io.rd.buffer.length len)
            = ((io.rd.fd.data.drop io.rd.lp).take io.rd.buffer.length).take
              (min io.rd.buffer.length len) := by
          congr 1
          rw [hbl]; exact hI.rd.buf
        rw [this, List.take_take, Nat.min_eq_left (Nat.min_le_left _ _)]
      split at h
      · rename_i hlt
        split at h
        · cases h
        · rename_i res₁ buf fd os₁ hr
          obtain ⟨got, g1, _, g3, g4, g5, g6, g7⟩ :=
            readUpto_spec fd_rdSpec _ (I := fun _ => True) trivial (by rw [htl]; omega) hr
          -- the buffer is spent
          have hspent : (io.rd.consume (min io.rd.buffer.length len)).cap
              - (io.rd.consume (min io.rd.buffer.length len)).pos = 0 := by
            have h0 := buffer_length c1
            rw [c4] at h0
            have : (io.rd.buffer.drop (min io.rd.buffer.length len)).length = 0 := by
              rw [htl] at hlt
              simp; omega
            omega
          have hoff : (io.rd.consume (min io.rd.buffer.length len)).fd.off
              = io.rd.lp + min io.rd.buffer.length len := by
            rw [← c2]
            show _ = _ - _
            rw [hspent, Nat.sub_zero]
          simp only [Prod.mk.injEq] at g3
          have cd : (io.rd.consume (min io.rd.buffer.length len)).fd = io.rd.fd := rfl
          have hb0 := c1.buf
          refine finishRead_spec (io := io)
            (io₁ := { io with rd := { io.rd.consume (min io.rd.buffer.length len) with fd := fd } })
            ⟨⟨⟨hI.rd.len, c1.pc, c1.cl, ?_, ?_⟩, hI.pb⟩, rfl, ?_⟩ hpb hpb ?_ ?_ ?_ ?_ h
          · show _ - _ ≤ fd.off
            rw [hspent]; exact Nat.zero_le _
          · have hnil : (io.rd.consume (min io.rd.buffer.length len)).buffer = [] := by
              rw [hb0, hspent]; simp
            show (io.rd.consume (min io.rd.buffer.length len)).buffer
                = (fd.data.drop (fd.off - _)).take _
            rw [hnil, hspent]; simp
          · show (fd.data, fd.seekable) = (io.rd.fd.data, io.rd.fd.seekable)
            rw [g3.1, g3.2, cd]
          · rw [g1]
            refine take_take_drop _ _ _ _ (by rw [htl]; exact htake) ?_
            rw [htl, ← hoff]
            exact g4
          · show fd.off - _ = _
            rw [hspent, g5, hoff, g1, List.length_append, htl]; omega
          · intro n hn
            cases hn
            exact g6
          · intro hok
            rcases g7 hok with h | h
            · exact Or.inl ⟨_, rfl, h⟩
            · right
              rw [cd] at h
              show _ ≤ fd.off - _
              rw [hspent]; exact h
      · rename_i hge
        refine finishRead_spec (io := io)
          (io₁ := { io with rd := io.rd.consume (min io.rd.buffer.length len) }) ⟨⟨c1, hI.pb⟩, rfl, c3⟩ hpb hpb (by rw [htl]; exact htake)
          (by rw [htl]; exact c2) ?_ ?_ h
        · intro n hn; cases hn; rw [htl]; omega
        · intro _; left; exact ⟨_, rfl, by rw [htl] at hge ⊢; omega⟩
    · split at h
      · cases h
      · rename_i res₁ buf rd os₁ hr
        obtain ⟨got, g1, g2, g3, g4, g5, g6, g7⟩ :=
          readUpto_spec reader_rdSpec _ hI.rd (Nat.zero_le _) hr
        simp only [List.nil_append] at g1
        subst g1
        refine finishRead_spec (io := io) (io₁ := { io with rd := rd }) ⟨⟨g2, hI.pb⟩, rfl, g3⟩ hpb hpb g4 g5 ?_ ?_ h
        · intro n hn; cases hn; exact g6
        · intro hok
          rcases g7 hok with h | h
          · exact Or.inl ⟨_, rfl, h⟩
          · exact Or.inr h

theorem ungetQuiet_spec {io : Io} (hI : io.Inv) (hk : io.kind ≠ .stdin) (bs : List Byte) :
    Kept io (io.ungetQuiet bs) ∧ (io.ungetQuiet bs).rest = bs ++ io.rest := by
  unfold Io.ungetQuiet Io.unget
  cases h : io.kind with
  | stdin => exact absurd h hk
  | file =>
    refine ⟨⟨⟨hI.rd, ?_⟩, ?_, rfl⟩, ?_⟩
    · intro h'; simp [h] at h'
    · simp [h]
    · simp [Io.rest]
  | popen =>
    refine ⟨⟨⟨hI.rd, ?_⟩, ?_, rfl⟩, ?_⟩
    · intro h'; simp [h] at h'
    · simp [h]
    · simp [Io.rest]

theorem ungetQuiet_kept {io : Io} (hI : io.Inv) (bs : List Byte) : Kept io (io.ungetQuiet bs) := by
  by_cases hk : io.kind = .stdin
  · unfold Io.ungetQuiet Io.unget
    rw [hk]
    exact Kept.refl hI
  · exact (ungetQuiet_spec hI hk bs).1

/-- What `read` and `getbyte` do, for any pushback. -/
theorem readImpl_spec {io : Io} {length : Option Nat} {exact' : Bool} {os os' : ROs}
    {res : Except RErr (List Byte)} {io' : Io} (hI : io.Inv)
    (h : io.readImpl length exact' os = some (res, io', os')) :
    Kept io io' ∧
    (∀ bs, res = .ok bs →
      (∀ n, length = some n → bs = io.rest.take n ∧ io'.rest = io.rest.drop n) ∧
      (length = none → bs = io.rest ∧ io'.rest = [])) ∧
    (∀ e, res = .error e → e.restartable = true → io.kind ≠ .stdin → io'.rest = io.rest) := by
  unfold Io.readImpl at h
  split at h
  · rename_i hpos
    have hmore : ∀ {len : Option Nat} {res : Except RErr (List Byte)} {io' : Io} {os' : ROs},
        (io.takePushback none).2.readMorePreserving (io.takePushback none).1 len exact' os
          = some (res, io', os') →
        Kept io io' ∧
        (∀ bs, res = .ok bs → ∃ cs, bs = io.pushback ++ cs ∧ io'.pushback = [] ∧
          (∀ n, len = some n → cs = (io.rd.fd.data.drop io.rd.lp).take n ∧
            io'.rest = (io.rd.fd.data.drop io.rd.lp).drop n) ∧
          (len = none → cs = io.rd.fd.data.drop io.rd.lp ∧ io'.rest = [])) ∧
        (∀ e, res = .error e → e.restartable = true → io.kind ≠ .stdin → io'.rest = io.rest) := by
      intro len res io' os' h
      have hI₁ : (io.takePushback none).2.Inv := ⟨hI.rd, fun _ => rfl⟩
      have hrest : (io.takePushback none).2.rest = io.rd.fd.data.drop io.rd.lp := by
        simp [Io.takePushback, Io.rest]
      have hk₁ : Kept io (io.takePushback none).2 := ⟨hI₁, rfl, rfl⟩
      unfold Io.readMorePreserving at h
      split at h
      · cases h
      · rename_i chunk io₁ os₁ hu
        simp only [Option.some.injEq, Prod.mk.injEq] at h
        obtain ⟨rfl, rfl, rfl⟩ := h
        obtain ⟨u1, u2, u3⟩ := readUnderlying_spec hI₁ rfl hu
        refine ⟨hk₁.trans u1, ?_, by simp⟩
        intro bs hbs
        simp only [Except.ok.injEq] at hbs
        subst hbs
        obtain ⟨v1, v2, v3⟩ := u2 _ rfl
        rw [hrest] at v2 v3
        exact ⟨chunk, rfl, v1.1, v2, v3⟩
      · rename_i e io₁ os₁ hu
        obtain ⟨u1, u2, u3⟩ := readUnderlying_spec hI₁ rfl hu
        split at h
        · rename_i hre
          simp only [Option.some.injEq, Prod.mk.injEq] at h
          obtain ⟨rfl, rfl, rfl⟩ := h
          refine ⟨(hk₁.trans u1).trans (ungetQuiet_kept u1.inv _), by simp, ?_⟩
          intro e' he' _ hns
          have hns₁ : io₁.kind ≠ .stdin := by rw [(hk₁.trans u1).kind]; exact hns
          rw [(ungetQuiet_spec u1.inv hns₁ _).2, u3 e rfl hre hns, hrest]
          rfl
        · rename_i hre
          simp only [Option.some.injEq, Prod.mk.injEq] at h
          obtain ⟨rfl, rfl, rfl⟩ := h
          refine ⟨hk₁.trans u1, by simp, ?_⟩
          intro e' he' hre' _
          simp only [Except.error.injEq] at he'
          subst he'
          exact absurd hre' hre
    split at h
    · simp only [Option.some.injEq, Prod.mk.injEq] at h
      obtain ⟨rfl, rfl, rfl⟩ := h
      refine ⟨Kept.refl hI, ?_, by simp⟩
      intro bs hbs
      simp only [Except.ok.injEq] at hbs
      subst hbs
      refine ⟨?_, by simp⟩
      intro n hn; cases hn; simp
    · rename_i n hn0
      split at h
      · rename_i hle
        simp only [Option.some.injEq, Prod.mk.injEq] at h
        obtain ⟨rfl, rfl, rfl⟩ := h
        refine ⟨⟨⟨hI.rd, fun hs => ?_⟩, rfl, rfl⟩, ?_, by simp⟩
        · have := hI.pb hs
          simp [Io.takePushback, this]
        · intro bs hbs
          simp only [Except.ok.injEq] at hbs
          subst hbs
          refine ⟨?_, by simp⟩
          intro m hm
          cases hm
          simp only [Io.takePushback, Io.rest, Nat.min_eq_left hle]
          rw [List.take_append_of_le_length hle, List.drop_append_of_le_length hle]
          exact ⟨rfl, rfl⟩
      · rename_i hlt
        obtain ⟨m1, m2, m3⟩ := hmore h
        refine ⟨m1, ?_, m3⟩
        intro bs hbs
        obtain ⟨cs, c1, c2, c3, c4⟩ := m2 bs hbs
        refine ⟨?_, by simp⟩
        intro m hm
        cases hm
        obtain ⟨d1, d2⟩ := c3 _ rfl
        rw [c1, d1, d2]
        simp only [Io.rest, Io.takePushback]
        have hle : io.pushback.length ≤ n := by omega
        constructor
        · rw [List.take_append, List.take_of_length_le hle]
        · rw [List.drop_append, List.drop_eq_nil_of_le hle, List.nil_append]
    · obtain ⟨m1, m2, m3⟩ := hmore h
      refine ⟨m1, ?_, m3⟩
      intro bs hbs
      obtain ⟨cs, c1, c2, c3, c4⟩ := m2 bs hbs
      refine ⟨by simp, fun _ => ?_⟩
      obtain ⟨d1, d2⟩ := c4 rfl
      rw [c1, d1, d2]
      exact ⟨rfl, rfl⟩
  · rename_i hpos
    have hpb : io.pushback = [] := List.eq_nil_of_length_eq_zero (by omega)
    obtain ⟨u1, u2, u3⟩ := readUnderlying_spec hI hpb h
    exact ⟨u1, fun bs hbs => ⟨(u2 bs hbs).2.1, (u2 bs hbs).2.2⟩, u3⟩

/-- Reading one byte. -/
theorem read1_spec {io : Io} {os os' : ROs} {res : Except RErr (Option Byte)} {io' : Io}
    (hI : io.Inv) (h : io.read1 os = some (res, io', os')) :
    Kept io io' ∧
    (res = .ok none → io.rest = [] ∧ io'.rest = []) ∧
    (∀ b, res = .ok (some b) → io.rest = b :: io'.rest) ∧
    (∀ e, res = .error e → e.restartable = true → io.kind ≠ .stdin → io'.rest = io.rest) := by
  unfold Io.read1 at h
  split at h
  · cases h
  · rename_i bs io₁ os₁ hr
    simp only [Option.some.injEq, Prod.mk.injEq] at h
    obtain ⟨rfl, rfl, rfl⟩ := h
    obtain ⟨r1, r2, r3⟩ := readImpl_spec hI hr
    obtain ⟨r4, r5⟩ := (r2 bs rfl).1 1 rfl
    refine ⟨r1, ?_, ?_, by simp⟩
    · intro h0
      cases hrest : io.rest with
      | nil => rw [hrest] at r5; simp [r5]
      | cons b t => rw [r4, hrest] at h0; simp at h0
    · intro b hb
      cases hrest : io.rest with
      | nil => rw [r4, hrest] at hb; simp at hb
      | cons c t =>
        rw [r4, hrest] at hb
        simp at hb
        rw [r5, hrest, hb]; simp
  · rename_i e io₁ os₁ hr
    simp only [Option.some.injEq, Prod.mk.injEq] at h
    obtain ⟨rfl, rfl, rfl⟩ := h
    obtain ⟨r1, r2, r3⟩ := readImpl_spec hI hr
    refine ⟨r1, by simp, by simp, ?_⟩
    intro e' he' hre hns
    simp only [Except.error.injEq] at he'
    subst he'
    exact r3 _ rfl hre hns

theorem read1Preserving_spec {io : Io} {acc : List Byte} {os os' : ROs}
    {res : Except RErr (Option Byte)} {io' : Io}
    (hI : io.Inv) (h : io.read1Preserving acc os = some (res, io', os')) :
    Kept io io' ∧
    (res = .ok none → io.rest = [] ∧ io'.rest = []) ∧
    (∀ b, res = .ok (some b) → io.rest = b :: io'.rest) ∧
    (∀ e, res = .error e → e.restartable = true → io.kind ≠ .stdin →
      io'.rest = acc ++ io.rest) := by
  unfold Io.read1Preserving at h
  split at h
  · cases h
  · rename_i b io₁ os₁ hr
    simp only [Option.some.injEq, Prod.mk.injEq] at h
    obtain ⟨rfl, rfl, rfl⟩ := h
    obtain ⟨r1, r2, r3, _⟩ := read1_spec hI hr
    exact ⟨r1, r2, r3, by simp⟩
  · rename_i e io₁ os₁ hr
    obtain ⟨r1, _, _, r4⟩ := read1_spec hI hr
    split at h
    · rename_i hc
      simp only [Option.some.injEq, Prod.mk.injEq] at h
      obtain ⟨rfl, rfl, rfl⟩ := h
      refine ⟨r1.trans (ungetQuiet_kept r1.inv _), by simp, by simp, ?_⟩
      intro e' he' _ hns
      have hns₁ : io₁.kind ≠ .stdin := by rw [r1.kind]; exact hns
      rw [(ungetQuiet_spec r1.inv hns₁ _).2, r4 e rfl hc.1 hns]
    · rename_i hc
      simp only [Option.some.injEq, Prod.mk.injEq] at h
      obtain ⟨rfl, rfl, rfl⟩ := h
      refine ⟨r1, by simp, by simp, ?_⟩
      intro e' he' hre hns
      simp only [Except.error.injEq] at he'
      subst he'
      by_cases ha : acc = []
      · subst ha; simpa using r4 e rfl hre hns
      · exact absurd ⟨hre, ha⟩ hc

end Verif.IoBuf
