import Verif.IoBuf.GetlineLemmas
import Verif.IoBuf.RProps

/-!
# C44: reading methods lose nothing when they are interrupted

An attempt at a reading operation ends early when a trapped signal is pending (`.intr`) or when
the descriptor has nothing to offer and another thread could run (`.block`).  The operation is
then attempted again from the start.  `Io.rest` is the byte sequence still to be read;
`lineSpec` and `charSpec` (file `IoSpec`) say what the methods should return.
-/

namespace Verif.IoBuf

/-- An operation whose interrupted attempts leave what it will finally return unchanged. -/
theorem retry_spec {α : Type} {f : Io → ROs → IoRes α} {spec : List Byte → α × List Byte}
    (P : Io → Prop)
    (hok : ∀ {io io' os os' a}, io.Inv → P io → f io os = some (.ok a, io', os') →
      Kept io io' ∧ (a, io'.rest) = spec io.rest)
    (herr : ∀ {io io' os os' e}, io.Inv → P io → f io os = some (.error e, io', os') →
      Kept io io' ∧ (e.restartable = true → P io' ∧ spec io'.rest = spec io.rest)) (k : Nat) :
    ∀ {io io' : Io} {os os' : ROs} {a : α}, io.Inv → P io →
      Io.retry f k io os = some (.ok a, io', os') →
      Kept io io' ∧ (a, io'.rest) = spec io.rest := by
  induction k with
  | zero => simp [Io.retry]
  | succ k ih =>
    intro io io' os os' a hI hP h
    unfold Io.retry at h
    split at h
    · cases h
    · rename_i io₁ os₁ hf
      obtain ⟨k1, k2⟩ := herr hI hP hf
      obtain ⟨p1, p2⟩ := k2 rfl
      obtain ⟨a1, a2⟩ := ih k1.inv p1 h
      exact ⟨k1.trans a1, a2.trans p2⟩
    · rename_i io₁ os₁ hf
      obtain ⟨k1, k2⟩ := herr hI hP hf
      obtain ⟨p1, p2⟩ := k2 rfl
      obtain ⟨a1, a2⟩ := ih k1.inv p1 h
      exact ⟨k1.trans a1, a2.trans p2⟩
    · rename_i r io₁ os₁ _ _ hf
      simp only [Option.some.injEq, Prod.mk.injEq] at h
      obtain ⟨rfl, rfl, rfl⟩ := h
      exact hok hI hP hf

/-- What a program sees of an outcome: the value (`none` for an exception) and what is left. -/
def view {α : Type} (r : IoRes α) : Option (Option α × List Byte) :=
  r.map fun r => (r.1.toOption, r.2.1.rest)

/-! ### `read(n)`, `read`, `getbyte` -/

/-- **C44.**  `read(n)` and `getbyte` return the next `n` bytes (fewer only at the end of the
stream) and advance by exactly those, however often they were interrupted by signals or parked
on the way. -/
theorem C44_read {io io' : Io} {k n : Nat} {exact' : Bool} {os os' : ROs} {bs : List Byte}
    (hI : io.Inv) (hns : io.kind ≠ .stdin)
    (h : Io.retry (fun io os => io.readImpl (some n) exact' os) k io os
      = some (.ok bs, io', os')) :
    Kept io io' ∧ bs = io.rest.take n ∧ io'.rest = io.rest.drop n := by
  have := retry_spec (spec := fun r => (r.take n, r.drop n)) (fun io => io.kind ≠ .stdin)
    (f := fun io os => io.readImpl (some n) exact' os)
    (fun {io io' os os' a} hI hP hf => by
      obtain ⟨a1, a2, _⟩ := readImpl_spec hI hf
      obtain ⟨b1, b2⟩ := (a2 _ rfl).1 n rfl
      exact ⟨a1, by rw [← b1, ← b2]⟩)
    (fun {io io' os os' e} hI hP hf => by
      obtain ⟨a1, _, a3⟩ := readImpl_spec hI hf
      exact ⟨a1, fun hre => ⟨by rw [a1.kind]; exact hP, by rw [a3 _ rfl hre hP]⟩⟩)
    k hI hns h
  obtain ⟨a, b⟩ := this
  simp only [Prod.mk.injEq] at b
  exact ⟨a, b.1, b.2⟩

/-- **C44.**  `read` without a length returns everything that is left. -/
theorem C44_read_all {io io' : Io} {k : Nat} {exact' : Bool} {os os' : ROs} {bs : List Byte}
    (hI : io.Inv) (hns : io.kind ≠ .stdin)
    (h : Io.retry (fun io os => io.readImpl none exact' os) k io os
      = some (.ok bs, io', os')) :
    Kept io io' ∧ bs = io.rest ∧ io'.rest = [] := by
  have := retry_spec (spec := fun r => (r, [])) (fun io => io.kind ≠ .stdin)
    (f := fun io os => io.readImpl none exact' os)
    (fun {io io' os os' a} hI hP hf => by
      obtain ⟨a1, a2, _⟩ := readImpl_spec hI hf
      obtain ⟨b1, b2⟩ := (a2 _ rfl).2 rfl
      exact ⟨a1, by rw [b1, b2]⟩)
    (fun {io io' os os' e} hI hP hf => by
      obtain ⟨a1, _, a3⟩ := readImpl_spec hI hf
      exact ⟨a1, fun hre => ⟨by rw [a1.kind]; exact hP, by rw [a3 _ rfl hre hP]⟩⟩)
    k hI hns h
  obtain ⟨a, b⟩ := this
  simp only [Prod.mk.injEq] at b
  exact ⟨a, b.1, b.2⟩

/-- A pipe at its start. -/
def samplePipe (data : List Byte) : Io := ⟨.file, Reader.new ⟨data, 0, false⟩, []⟩

theorem samplePipe_inv (data : List Byte) : (samplePipe data).Inv :=
  ⟨inv_new _, (fun h => by cases h)⟩

/-- Four bytes asked for; two arrive, the read is parked, one arrives, a trapped signal comes, and
the last one arrives.  The read returns all four, the fifth stays. -/
example : view (Io.retry (fun io os => io.readImpl (some 4) true os) 5 (samplePipe [1, 2, 3, 4, 5])
      ⟨[false, false, false, false, true], [.ready 1, .again, .ready 0, .eintr, .ready 7]⟩)
    = some (some [1, 2, 3, 4], [5]) := by decide +kernel

/-! ### `gets` -/

/-- **C44.**  One attempt at `gets(sep, limit)`: a completed attempt returns exactly the line the
stream holds and leaves exactly what follows it; an interrupted attempt leaves a stream from
which the same line will be read, with the same bytes after it.  What is missing for the full
property: the case `fastPathHazard` (see `C44_gets_twice_interrupted_loses`) and standard
input (`C44_stdin_interrupted_loses`). -/
theorem C44_gets_attempt_partial {io io' : Io} {k : Nat} {sep : Option (List Byte)}
    {limit : Option Nat} {complete : Bool} {os os' : ROs}
    {res : Except RErr (Option (List Byte))} (hI : io.Inv) (hns : io.kind ≠ .stdin)
    (h : io.getline k sep limit complete os = some (res, io', os')) :
    Kept io io' ∧
    (∀ l, res = .ok l → (l, io'.rest) = lineSpec sep limit complete io.rest) ∧
    (∀ e, res = .error e → e.restartable = true → ¬ io.fastPathHazard sep limit →
      lineSpec sep limit complete io'.rest = lineSpec sep limit complete io.rest) := by
  obtain ⟨a, b, c⟩ := getline_spec hI hns h
  exact ⟨a, b, c⟩

/-- **C44.**  `gets(sep, limit)` with any separator, limit or in paragraph mode, except the bare
`gets`: however often it is interrupted, it returns exactly the line and leaves exactly what
follows it. -/
theorem C44_gets_partial {io io' : Io} {k fuel : Nat} {sep : Option (List Byte)}
    {limit : Option Nat} {complete : Bool} {os os' : ROs} {l : Option (List Byte)}
    (hI : io.Inv) (hns : io.kind ≠ .stdin) (hnf : ¬ (sep = some [nl] ∧ limit = none))
    (h : Io.retry (fun io os => io.getline fuel sep limit complete os) k io os
      = some (.ok l, io', os')) :
    Kept io io' ∧ (l, io'.rest) = lineSpec sep limit complete io.rest := by
  have := retry_spec (spec := lineSpec sep limit complete) (fun io => io.kind ≠ .stdin)
    (f := fun io os => io.getline fuel sep limit complete os)
    (fun {io io' os os' a} hI hP hf => by
      obtain ⟨a1, a2, _⟩ := getline_spec hI hP hf
      exact ⟨a1, a2 _ rfl⟩)
    (fun {io io' os os' e} hI hP hf => by
      obtain ⟨a1, _, a3⟩ := getline_spec hI hP hf
      exact ⟨a1, fun hre => ⟨by rw [a1.kind]; exact hP,
        a3 _ rfl hre (fun hz => hnf ⟨hz.1, hz.2.1⟩)⟩⟩)
    k hI hns h
  exact ⟨this.1, this.2⟩

/-- **C44.**  The bare `gets` on a stream without ungot bytes: one interrupt, at any point, is
harmless. -/
theorem C44_gets_bare_partial {io io' : Io} {fuel : Nat} {complete : Bool} {os os' : ROs}
    {l : Option (List Byte)} (hI : io.Inv) (hns : io.kind ≠ .stdin) (hpb : io.pushback = [])
    (h : Io.retry (fun io os => io.getline fuel (some [nl]) none complete os) 2 io os
      = some (.ok l, io', os')) :
    Kept io io' ∧ (l, io'.rest) = lineSpec (some [nl]) none complete io.rest := by
  have fin : ∀ {io₁ : Io} {os₁ : ROs}, Kept io io₁ →
      lineSpec (some [nl]) none complete io₁.rest = lineSpec (some [nl]) none complete io.rest →
      Io.retry (fun io os => io.getline fuel (some [nl]) none complete os) 1 io₁ os₁
        = some (.ok l, io', os') →
      Kept io io' ∧ (l, io'.rest) = lineSpec (some [nl]) none complete io.rest := by
    intro io₁ os₁ hk he h
    unfold Io.retry at h
    split at h
    · cases h
    · simp [Io.retry] at h
    · simp [Io.retry] at h
    · rename_i hf
      simp only [Option.some.injEq, Prod.mk.injEq] at h
      obtain ⟨rfl, rfl, rfl⟩ := h
      obtain ⟨a1, a2, _⟩ := getline_spec hk.inv (by rw [hk.kind]; exact hns) hf
      exact ⟨hk.trans a1, (a2 _ rfl).trans he⟩
  have hz : ¬ io.fastPathHazard (some [nl]) none := fun hz => hz.2.2.1 hpb
  unfold Io.retry at h
  split at h
  · cases h
  · rename_i io₁ os₁ hf
    obtain ⟨a1, _, a3⟩ := getline_spec hI hns hf
    exact fin a1 (a3 _ rfl rfl hz) h
  · rename_i io₁ os₁ hf
    obtain ⟨a1, _, a3⟩ := getline_spec hI hns hf
    exact fin a1 (a3 _ rfl rfl hz) h
  · rename_i hf
    simp only [Option.some.injEq, Prod.mk.injEq] at h
    obtain ⟨rfl, rfl, rfl⟩ := h
    obtain ⟨a1, a2, _⟩ := getline_spec hI hns hf
    exact ⟨a1, a2 _ rfl⟩

/-- `"ab\ncd"` through a pipe, parked after the first byte. -/
example : view (Io.retry (fun io os => io.getline 9 (some [nl]) none true os) 2
      (samplePipe [97, 98, 10, 99, 100]) ⟨[], [.ready 0, .again, .ready 7]⟩)
    = some (some (some [97, 98, 10]), [99, 100]) := by decide +kernel

/-- **C44, failure.**  The bare `gets` parked *twice* in the middle of a line drops the bytes
gathered before the second park: the pipe holds `"abc\n"`, and the method returns `"c\n"`. -/
theorem C44_gets_twice_interrupted_loses :
    view (Io.retry (fun io os => io.getline 9 (some [nl]) none true os) 3
      (samplePipe [97, 98, 99, 10]) ⟨[], [.ready 0, .again, .ready 0, .again, .ready 7]⟩)
      = some (some (some [98, 99, 10]), []) ∧
    (lineSpec (some [nl]) none true (samplePipe [97, 98, 99, 10]).rest).1
      = some [97, 98, 99, 10] := by
  constructor <;> decide +kernel

/-- **C44, failure.**  On standard input the bytes gathered before an interrupt are dropped: of
`"abc\n"`, arriving one byte before the park, `gets` returns `"bc\n"`. -/
theorem C44_stdin_interrupted_loses :
    view (Io.retry (fun io os => io.getline 9 (some [nl]) none true os) 2
      ⟨.stdin, Reader.new ⟨[97, 98, 99, 10], 0, false⟩, []⟩ ⟨[], [.ready 0, .again, .ready 7]⟩)
      = some (some (some [98, 99, 10]), []) := by decide +kernel

/-- **C44, failure.**  `$stdin.gets("")` reads one byte past the blank lines to find the end of
the run and cannot give it back: the next paragraph loses its first byte. -/
theorem C44_stdin_paragraph_loses_byte :
    view (Io.getline 9 ⟨.stdin, Reader.new ⟨[97, 10, 10, 98, 99, 10], 0, false⟩, []⟩
      (some []) none true ⟨[], [.ready 9]⟩)
      = some (some (some [97, 10, 10]), [99, 10]) ∧
    lineSpec (some []) none true [97, 10, 10, 98, 99, 10] = (some [97, 10, 10], [98, 99, 10]) := by
  constructor <;> decide +kernel

/-! ### What a line is -/

theorem sepSpec_shape (sep : List Byte) (rest : List Byte) : ∀ (buf : List Byte) (c : Bool),
    ¬ sep <:+ buf →
    ∃ t, sepSpec sep none c buf rest = (buf ++ t, rest.drop t.length) ∧ rest = t ++ rest.drop t.length ∧
      (sep <:+ buf ++ t ∨ t = rest) ∧
      (∀ u, u <+: t → u ≠ t → ¬ sep <:+ buf ++ u) := by
  induction rest with
  | nil =>
    intro buf c _
    refine ⟨[], by simp [sepSpec], rfl, Or.inr rfl, ?_⟩
    intro u hu hne
    exact absurd (List.prefix_nil.1 hu) hne
  | cons b r ih =>
    intro buf c hbuf
    unfold sepSpec
    simp only [Option.any_none, Bool.false_eq_true, if_false]
    by_cases hs : sep.isSuffixOf (buf ++ [b]) = true
    · rw [if_pos hs]
      refine ⟨[b], by simp, by simp, Or.inl (List.isSuffixOf_iff_suffix.1 hs), ?_⟩
      intro u hu hne
      cases u with
      | nil => simpa using hbuf
      | cons x u =>
        obtain ⟨v, hv⟩ := hu
        simp only [List.cons_append, List.cons.injEq, List.append_eq_nil_iff] at hv
        obtain ⟨rfl, rfl, _⟩ := hv
        exact absurd rfl hne
    · rw [if_neg hs]
      obtain ⟨t, h1, h2, h3, h4⟩ := ih (buf ++ [b]) c
        (fun h => hs (List.isSuffixOf_iff_suffix.2 h))
      refine ⟨b :: t, ?_, ?_, ?_, ?_⟩
      · rw [h1]; simp
      · simp only [List.length_cons, List.drop_succ_cons, List.cons_append, List.cons.injEq,
          true_and]
        exact h2
      · rcases h3 with h3 | h3
        · left; simpa using h3
        · right; rw [h3]
      · intro u hu hne
        cases u with
        | nil => simpa using hbuf
        | cons x u =>
          obtain ⟨v, hv⟩ := hu
          simp only [List.cons_append, List.cons.injEq] at hv
          obtain ⟨rfl, hv⟩ := hv
          have := h4 u ⟨v, hv⟩ (fun h => hne (by rw [h]))
          simpa using this

/-- **C44, what a line is.**  With a separator and no limit the line and what follows it make up
the stream; the line ends in the separator unless it is the last one; and no proper prefix of it
ends in the separator.  There is no line exactly when the stream is at its end. -/
theorem C44_line_shape (sep : List Byte) (hsep : sep ≠ []) (c : Bool) (rest : List Byte) :
    match lineSpec (some sep) none c rest with
    | (none, r) => rest = [] ∧ r = []
    | (some l, r) =>
      rest = l ++ r ∧ l ≠ [] ∧ (sep <:+ l ∨ r = []) ∧ ∀ u, u <+: l → u ≠ l → ¬ sep <:+ u := by
  obtain ⟨t, h1, h2, h3, h4⟩ := sepSpec_shape sep rest [] c (by simpa using hsep)
  have : lineSpec (some sep) none c rest
      = (if (sepSpec sep none c [] rest).1 = [] then none
          else some (sepSpec sep none c [] rest).1, (sepSpec sep none c [] rest).2) := by
    cases sep with
    | nil => exact absurd rfl hsep
    | cons a b => rfl
  rw [this, h1]
  simp only [List.nil_append]
  simp only [List.nil_append] at h3 h4
  by_cases ht : t = []
  · subst ht
    rw [if_pos rfl]
    rcases h3 with h3 | h3
    · exact absurd (List.suffix_nil.1 h3) hsep
    · subst h3; exact ⟨rfl, rfl⟩
  · rw [if_neg ht]
    refine ⟨h2, ht, ?_, h4⟩
    rcases h3 with h3 | h3
    · exact Or.inl h3
    · right; rw [h3]; simp

theorem sepSpec_limit (sep : List Byte) (n : Nat) (rest : List Byte) : ∀ (buf : List Byte) (c : Bool),
    (sepSpec sep (some n) c buf rest).1 ++ (sepSpec sep (some n) c buf rest).2 = buf ++ rest ∧
    (c = false → buf.length ≤ n → (sepSpec sep (some n) c buf rest).1.length ≤ n) := by
  induction rest with
  | nil =>
    intro buf c
    unfold sepSpec
    split
    · refine ⟨(limitSpec_append c buf []).1, ?_⟩
      rintro rfl hb
      simpa [limitSpec] using hb
    · exact ⟨rfl, fun _ h => h⟩
  | cons b r ih =>
    intro buf c
    unfold sepSpec
    split
    · refine ⟨(limitSpec_append c buf _).1, ?_⟩
      rintro rfl hb
      simpa [limitSpec] using hb
    · rename_i hl
      simp only [Option.any_some, decide_eq_true_eq] at hl
      split
      · exact ⟨by simp, fun _ _ => by simp; omega⟩
      · obtain ⟨i1, i2⟩ := ih (buf ++ [b]) c
        exact ⟨by rw [i1]; simp, fun hc _ => i2 hc (by simp; omega)⟩

/-- **C44, limits.**  With a limit, the line and what follows it still make up the stream, and a
line whose encoding is not completed is no longer than the limit. -/
theorem C44_limit_shape (sep : List Byte) (hsep : sep ≠ []) (n : Nat) (hn : n ≠ 0) (c : Bool)
    (rest : List Byte) :
    ((lineSpec (some sep) (some n) c rest).1.getD []) ++ (lineSpec (some sep) (some n) c rest).2
      = rest ∧
    (c = false → ((lineSpec (some sep) (some n) c rest).1.getD []).length ≤ n) := by
  have : lineSpec (some sep) (some n) c rest
      = (if (sepSpec sep (some n) c [] rest).1 = [] then none
          else some (sepSpec sep (some n) c [] rest).1, (sepSpec sep (some n) c [] rest).2) := by
    unfold lineSpec
    rw [if_neg (by simpa using hn)]
    cases sep with
    | nil => exact absurd rfl hsep
    | cons a b => rfl
  obtain ⟨h1, h2⟩ := sepSpec_limit sep n rest [] c
  rw [this]
  by_cases h0 : (sepSpec sep (some n) c [] rest).1 = []
  · rw [if_pos h0]
    rw [h0] at h1
    exact ⟨by simpa using h1, by simp⟩
  · rw [if_neg h0]
    exact ⟨by simpa using h1, fun hc => by simpa using h2 hc (by simp)⟩

/-- `"é\n"` cut at one byte is completed to the whole character. -/
example : lineSpec (some [nl]) (some 1) true [0xc3, 0xa9, 10, 97] = (some [0xc3, 0xa9], [10, 97]) := by
  decide

example : lineSpec (some [44, 44]) none true [97, 44, 98, 44, 44, 99]
    = (some [97, 44, 98, 44, 44], [99]) := by decide

example : lineSpec (some []) none true [10, 10, 97, 10, 98, 10, 10, 10, 99]
    = (some [97, 10, 98, 10, 10], [99]) := by decide

/-! ### `ungetc`, `eof?`, `readpartial`, `getc`, `sysread` -/

/-- **C44.**  Bytes given back with `ungetc`/`ungetbyte` are read again first, and nothing else
moves. -/
theorem C44_unget {io io' : Io} {bs : List Byte} (hI : io.Inv)
    (h : io.unget bs = some io') : Kept io io' ∧ io'.rest = bs ++ io.rest := by
  unfold Io.unget at h
  cases hk : io.kind with
  | stdin => simp [hk] at h
  | file =>
    simp only [hk, Option.some.injEq] at h
    subst h
    exact ⟨⟨⟨hI.rd, fun h' => by simp at h'⟩, hk.symm, rfl⟩, by simp [Io.rest]⟩
  | popen =>
    simp only [hk, Option.some.injEq] at h
    subst h
    exact ⟨⟨⟨hI.rd, fun h' => by simp at h'⟩, hk.symm, rfl⟩, by simp [Io.rest]⟩

/-- **C44.**  `eof?` says whether anything is left to read and takes nothing from the stream:
neither when it answers nor when it is interrupted. -/
theorem C44_eof {io io' : Io} {os os' : ROs} {res : Except RErr Bool}
    (hI : io.Inv) (hns : io.kind ≠ .stdin) (hoff : (io.rd.fd.data.length : Int) ≤ offMax)
    (h : io.eof os = some (res, io', os')) :
    Kept io io' ∧ (∀ b, res = .ok b → (b = true ↔ io.rest = []) ∧ io'.rest = io.rest) ∧
    (∀ e, res = .error e → e.restartable = true → io'.rest = io.rest) := by
  unfold Io.eof at h
  split at h
  · rename_i hc
    simp only [Option.some.injEq, Prod.mk.injEq] at h
    obtain ⟨rfl, rfl, rfl⟩ := h
    refine ⟨Kept.refl hI, ?_, by simp⟩
    intro b hb
    simp only [Except.ok.injEq] at hb
    subst hb
    refine ⟨⟨(fun h => by cases h), ?_⟩, rfl⟩
    intro h0
    simp only [Io.rest, List.append_eq_nil_iff] at h0
    rcases hc with hc | hc
    · rw [h0.1] at hc; simp at hc
    · have := hI.rd.buf
      rw [show io.rd.fd.data.drop (io.rd.fd.off - (io.rd.cap - io.rd.pos)) = [] from h0.2] at this
      exact absurd (by simpa using this) hc
  · rename_i hc
    simp only [not_or, Nat.not_lt, Nat.le_zero_eq, List.length_eq_zero_iff] at hc
    have hpb := hc.1
    have himpl : ∀ os, io.readImpl (some 1) true os = io.readUnderlying (some 1) true os := by
      intro os; unfold Io.readImpl; rw [hpb]; rfl
    rw [himpl] at h
    split at h
    · cases h
    · rename_i e io₁ os₁ hr
      simp only [Option.some.injEq, Prod.mk.injEq] at h
      obtain ⟨rfl, rfl, rfl⟩ := h
      obtain ⟨a1, _, a3⟩ := readUnderlying_spec hI hpb hr
      refine ⟨a1, by simp, ?_⟩
      intro e' he hre
      simp only [Except.error.injEq] at he
      subst he
      exact a3 _ rfl hre hns
    · rename_i buf io₁ os₁ hr
      obtain ⟨a1, a2, _⟩ := readUnderlying_spec hI hpb hr
      obtain ⟨⟨b0, blp⟩, bb, _⟩ := a2 _ rfl
      obtain ⟨b1, b2⟩ := bb 1 rfl
      have hsplit : io.rest = buf ++ io₁.rest := by rw [b1, b2, List.take_append_drop]
      split at h
      · rename_i h0
        simp only [Option.some.injEq, Prod.mk.injEq] at h
        obtain ⟨rfl, rfl, rfl⟩ := h
        refine ⟨a1, ?_, by simp⟩
        intro b hb
        simp only [Except.ok.injEq] at hb
        subst hb
        have hr0 : io.rest = [] := by rw [h0] at b1; simpa using b1.symm
        refine ⟨by simp [hr0], ?_⟩
        rw [b2, hr0]; rfl
      · rename_i h0
        have hne : io.rest ≠ [] := by
          intro hr0; rw [hr0] at b1; exact h0 (by simpa using b1)
        have hrest : io.rest = io.rd.fd.data.drop io.rd.lp := by simp [Io.rest, hpb]
        have hlt : io.rd.lp < io.rd.fd.data.length := by
          rcases Nat.lt_or_ge io.rd.lp io.rd.fd.data.length with h | h
          · exact h
          · exact absurd (by rw [hrest]; exact List.drop_eq_nil_of_le h) hne
        have hbl : buf.length = 1 := by
          rw [b1, hrest]; simp; omega
        rw [hbl] at blp
        have hd := Reader.key_data a1.key
        split at h
        · rename_i hs
          simp only [Option.some.injEq, Prod.mk.injEq] at h
          obtain ⟨rfl, rfl, rfl⟩ := h
          have hoff₁ : (io₁.rd.fd.off : Int) ≤ offMax := by
            have hI₁ := a1.inv.rd
            have hl1 := buffer_length hI₁
            have hl2 := congrArg List.length hI₁.buf
            rw [hl1, List.length_take, List.length_drop, hd] at hl2
            have hle := hI₁.le
            have hlp : io₁.rd.lp = io₁.rd.fd.off - (io₁.rd.cap - io₁.rd.pos) := rfl
            omega
          obtain ⟨s1, s2⟩ := C21_seek (w := .current (-1)) a1.inv.rd hoff₁
            (by intro n hn; cases hn; decide)
          obtain ⟨p, hp⟩ := Option.isSome_iff_exists.1 hs.2
          rw [hp] at s2
          obtain ⟨_, _, _, t4, t5⟩ := s2
          have hp' : p = io.rd.lp := by
            have : (Reader.plain io₁.rd).target (.current (-1)) = (io₁.rd.lp : Int) + (-1) := rfl
            rw [this] at t4
            clear hoff hoff₁
            omega
          have e0 : (io₁.rd.seek (.current (-1))).2.key = io.rd.key := by
            have h1 := congrArg Plain.data t5
            have h2 := congrArg Plain.seekable t5
            refine Eq.trans ?_ a1.key
            exact Prod.ext h1 h2
          refine ⟨⟨⟨s1, fun hk => absurd (by rw [← a1.kind]; exact hk) hns⟩, a1.kind, e0⟩, ?_,
            by simp⟩
          intro b hb
          simp only [Except.ok.injEq] at hb
          subst hb
          refine ⟨by simp [hne], ?_⟩
          have e1 : (io₁.rd.seek (.current (-1))).2.fd.data = io.rd.fd.data := by
            have := congrArg Plain.data t5; exact this.trans hd
          have e2 : (io₁.rd.seek (.current (-1))).2.lp = io.rd.lp := by
            have := congrArg Plain.pos t5; exact this.trans hp'
          show io₁.pushback ++ List.drop _ _ = _
          rw [e1, e2, b0, hrest]; rfl
        · split at h
          · rename_i hu
            simp only [Option.some.injEq, Prod.mk.injEq] at h
            obtain ⟨rfl, rfl, rfl⟩ := h
            have hns₁ : io₁.kind ≠ .stdin := by rw [a1.kind]; exact hns
            unfold Io.unget at hu
            cases hk : io₁.kind with
            | stdin => exact absurd hk hns₁
            | file => rw [hk] at hu; cases hu
            | popen => rw [hk] at hu; cases hu
          · rename_i io₂ hu
            simp only [Option.some.injEq, Prod.mk.injEq] at h
            obtain ⟨rfl, rfl, rfl⟩ := h
            obtain ⟨u1, u2⟩ := C44_unget a1.inv hu
            refine ⟨a1.trans u1, ?_, by simp⟩
            intro b hb
            simp only [Except.ok.injEq] at hb
            subst hb
            exact ⟨by simp [hne], by rw [u2, hsplit]⟩

example : view ((samplePipe [7, 8]).eof ⟨[], [.ready 3]⟩) = some (some false, [7, 8]) := by
  decide +kernel

/-- **C44, failure.**  `$stdin.eof?` with input available raises: the byte it read ahead cannot
be given back, and is lost as well. -/
theorem C44_stdin_eof_raises :
    view ((⟨.stdin, Reader.new ⟨[7, 8], 0, false⟩, []⟩ : Io).eof ⟨[], [.ready 0]⟩)
      = some (none, [8]) := by decide +kernel

/-- **C44.**  `readpartial(n)` returns the next bytes, at most `n` and none only at the end of
the stream; when it is interrupted nothing is lost. -/
theorem C44_readpartial {io io' : Io} {n : Nat} {os os' : ROs} {res : Except RErr (List Byte)}
    (hI : io.Inv) (h : io.readpartial n os = some (res, io', os')) :
    Kept io io' ∧
    (∀ bs, res = .ok bs → io.rest = bs ++ io'.rest ∧ bs.length ≤ n ∧
      (bs = [] → n = 0 ∨ io.rest = [])) ∧
    (∀ e, res = .error e → io'.rest = io.rest) := by
  unfold Io.readpartial at h
  split at h
  · rename_i hpos
    split at h
    · rename_i hge
      simp only [Option.some.injEq, Prod.mk.injEq] at h
      obtain ⟨rfl, rfl, rfl⟩ := h
      refine ⟨⟨⟨hI.rd, fun hk => ?_⟩, rfl, rfl⟩, ?_, by simp⟩
      · have := hI.pb hk; simp [Io.takePushback, this]
      · intro bs hbs
        simp only [Except.ok.injEq] at hbs
        subst hbs
        simp only [Io.takePushback, Io.rest] at hge ⊢
        refine ⟨by rw [← List.append_assoc, List.take_append_drop], by simp; omega, ?_⟩
        intro h0
        have := congrArg List.length h0
        rw [List.length_take, List.length_nil] at this
        omega
    · rename_i hlt
      simp only [Io.takePushback, List.length_take] at hlt
      have hmin : min n io.pushback.length = io.pushback.length := by omega
      have htk : (io.takePushback (some n)).1 = io.pushback := by simp [Io.takePushback, hmin]
      have hpb0 : (io.takePushback (some n)).2.pushback = [] := by simp [Io.takePushback, hmin]
      have hrd : (io.takePushback (some n)).2.rd = io.rd := rfl
      split at h
      · cases h
      · rename_i chunk rd os₁ hr
        simp only [Option.some.injEq, Prod.mk.injEq] at h
        obtain ⟨rfl, rfl, rfl⟩ := h
        rw [hrd] at hr
        obtain ⟨p1, p2, p3, _⟩ := readPartialChunk_spec _ _ _ hI.rd hr
        obtain ⟨q1, q2, q3, _⟩ := p3 chunk rfl
        have hd := Reader.key_data p2
        refine ⟨⟨⟨p1, fun _ => hpb0⟩, rfl, p2⟩, ?_, by simp⟩
        intro bs hbs
        simp only [Except.ok.injEq] at hbs
        subst hbs
        rw [htk] at q3 ⊢
        refine ⟨?_, ?_, ?_⟩
        · simp only [Io.rest, hpb0, List.nil_append, hd]
          rw [List.append_assoc, ← slice_split q1 q2]
        · simp; omega
        · intro h0
          simp only [List.append_eq_nil_iff] at h0
          rw [h0.1] at hpos; simp at hpos
      · rename_i e rd os₁ hr
        obtain ⟨_, _, _, p4⟩ := readPartialChunk_spec _ _ _ hI.rd hr
        exact absurd (p4 e rfl).2 (by simp)
  · rename_i hpos
    have hpb : io.pushback = [] := List.eq_nil_of_length_eq_zero (by omega)
    split at h
    · rename_i hn
      simp only [Option.some.injEq, Prod.mk.injEq] at h
      obtain ⟨rfl, rfl, rfl⟩ := h
      refine ⟨Kept.refl hI, ?_, by simp⟩
      intro bs hbs
      simp only [Except.ok.injEq] at hbs
      subst hbs
      exact ⟨rfl, by simp, fun _ => Or.inl hn⟩
    · rename_i hn
      split at h
      · cases h
      · rename_i chunk rd os₁ hr
        simp only [Option.some.injEq, Prod.mk.injEq] at h
        obtain ⟨rfl, rfl, rfl⟩ := h
        obtain ⟨p1, p2, p3, _⟩ := readPartialChunk_spec _ _ _ hI.rd hr
        obtain ⟨q1, q2, q3, q4⟩ := p3 chunk rfl
        have hd := Reader.key_data p2
        refine ⟨⟨⟨p1, hI.pb⟩, rfl, p2⟩, ?_, by simp⟩
        intro bs hbs
        simp only [Except.ok.injEq] at hbs
        subst hbs
        refine ⟨?_, q3, ?_⟩
        · simp only [Io.rest, hpb, List.nil_append, hd]
          exact slice_split q1 q2
        · intro h0
          rcases q4 h0 rfl with h | h
          · exact absurd h hn
          · right; simp only [Io.rest, hpb, List.nil_append]; exact List.drop_eq_nil_of_le h
      · rename_i e rd os₁ hr
        simp only [Option.some.injEq, Prod.mk.injEq] at h
        obtain ⟨rfl, rfl, rfl⟩ := h
        obtain ⟨p1, p2, _, p4⟩ := readPartialChunk_spec _ _ _ hI.rd hr
        have hd := Reader.key_data p2
        refine ⟨⟨⟨p1, hI.pb⟩, rfl, p2⟩, by simp, ?_⟩
        intro e' _
        simp only [Io.rest, hd, (p4 e rfl).1]

example : view ((samplePipe [7, 8, 9]).readpartial 2 ⟨[], [.ready 0]⟩) = some (some [7], [8, 9]) := by
  decide +kernel

theorem charLoop_spec {io io' : Io} {k total : Nat} {buf : List Byte} {os os' : ROs}
    {res : Except RErr (List Byte)} (hI : io.Inv) (hns : io.kind ≠ .stdin)
    (hne : buf ≠ []) (hlen : buf.length ≤ total)
    (h : io.charLoop k total buf os = some (res, io', os')) :
    Kept io io' ∧
    (∀ bs, res = .ok bs → bs = (buf ++ io.rest).take total ∧ io'.rest = (buf ++ io.rest).drop total) ∧
    (res = .error .intr → io'.rest = buf ++ io.rest) := by
  induction k generalizing io buf os with
  | zero => simp [Io.charLoop] at h
  | succ k ih =>
    unfold Io.charLoop at h
    split at h
    · rename_i hlt
      split at h
      · cases h
      · rename_i next io₁ os₁ hr
        obtain ⟨a1, a2, _⟩ := readImpl_spec hI hr
        obtain ⟨b1, b2⟩ := (a2 _ rfl).1 _ rfl
        have hsplit : io.rest = next ++ io₁.rest := by rw [b1, b2, List.take_append_drop]
        have hnl : next.length ≤ total - buf.length := by rw [b1]; simp; omega
        split at h
        · rename_i h0
          simp only [Option.some.injEq, Prod.mk.injEq] at h
          obtain ⟨rfl, rfl, rfl⟩ := h
          refine ⟨a1, ?_, by simp⟩
          intro bs hbs
          simp only [Except.ok.injEq] at hbs
          subst hbs
          have hr0 : io.rest = [] := by
            rw [h0] at b1
            have := congrArg List.length b1
            rw [List.length_take, List.length_nil] at this
            exact List.eq_nil_of_length_eq_zero (by omega)
          rw [b2, hr0]
          simp [List.take_of_length_le hlen, hlen]
        · rename_i h0
          obtain ⟨i1, i2, i3⟩ := ih a1.inv (by rw [a1.kind]; exact hns) (by simp [hne])
            (by simp; omega) h
          rw [List.append_assoc, ← hsplit] at i2 i3
          exact ⟨a1.trans i1, i2, i3⟩
      · rename_i e io₁ os₁ hr
        obtain ⟨a1, _, a3⟩ := readImpl_spec hI hr
        split at h
        · rename_i hc
          simp only [Option.some.injEq, Prod.mk.injEq] at h
          obtain ⟨rfl, rfl, rfl⟩ := h
          obtain ⟨u1, u2⟩ := ungetQuiet_spec a1.inv (by rw [a1.kind]; exact hns) buf
          refine ⟨a1.trans u1, by simp, ?_⟩
          intro _
          rw [u2, a3 e rfl (by rw [hc.1]; rfl) hns]
        · rename_i hc
          simp only [Option.some.injEq, Prod.mk.injEq] at h
          obtain ⟨rfl, rfl, rfl⟩ := h
          refine ⟨a1, by simp, ?_⟩
          intro he
          simp only [Except.error.injEq] at he
          exact absurd ⟨he, hne⟩ hc
    · rename_i hge
      simp only [Option.some.injEq, Prod.mk.injEq] at h
      obtain ⟨rfl, rfl, rfl⟩ := h
      refine ⟨Kept.refl hI, ?_, by simp⟩
      intro bs hbs
      simp only [Except.ok.injEq] at hbs
      subst hbs
      have : total = buf.length := by omega
      subst this
      simp

theorem charTotal_pos (b : Byte) : 1 ≤ charTotal b := by
  unfold charTotal; split <;> (try split) <;> (try split) <;> (try split) <;> omega

/-- **C44.**  `getc` returns the bytes of the next character, as many as its first byte announces
(fewer only at the end of the stream), and an attempt cut short by a signal loses nothing.  What
is missing: an attempt that would block, see `C44_getc_parked_loses`. -/
theorem C44_getc_partial {io io' : Io} {os os' : ROs} {res : Except RErr (List Byte)}
    (hI : io.Inv) (hns : io.kind ≠ .stdin) (h : io.readChar os = some (res, io', os')) :
    Kept io io' ∧ (∀ bs, res = .ok bs → (bs, io'.rest) = charSpec io.rest) ∧
    (res = .error .intr → io'.rest = io.rest) := by
  unfold Io.readChar at h
  split at h
  · cases h
  · rename_i first io₁ os₁ hr
    have hrs := readImpl_spec hI hr
    have a1 := hrs.1
    obtain ⟨b1, b2⟩ := (hrs.2.1 _ rfl).1 1 rfl
    have hsplit : io.rest = first ++ io₁.rest := by rw [b1, b2, List.take_append_drop]
    clear hrs
    split at h
    · simp only [Option.some.injEq, Prod.mk.injEq] at h
      obtain ⟨rfl, rfl, rfl⟩ := h
      refine ⟨a1, ?_, by simp⟩
      intro bs hbs
      simp only [Except.ok.injEq] at hbs
      subst hbs
      have hr0 : io.rest = [] := by simpa using b1.symm
      rw [b2, hr0]; rfl
    · rename_i _ b t
      have ht : t = [] := by
        have := congrArg List.length b1
        rw [List.length_take, List.length_cons] at this
        exact List.eq_nil_of_length_eq_zero (by omega)
      subst ht
      obtain ⟨c1, c2, c3⟩ := charLoop_spec a1.inv (by rw [a1.kind]; exact hns) (by simp)
        (charTotal_pos b) h
      rw [← hsplit] at c2 c3
      refine ⟨a1.trans c1, ?_, c3⟩
      intro bs hbs
      obtain ⟨d1, d2⟩ := c2 bs hbs
      rw [d1, d2]
      rw [hsplit]; rfl
  · rename_i e io₁ os₁ hr
    simp only [Option.some.injEq, Prod.mk.injEq] at h
    obtain ⟨rfl, rfl, rfl⟩ := h
    obtain ⟨a1, _, a3⟩ := readImpl_spec hI hr
    refine ⟨a1, by simp, ?_⟩
    intro he
    simp only [Except.error.injEq] at he
    exact a3 e rfl (by rw [he]; rfl) hns

example : view ((samplePipe [0xe3, 0x81, 0x82, 97]).readChar ⟨[], [.ready 0, .ready 0, .ready 0]⟩)
    = some (some [0xe3, 0x81, 0x82], [97]) := by decide +kernel

/-- **C44, failure.**  `getc` parked after the first byte of a three-byte character drops that
byte: the program reads `"\x81"` where the stream holds `"あ"`. -/
theorem C44_getc_parked_loses :
    view (Io.retry (fun io os => io.readChar os) 2 (samplePipe [0xe3, 0x81, 0x82])
      ⟨[], [.ready 0, .again, .ready 0, .ready 0]⟩) = some (some [0x81], [0x82]) ∧
    charSpec [0xe3, 0x81, 0x82] = ([0xe3, 0x81, 0x82], []) := by
  constructor <;> decide +kernel

/-- **C44, failure.**  `sysread` on a pipe reads behind the bytes an earlier buffered read left
in the buffer: after `getbyte` on `1 2 3 4` of which three had arrived, it returns `4`. -/
theorem C44_sysread_overtakes_buffer :
    (((samplePipe [1, 2, 3, 4]).readImpl (some 1) false ⟨[], [.ready 2, .ready 2]⟩).bind
      fun r => (r.2.1.sysread 5 r.2.2).bind fun q =>
        (q.2.1.readImpl (some 2) true q.2.2).map fun p =>
          (r.1.toOption, q.1.toOption, p.1.toOption))
      = some (some [1], some [4], some [2, 3]) := by
  decide +kernel

/-! ### The reads do finish -/

/-- No signals, and every `read(2)` delivers. -/
def Quiet (os : ROs) : Prop := os.polls = [] ∧ ∀ a ∈ os.rd, ∃ n, a = .ready n

/-- A reader that answers as long as the kernel does, at the cost of at most one answer. -/
def Answers {σ : Type} (rd : Rd σ) : Prop :=
  ∀ s want os, Quiet os → 0 < os.rd.length →
    ∃ bs s' os', rd s want os = some (.ok bs, s', os') ∧ Quiet os' ∧
      os.rd.length ≤ os'.rd.length + 1

theorem fd_answers : Answers Fd.read := by
  intro s want os hq hl
  obtain ⟨hp, hr⟩ := hq
  cases hrd : os.rd with
  | nil => rw [hrd] at hl; simp at hl
  | cons a rd =>
    obtain ⟨n, rfl⟩ := hr a (by rw [hrd]; simp)
    refine ⟨_, _, ⟨os.polls, rd⟩, by unfold Fd.read; rw [hrd], ⟨hp, fun b hb => hr b (by rw [hrd]; simp [hb])⟩, ?_⟩
    simp

theorem reader_answers : Answers Reader.read := by
  intro r want os hq hl
  unfold Reader.read
  split
  · obtain ⟨bs, s', os', h1, h2, h3⟩ := fd_answers r.discard.fd want os hq hl
    exact ⟨bs, _, os', by rw [h1], h2, h3⟩
  · by_cases hc : r.pos ≥ r.cap
    · obtain ⟨bs, s', os', h1, h2, h3⟩ := fd_answers r.fd r.arr.length os hq hl
      have : r.fillBuf os = some (.ok bs,
          { fd := s', arr := bs ++ r.arr.drop bs.length, pos := 0, cap := bs.length }, os') := by
        unfold Reader.fillBuf; rw [if_pos hc, h1]
      rw [this]
      exact ⟨_, _, os', rfl, h2, h3⟩
    · have : r.fillBuf os = some (.ok r.buffer, r, os) := by
        unfold Reader.fillBuf; rw [if_neg hc]
      rw [this]
      exact ⟨_, _, os, rfl, hq, by omega⟩

theorem readUpto_completes {σ : Type} {rd : Rd σ} (ha : Answers rd) (k : Nat) :
    ∀ (s : σ) (len : Nat) (out : List Byte) (os : ROs), Quiet os → len - out.length < k →
      len - out.length ≤ os.rd.length →
      ∃ out' s' os', readUpto rd k s len out os = some (.ok (), out', s', os') ∧ Quiet os' ∧
        os.rd.length ≤ os'.rd.length + (len - out.length) := by
  induction k with
  | zero => intro s len out os _ h; omega
  | succ k ih =>
    intro s len out os hq hk hl
    unfold readUpto
    split
    · rename_i hlt
      have hp : (pollSig os.polls) = (false, []) := by rw [hq.1]; rfl
      rw [hp]
      simp only [Bool.false_eq_true, if_false]
      have hq' : Quiet { os with polls := [] } := ⟨rfl, hq.2⟩
      obtain ⟨bs, s', os', h1, h2, h3⟩ := ha s (min (len - out.length) readChunk)
        { os with polls := [] } hq' (by simp only; omega)
      have hstep : readStep rd (os.rd.length + 1) s (min (len - out.length) readChunk)
          { os with polls := [] } = some (.ok bs, s', os') := by
        unfold readStep; rw [h1]
      rw [hstep]
      simp only at h3
      dsimp only
      split
      · exact ⟨_, _, _, rfl, h2, by omega⟩
      · rename_i hb
        obtain ⟨o, s'', os'', i1, i2, i3⟩ := ih s' len (out ++ bs) os' h2
          (by rw [List.length_append]; omega) (by rw [List.length_append]; omega)
        rw [List.length_append] at i3
        exact ⟨o, s'', os'', i1, i2, by omega⟩
    · exact ⟨_, _, _, rfl, hq, by omega⟩

theorem readImpl_completes (io : Io) (n : Nat) (exact' : Bool) (os : ROs) (hq : Quiet os)
    (hl : n ≤ os.rd.length) :
    ∃ bs io' os', io.readImpl (some n) exact' os = some (.ok bs, io', os') ∧ Quiet os' ∧
      os.rd.length ≤ os'.rd.length + n := by
  have und : ∀ (io : Io) (m : Nat), m ≤ n → ∃ bs io' os',
      io.readUnderlying (some m) exact' os = some (.ok bs, io', os') ∧ Quiet os' ∧
      os.rd.length ≤ os'.rd.length + n := by
    intro io m hm
    unfold Io.readUnderlying
    dsimp only
    split
    · split
      · obtain ⟨o, s', os', h1, h2, h3⟩ := readUpto_completes fd_answers (m + 1)
          (io.rd.consume (min io.rd.buffer.length m)).fd m
          (io.rd.buffer.take (min io.rd.buffer.length m)) os hq (by omega) (by omega)
        rw [h1]
        exact ⟨_, _, _, rfl, h2, by omega⟩
      · exact ⟨_, _, _, rfl, hq, by omega⟩
    · obtain ⟨o, s', os', h1, h2, h3⟩ := readUpto_completes reader_answers (m + 1) io.rd m [] os hq
        (by simp) (by simp; omega)
      rw [h1]
      exact ⟨_, _, _, rfl, h2, by simp at h3; omega⟩
  unfold Io.readImpl
  split
  · split
    · exact ⟨_, _, _, rfl, hq, by omega⟩
    · rename_i m hm0 heq
      cases heq
      split
      · exact ⟨_, _, _, rfl, hq, by omega⟩
      · unfold Io.readMorePreserving
        obtain ⟨bs, io', os', h1, h2, h3⟩ := und (io.takePushback none).2
          (n - (io.takePushback none).1.length) (by omega)
        rw [h1]
        exact ⟨_, _, _, rfl, h2, h3⟩
    · rename_i heq; cases heq
  · exact und io n (Nat.le_refl _)

/-- **C44.**  `read(n)` returns: if no signal arrives and the kernel answers `n` times, the method
returns the next `n` bytes. -/
theorem C44_read_completes {io : Io} (hI : io.Inv) (n : Nat) (exact' : Bool) (os : ROs)
    (hq : Quiet os) (hl : n ≤ os.rd.length) :
    ∃ io' os', io.readImpl (some n) exact' os = some (.ok (io.rest.take n), io', os') ∧
      io'.rest = io.rest.drop n := by
  obtain ⟨bs, io', os', h1, _, _⟩ := readImpl_completes io n exact' os hq hl
  obtain ⟨_, a2, _⟩ := readImpl_spec hI h1
  obtain ⟨b1, b2⟩ := (a2 _ rfl).1 n rfl
  exact ⟨io', os', by rw [h1, b1], b2⟩

theorem sepLoop_completes (sep : List Byte) (k : Nat) :
    ∀ (io : Io) (buf : List Byte) (os : ROs), io.Inv → Quiet os → io.rest.length < k →
      io.rest.length < os.rd.length →
      ∃ l io' os', io.sepLoop k sep none false buf os = some (.ok l, io', os') := by
  induction k with
  | zero => intro io buf os _ _ h; omega
  | succ k ih =>
    intro io buf os hI hq hk hl
    unfold Io.sepLoop
    simp only [Option.any_none, Bool.false_eq_true, if_false]
    obtain ⟨bs, io₁, os₁, h1, h2, h3⟩ := readImpl_completes io 1 true os hq (by omega)
    obtain ⟨a1, a2, _⟩ := readImpl_spec hI h1
    obtain ⟨b1, b2⟩ := (a2 _ rfl).1 1 rfl
    have hr : io.read1Preserving buf os = some (.ok bs.head?, io₁, os₁) := by
      unfold Io.read1Preserving Io.read1; rw [h1]
    rw [hr]
    cases hb : bs with
    | nil => exact ⟨_, _, _, rfl⟩
    | cons b t =>
      simp only [List.head?_cons]
      split
      · exact ⟨_, _, _, rfl⟩
      · have hlen : io₁.rest.length + 1 = io.rest.length := by
          have := congrArg List.length b1
          rw [hb, List.length_take] at this
          rw [b2, List.length_drop]
          simp at this
          omega
        exact ih io₁ _ os₁ a1.inv h2 (by omega) (by omega)

/-- **C44.**  `gets(sep)` returns: if no signal arrives and the kernel answers often enough, the
method returns the line. -/
theorem C44_gets_completes {io : Io} (hI : io.Inv) (hns : io.kind ≠ .stdin) (sep : List Byte)
    (hsep : sep ≠ [] ∧ sep ≠ [nl]) (os : ROs) (hq : Quiet os) (hl : io.rest.length < os.rd.length) :
    ∃ io' os', io.getline (io.rest.length + 1) (some sep) none false os
        = some (.ok (lineSpec (some sep) none false io.rest).1, io', os') ∧
      io'.rest = (lineSpec (some sep) none false io.rest).2 := by
  obtain ⟨l, io', os', h⟩ := sepLoop_completes sep (io.rest.length + 1) io [] os hI hq
    (by omega) hl
  have hg : io.getline (io.rest.length + 1) (some sep) none false os
      = some (.ok (if l = [] then none else some l), io', os') := by
    unfold Io.getline
    rw [if_neg (by simp)]
    cases sep with
    | nil => exact absurd rfl hsep.1
    | cons a t =>
      simp only
      rw [if_neg (by simp only [and_true]; exact hsep.2), h]
  obtain ⟨_, a2, _⟩ := getline_spec hI hns hg
  have := a2 _ rfl
  refine ⟨io', os', ?_, ?_⟩
  · rw [hg, ← this]
  · rw [← this]

example : Quiet ⟨[], List.replicate 9 (.ready 3)⟩ :=
  ⟨rfl, fun _ h => ⟨3, (List.mem_replicate.1 h).2⟩⟩

/-! ### Histories -/

/-- The reading methods. -/
inductive LOp where
  | read (n : Option Nat)
  | getbyte
  | gets (sep : Option (List Byte)) (limit : Option Nat) (complete : Bool)
  | getc
  | unget (bs : List Byte)
  | eof
  | readpartial (n : Nat)

/-- What a method returned. -/
inductive LOut where
  | bytes (bs : List Byte)
  | line (l : Option (List Byte))
  | bool (b : Bool)
  | done

/-- One call, attempted until it is not interrupted any more; `none` if it raised or did not
finish. -/
def Io.call (fuel : Nat) (io : Io) (os : ROs) : LOp → Option (LOut × Io × ROs)
  | .read n =>
    match Io.retry (fun io os => io.readImpl n true os) fuel io os with
    | some (.ok bs, io', os') => some (.bytes bs, io', os')
    | _ => none
  | .getbyte =>
    match Io.retry (fun io os => io.readImpl (some 1) false os) fuel io os with
    | some (.ok bs, io', os') => some (.bytes bs, io', os')
    | _ => none
  | .gets sep limit c =>
    match Io.retry (fun io os => io.getline fuel sep limit c os) fuel io os with
    | some (.ok l, io', os') => some (.line l, io', os')
    | _ => none
  | .getc =>
    match io.readChar os with
    | some (.ok bs, io', os') => some (.bytes bs, io', os')
    | _ => none
  | .unget bs =>
    match io.unget bs with
    | some io' => some (.done, io', os)
    | none => none
  | .eof =>
    match io.eof os with
    | some (.ok b, io', os') => some (.bool b, io', os')
    | _ => none
  | .readpartial n =>
    match io.readpartial n os with
    | some (.ok bs, io', os') => some (.bytes bs, io', os')
    | _ => none

/-- What a call may return and leave, given what there was to read. -/
def CallSpec (rest : List Byte) : LOp → LOut → List Byte → Prop
  | .read (some n), .bytes bs, r => bs = rest.take n ∧ r = rest.drop n
  | .read none, .bytes bs, r => bs = rest ∧ r = []
  | .getbyte, .bytes bs, r => bs = rest.take 1 ∧ r = rest.drop 1
  | .gets sep limit c, .line l, r => (l, r) = lineSpec sep limit c rest
  | .getc, .bytes bs, r => (bs, r) = charSpec rest
  | .unget bs, .done, r => r = bs ++ rest
  | .eof, .bool b, r => (b = true ↔ rest = []) ∧ r = rest
  | .readpartial n, .bytes bs, r => rest = bs ++ r ∧ bs.length ≤ n ∧ (bs = [] → n = 0 ∨ rest = [])
  | _, _, _ => False

/-- A sequence of calls with what they returned. -/
def Io.calls (fuel : Nat) : Io → ROs → List LOp → Option (List LOut × Io)
  | io, _, [] => some ([], io)
  | io, os, op :: ops =>
    match io.call fuel os op with
    | none => none
    | some (o, io', os') =>
      match io'.calls fuel os' ops with
      | none => none
      | some (outs, io'') => some (o :: outs, io'')

/-- The same for a byte sequence without buffers or interrupts. -/
def CallsSpec : List Byte → List LOp → List LOut → List Byte → Prop
  | rest, [], [], r => r = rest
  | rest, op :: ops, o :: outs, r => ∃ mid, CallSpec rest op o mid ∧ CallsSpec mid ops outs r
  | _, _, _, _ => False

theorem call_spec {fuel : Nat} {io io' : Io} {os os' : ROs} {op : LOp} {o : LOut}
    (hI : io.Inv) (hns : io.kind ≠ .stdin) (hoff : (io.rd.fd.data.length : Int) ≤ offMax)
    (hop : ∀ c, op ≠ .gets (some [nl]) none c)
    (h : io.call fuel os op = some (o, io', os')) :
    Kept io io' ∧ CallSpec io.rest op o io'.rest := by
  cases op with
  | read n =>
    simp only [Io.call] at h
    split at h
    · rename_i bs io₁ os₁ hr
      simp only [Option.some.injEq, Prod.mk.injEq] at h
      obtain ⟨rfl, rfl, rfl⟩ := h
      cases n with
      | none => exact C44_read_all hI hns hr
      | some n => exact C44_read hI hns hr
    · cases h
  | getbyte =>
    simp only [Io.call] at h
    split at h
    · rename_i bs io₁ os₁ hr
      simp only [Option.some.injEq, Prod.mk.injEq] at h
      obtain ⟨rfl, rfl, rfl⟩ := h
      exact C44_read hI hns hr
    · cases h
  | gets sep limit c =>
    simp only [Io.call] at h
    split at h
    · rename_i bs io₁ os₁ hr
      simp only [Option.some.injEq, Prod.mk.injEq] at h
      obtain ⟨rfl, rfl, rfl⟩ := h
      exact C44_gets_partial hI hns (fun hz => hop c (by rw [hz.1, hz.2])) hr
    · cases h
  | getc =>
    simp only [Io.call] at h
    split at h
    · rename_i bs io₁ os₁ hr
      simp only [Option.some.injEq, Prod.mk.injEq] at h
      obtain ⟨rfl, rfl, rfl⟩ := h
      obtain ⟨a, b, _⟩ := C44_getc_partial hI hns hr
      exact ⟨a, b _ rfl⟩
    · cases h
  | unget bs =>
    simp only [Io.call] at h
    split at h
    · rename_i io₁ hr
      simp only [Option.some.injEq, Prod.mk.injEq] at h
      obtain ⟨rfl, rfl, rfl⟩ := h
      exact C44_unget hI hr
    · cases h
  | eof =>
    simp only [Io.call] at h
    split at h
    · rename_i b io₁ os₁ hr
      simp only [Option.some.injEq, Prod.mk.injEq] at h
      obtain ⟨rfl, rfl, rfl⟩ := h
      obtain ⟨a, b, _⟩ := C44_eof hI hns hoff hr
      exact ⟨a, b _ rfl⟩
    · cases h
  | readpartial n =>
    simp only [Io.call] at h
    split at h
    · rename_i bs io₁ os₁ hr
      simp only [Option.some.injEq, Prod.mk.injEq] at h
      obtain ⟨rfl, rfl, rfl⟩ := h
      obtain ⟨a, b, _⟩ := C44_readpartial hI hr
      exact ⟨a, b _ rfl⟩
    · cases h

/-- **C44, for histories.**  Any sequence of calls of the reading methods, each attempted until
it is no longer interrupted, returns what the same calls would return on the plain byte sequence:
nothing is lost, repeated or reordered, and what is left is what would be left.  Not covered: the
bare `gets` (`C44_gets_bare_partial`), `getc` and `readpartial` and `eof?` calls that had to be
attempted again, and standard input. -/
theorem C44_history_partial {fuel : Nat} (ops : List LOp) :
    ∀ {io io' : Io} {os : ROs} {outs : List LOut}, io.Inv → io.kind ≠ .stdin →
      (io.rd.fd.data.length : Int) ≤ offMax →
      (∀ c, LOp.gets (some [nl]) none c ∉ ops) →
      io.calls fuel os ops = some (outs, io') →
      CallsSpec io.rest ops outs io'.rest := by
  induction ops with
  | nil =>
    intro io io' os outs hI _ _ _ h
    simp only [Io.calls, Option.some.injEq, Prod.mk.injEq] at h
    obtain ⟨rfl, rfl⟩ := h
    rfl
  | cons op ops ih =>
    intro io io' os outs hI hns hoff hop h
    unfold Io.calls at h
    split at h
    · cases h
    · rename_i o io₁ os₁ hc
      obtain ⟨a, b⟩ := call_spec hI hns hoff
        (fun c hc => hop c (by rw [hc]; exact List.mem_cons_self)) hc
      split at h
      · cases h
      · rename_i outs' io₂ hcs
        simp only [Option.some.injEq, Prod.mk.injEq] at h
        obtain ⟨rfl, rfl⟩ := h
        refine ⟨io₁.rest, b, ih a.inv (by rw [a.kind]; exact hns) ?_ ?_ hcs⟩
        · rw [Reader.key_data a.key]; exact hoff
        · exact fun c hm => hop c (List.mem_cons_of_mem _ hm)

/-- A history: `read(2)` parked once, `ungetbyte`, `gets(",")`, `eof?`, `read`. -/
example : ((samplePipe [1, 2, 44, 3, 4]).calls 9
      ⟨[], [.ready 0, .again, .ready 0, .ready 5, .ready 5, .ready 5, .ready 5]⟩
      [.read (some 2), .unget [9], .gets (some [44]) none true, .eof, .read none]).map
        (fun r => (r.1.length, r.2.rest)) = some (5, []) := by
  decide +kernel

end Verif.IoBuf
