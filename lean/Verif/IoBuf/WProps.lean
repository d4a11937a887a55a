import Verif.IoBuf.WLemmas

/-!
# C20: buffered writes reach the descriptor exactly once and in order
-/

namespace Verif.IoBuf

/-- Writers only ever pass back a progress the stream reported, which is at most the length. -/
def Ev.wf : Ev → Prop
  | .attempt data p => p ≤ data.length
  | _ => True

/-- **C20.**  Whatever the kernel answers (short writes, `EINTR`, `EAGAIN`, errors, zero
writes) and whenever signals arrive, after any history of write attempts, retries, flushes and
changes of `sync`: what the kernel has received followed by what is still buffered is what was
there before followed by exactly the bytes accepted since, in order; and what the kernel
received earlier is never taken back. -/
theorem C20_stream_conserves (es : List Ev) (hes : ∀ e ∈ es, e.wf) :
    ∀ (s : Stream) (os : WOs) (acc : List Byte) (s' : Stream) (os' : WOs),
      s.run os es = some (acc, s', os') →
      s'.sink ++ s'.wb.buf = s.sink ++ s.wb.buf ++ acc ∧ s.sink <+: s'.sink := by
  induction es with
  | nil =>
    intro s os acc s' os' h
    simp [Stream.run] at h
    obtain ⟨rfl, rfl, rfl⟩ := h
    simp
  | cons e es ih =>
    intro s os acc s' os' h
    unfold Stream.run at h
    cases hs : s.step os e with
    | none => rw [hs] at h; simp at h
    | some r =>
      obtain ⟨acc₁, res, s₁, os₁⟩ := r
      rw [hs] at h
      dsimp only at h
      cases hr : s₁.run os₁ es with
      | none => rw [hr] at h; simp at h
      | some r =>
        obtain ⟨acc₂, s₂, os₂⟩ := r
        rw [hr] at h
        simp at h
        obtain ⟨rfl, rfl, rfl⟩ := h
        have := ih (fun e he => hes e (List.mem_cons_of_mem _ he)) _ _ _ _ _ hr
        have hone : s₁.sink ++ s₁.wb.buf = s.sink ++ s.wb.buf ++ acc₁ ∧ s.sink <+: s₁.sink := by
          have hwf := hes e (List.mem_cons_self ..)
          cases e with
          | attempt data p =>
            simp only [Stream.step] at hs
            cases ha : s.attempt data p os with
            | none => rw [ha] at hs; simp at hs
            | some r =>
              obtain ⟨_, p', _, _⟩ := r
              rw [ha] at hs
              simp at hs
              obtain ⟨rfl, rfl, rfl, rfl⟩ := hs
              have := attempt_spec ha hwf
              exact ⟨this.1, this.2.2.2.2.2.2⟩
          | flush =>
            simp only [Stream.step] at hs
            cases ha : s.flush os with
            | none => rw [ha] at hs; simp at hs
            | some r =>
              obtain ⟨_, _, _⟩ := r
              rw [ha] at hs
              simp at hs
              obtain ⟨rfl, rfl, rfl, rfl⟩ := hs
              have := flush_spec ha
              exact ⟨by simpa using this.1, this.2.2.2.2.2⟩
          | setSync b =>
            simp [Stream.step] at hs
            obtain ⟨rfl, rfl, rfl, rfl⟩ := hs
            simp [Stream.setSync]
        refine ⟨?_, hone.2.trans this.2⟩
        rw [this.1, hone.1]
        simp

/-- A history with two interleaved writers, a short write, a bare `EINTR`, an `EAGAIN`, a
signal, a switch to `sync` and a flush. -/
example :
    (Stream.run ⟨.new false false, []⟩
        ⟨[], [.took 1, .eintr, .again, .took 5, .took 0, .took 9]⟩
        [.attempt [1, 2, 3] 0, .setSync true, .attempt [4, 5] 0, .attempt [6] 0,
         .attempt [4, 5] 0, .flush]).map (fun r => (r.1, r.2.1.sink, r.2.1.wb.buf))
      = some ([1, 2, 3, 6, 4, 5], [1, 2, 3, 6, 4, 5], []) := by decide

/-- **C20.**  A flush that reports success leaves nothing buffered: everything accepted so far
has reached the kernel. -/
theorem C20_flush_empties {s s' : Stream} {os os' : WOs}
    (h : s.flush os = some (.ok (), s', os')) :
    s'.wb.buf = [] ∧ s'.sink = s.sink ++ s.wb.buf := by
  have := flush_spec h
  have h1 := this.2.2.2.1 rfl
  refine ⟨h1, ?_⟩
  have h2 := this.1
  rw [h1] at h2
  simpa using h2

example : Stream.flush ⟨⟨[1, 2, 3], false, false⟩, [9]⟩ ⟨[], [.took 0, .took 1]⟩
    = some (.ok (), ⟨⟨[], false, false⟩, [9, 1, 2, 3]⟩, ⟨[], []⟩) := by rfl

/-- **C20.**  A flush that is cut short leaves exactly the suffix the kernel did not take, so
that flushing again resumes there. -/
theorem C20_flush_resumes {s s' : Stream} {os os' : WOs} {res : WRes}
    (h : s.flush os = some (res, s', os')) :
    ∃ sent, s.wb.buf = sent ++ s'.wb.buf ∧ s'.sink = s.sink ++ sent := by
  have h0 := flush_spec h
  obtain ⟨t, ht⟩ := h0.2.2.2.2.2
  refine ⟨t, ?_, ht.symm⟩
  have h2 := h0.1
  rw [← ht, List.append_assoc] at h2
  exact (List.append_cancel_left h2).symm

/-- **C20.**  One call of `IO#write`, with all its retries: a call that succeeds has accepted
exactly its argument, once; a call that fails has accepted a prefix of it. -/
theorem C20_write_call (k : Nat) :
    ∀ (s : Stream) (data : List Byte) (p : Nat) (os : WOs) (res : WRes) (p' : Nat) (s' : Stream)
      (os' : WOs),
      s.writeCall k data p os = some (res, p', s', os') → p ≤ data.length →
      s'.sink ++ s'.wb.buf = s.sink ++ s.wb.buf ++ (data.take p').drop p ∧
      p ≤ p' ∧ p' ≤ data.length ∧ (res = .ok () → p' = data.length) := by
  induction k with
  | zero => intro s data p os res p' s' os' h; simp [Stream.writeCall] at h
  | succ k ih =>
    intro s data p os res p' s' os' h hp
    unfold Stream.writeCall at h
    cases ha : s.attempt data p os with
    | none => rw [ha] at h; simp at h
    | some r =>
      obtain ⟨res₁, p₁, s₁, os₁⟩ := r
      rw [ha] at h
      have h1 := attempt_spec ha hp
      have h2 := attempt_progress_le ha hp
      have retry : ∀ {res p' s' os'}, s₁.writeCall k data p₁ os₁ = some (res, p', s', os') →
          s'.sink ++ s'.wb.buf = s.sink ++ s.wb.buf ++ (data.take p').drop p ∧
          p ≤ p' ∧ p' ≤ data.length ∧ (res = .ok () → p' = data.length) := by
        intro res p' s' os' h
        have h3 := ih _ _ _ _ _ _ _ _ h h2.2
        refine ⟨?_, by omega, h3.2.2.1, h3.2.2.2⟩
        rw [h3.1, h1.1, List.append_assoc]
        congr 1
        have hsplit : (data.take p').drop p
            = ((data.take p').take p₁).drop p ++ (data.take p').drop p₁ := by
          conv => lhs; rw [← List.take_append_drop p₁ (data.take p')]
          rw [List.drop_append_of_le_length]
          simp; omega
        rw [hsplit, List.take_take, Nat.min_eq_left h3.2.1]
      cases res₁ with
      | ok u =>
        simp at h
        obtain ⟨rfl, rfl, rfl, rfl⟩ := h
        exact ⟨h1.1, h2.1, h2.2, fun _ => h1.2.2.2.1 rfl⟩
      | error e =>
        cases e with
        | io =>
          simp at h
          obtain ⟨rfl, rfl, rfl, rfl⟩ := h
          exact ⟨h1.1, h2.1, h2.2, (fun h => by cases h)⟩
        | signal => exact retry h
        | wouldBlock => exact retry h

/-- A write that is parked twice and interrupted once, and still comes out once. -/
example : (Stream.writeCall 9 ⟨.new true false, []⟩ [1, 2, 3, 4] 0
      ⟨[false, true], [.took 0, .again, .eintr, .took 1, .again, .took 7]⟩).map
        (fun r => (r.1, r.2.2.1.sink))
    = some (.ok (), [1, 2, 3, 4]) := by rfl

/-- **C20.**  On a `sync` stream or a terminal, a write that returns has reached the kernel
completely, together with whatever an earlier buffered phase had left behind. -/
theorem C20_write_through {s s' : Stream} {data : List Byte} {p p' : Nat} {os os' : WOs}
    (h : s.attempt data p os = some (.ok (), p', s', os')) (hp : p ≤ data.length)
    (ht : s.wb.sync = true ∨ s.wb.tty = true) :
    s'.wb.buf = [] ∧ s'.sink = s.sink ++ s.wb.buf ++ data.drop p := by
  have h1 := attempt_spec h hp
  have hb := h1.2.2.2.2.1 rfl (by unfold WriteBuf.writesThrough; rcases ht with h | h <;> simp [h])
  have hp' := h1.2.2.2.1 rfl
  refine ⟨hb, ?_⟩
  have h2 := h1.1
  rw [hb, hp'] at h2
  simpa using h2

example : Stream.attempt ⟨⟨[7], true, false⟩, []⟩ [1, 2] 0 ⟨[], [.took 0, .took 0, .took 0]⟩
    = some (.ok (), 2, ⟨⟨[], true, false⟩, [7, 1, 2]⟩, ⟨[], []⟩) := by rfl

/-- **C20.**  A write-through stream with nothing buffered never keeps anything, even when the
write fails: a later flush or close has nothing to raise about. -/
theorem C20_write_through_leaves_nothing {s s' : Stream} {data : List Byte} {p p' : Nat}
    {os os' : WOs} {res : WRes} (h : s.attempt data p os = some (res, p', s', os'))
    (hp : p ≤ data.length) (ht : s.wb.sync = true ∨ s.wb.tty = true) (hb : s.wb.buf = []) :
    s'.wb.buf = [] ∧ s'.sink = s.sink ++ (data.take p').drop p := by
  have hbuf : s'.wb.buf = [] := by
    unfold Stream.attempt at h
    cases hw : s.wb.write data p os with
    | none => rw [hw] at h; simp at h
    | some r =>
      obtain ⟨_, _, took, _, _⟩ := r
      rw [hw] at h
      simp at h
      obtain ⟨rfl, rfl, rfl, rfl⟩ := h
      have h9 := (write_spec hw hp).2.2.2.2.2.2.2.2.1
        (by unfold WriteBuf.writesThrough; rcases ht with h | h <;> simp [h])
      rw [hb] at h9
      exact List.eq_nil_of_length_eq_zero (by simpa using h9)
  have h2 := (attempt_spec h hp).1
  rw [hbuf, hb] at h2
  exact ⟨hbuf, by simpa using h2⟩

example : Stream.attempt ⟨.new true false, []⟩ [1, 2, 3] 0 ⟨[], [.took 0, .fail]⟩
    = some (.error .io, 1, ⟨.new true false, [1]⟩, ⟨[], []⟩) := by rfl

/-- **C20.**  The buffer never grows to its capacity of 8192 bytes, whatever is written. -/
theorem C20_buffer_bounded (es : List Ev) (hes : ∀ e ∈ es, e.wf) :
    ∀ (s : Stream) (os : WOs) (acc : List Byte) (s' : Stream) (os' : WOs),
      s.run os es = some (acc, s', os') → s.wb.buf.length < 8192 → s'.wb.buf.length < 8192 := by
  induction es with
  | nil =>
    intro s os acc s' os' h
    simp [Stream.run] at h
    obtain ⟨rfl, rfl, rfl⟩ := h
    exact id
  | cons e es ih =>
    intro s os acc s' os' h hl
    unfold Stream.run at h
    cases hs : s.step os e with
    | none => rw [hs] at h; simp at h
    | some r =>
      obtain ⟨acc₁, res, s₁, os₁⟩ := r
      rw [hs] at h
      dsimp only at h
      cases hr : s₁.run os₁ es with
      | none => rw [hr] at h; simp at h
      | some r =>
        obtain ⟨acc₂, s₂, os₂⟩ := r
        rw [hr] at h
        simp at h
        obtain ⟨rfl, rfl, rfl⟩ := h
        refine ih (fun e he => hes e (List.mem_cons_of_mem _ he)) _ _ _ _ _ hr ?_
        have hwf := hes e (List.mem_cons_self ..)
        cases e with
        | attempt data p =>
          simp only [Stream.step] at hs
          cases ha : s.attempt data p os with
          | none => rw [ha] at hs; simp at hs
          | some r =>
            obtain ⟨_, p', _, _⟩ := r
            rw [ha] at hs
            simp at hs
            obtain ⟨rfl, rfl, rfl, rfl⟩ := hs
            exact (attempt_spec ha hwf).2.2.2.2.2.1 hl
        | flush =>
          simp only [Stream.step] at hs
          cases ha : s.flush os with
          | none => rw [ha] at hs; simp at hs
          | some r =>
            obtain ⟨_, _, _⟩ := r
            rw [ha] at hs
            simp at hs
            obtain ⟨rfl, rfl, rfl, rfl⟩ := hs
            have := (flush_spec ha).2.2.2.2.1
            omega
        | setSync b =>
          simp [Stream.step] at hs
          obtain ⟨rfl, rfl, rfl, rfl⟩ := hs
          simpa [Stream.setSync] using hl

example : (WriteBuf.new false false).buf.length < 8192 := by decide

/-- **C20.**  The kernel is never entered while a signal is pending: the call comes back at
once, with nothing written and nothing lost, so that the handler can run. -/
theorem C20_pending_signal_first (s : Stream) (ps : List Bool) (wr : List WResp) :
    (s.wb.buf ≠ [] → s.flush ⟨true :: ps, wr⟩ = some (.error .signal, s, ⟨ps, wr⟩)) ∧
    (∀ (data : List Byte) (p : Nat), p < data.length →
      (s.wb.sync = true ∨ s.wb.tty = true ∨ 8192 ≤ s.wb.buf.length + (data.length - p)) →
      s.attempt data p ⟨true :: ps, wr⟩ = some (.error .signal, p, s, ⟨ps, wr⟩)) := by
  obtain ⟨⟨buf, sync, tty⟩, sink⟩ := s
  have hdrain : buf ≠ [] → WriteBuf.drain ⟨buf, sync, tty⟩ ⟨true :: ps, wr⟩
      = some (.error .signal, [], ⟨buf, sync, tty⟩, ⟨ps, wr⟩) := by
    intro hb
    have hl : ¬ (0 ≥ buf.length) := by
      have := List.length_pos_iff.2 hb; omega
    unfold WriteBuf.drain drainLoop
    dsimp only
    rw [if_neg hl]
    simp [pollSig]
  refine ⟨?_, ?_⟩
  · intro hb
    simp [Stream.flush, hdrain hb]
  · intro data p hp hm
    have hcond : (!(WriteBuf.mk buf sync tty).writesThrough
        && decide (buf.length + (data.length - p) < ioBufCapa)) = false := by
      unfold WriteBuf.writesThrough ioBufCapa
      rcases hm with h | h | h
      · simp at h; simp [h]
      · simp at h; simp [h]
      · simp at h
        simp only [Bool.and_eq_false_iff, decide_eq_false_iff_not]
        right; omega
    unfold Stream.attempt WriteBuf.write
    simp only [hcond]
    by_cases hb : buf = []
    · subst hb
      unfold WriteBuf.drain drainLoop
      simp only [List.length_nil, Nat.le_refl, ge_iff_le, if_true, Bool.false_eq_true, if_false]
      unfold directLoop
      simp [pollSig, hp]
    · simp [hdrain hb]

example : Stream.flush ⟨⟨[1], false, false⟩, []⟩ ⟨[true], [.took 0]⟩
    = some (.error .signal, ⟨⟨[1], false, false⟩, []⟩, ⟨[], [.took 0]⟩) := by rfl

/-- How many of the kernel's answers take at least one byte. -/
def tooks (wr : List WResp) : Nat := wr.countP (fun r => match r with | .took _ => true | _ => false)

/-- A kernel that does not fail: short writes and bare interrupts only. -/
def patient (wr : List WResp) : Prop := ∀ r ∈ wr, (∃ n, r = .took n) ∨ r = .eintr

theorem drainLoop_completes (buf : List Byte) (wr : List WResp) :
    ∀ (w : Nat) (out : List Byte), patient wr → buf.length ≤ w + tooks wr →
      ∃ w' out' wr', drainLoop buf [] wr w out = some (.ok (), w', out', ⟨[], wr'⟩) ∧
        patient wr' ∧ tooks wr ≤ tooks wr' + (buf.length - w) := by
  induction wr with
  | nil =>
    intro w out _ hn
    refine ⟨w, out, [], ?_, (by simp [patient]), (by simp [tooks])⟩
    unfold drainLoop
    have : w ≥ buf.length := by simpa [tooks] using hn
    rw [if_pos this]
  | cons r wr ih =>
    intro w out hp hn
    by_cases hw : w ≥ buf.length
    · refine ⟨w, out, r :: wr, ?_, hp, by omega⟩
      unfold drainLoop
      rw [if_pos hw]
    · have hp' : patient wr := fun r hr => hp r (List.mem_cons_of_mem _ hr)
      rcases hp r (List.mem_cons_self ..) with ⟨n, rfl⟩ | rfl
      · have hlen : 1 ≤ (accepted n (buf.drop w)).length := by
          simp only [accepted, List.length_take, List.length_drop]; omega
        have hk : tooks (.took n :: wr) = tooks wr + 1 := by simp [tooks]
        obtain ⟨w', out', wr', h1, h2, h3⟩ := ih (w + (accepted n (buf.drop w)).length)
          (out ++ accepted n (buf.drop w)) hp' (by omega)
        refine ⟨w', out', wr', ?_, h2, by omega⟩
        rw [drainLoop, if_neg hw]
        simpa [pollSig] using h1
      · have hk : tooks (.eintr :: wr) = tooks wr := by simp [tooks]
        obtain ⟨w', out', wr', h1, h2, h3⟩ := ih w out hp' (by omega)
        refine ⟨w', out', wr', ?_, h2, by omega⟩
        rw [drainLoop, if_neg hw]
        simpa [pollSig] using h1

theorem directLoop_completes (data : List Byte) (wr : List WResp) :
    ∀ (w : Nat) (out : List Byte), patient wr → data.length ≤ w + tooks wr →
      ∃ w' out' wr', directLoop data [] wr w out = some (.ok (), w', out', ⟨[], wr'⟩) := by
  induction wr with
  | nil =>
    intro w out _ hn
    refine ⟨w, out, [], ?_⟩
    unfold directLoop
    have : ¬ w < data.length := by simp [tooks] at hn; omega
    rw [if_neg this]
  | cons r wr ih =>
    intro w out hp hn
    by_cases hw : w < data.length
    · have hp' : patient wr := fun r hr => hp r (List.mem_cons_of_mem _ hr)
      rcases hp r (List.mem_cons_self ..) with ⟨n, rfl⟩ | rfl
      · have hlen : 1 ≤ (accepted n (data.drop w)).length := by
          simp only [accepted, List.length_take, List.length_drop]; omega
        have hk : tooks (.took n :: wr) = tooks wr + 1 := by simp [tooks]
        obtain ⟨w', out', wr', h1⟩ := ih (w + (accepted n (data.drop w)).length)
          (out ++ accepted n (data.drop w)) hp' (by omega)
        refine ⟨w', out', wr', ?_⟩
        rw [directLoop, if_pos hw]
        simpa [pollSig] using h1
      · have hk : tooks (.eintr :: wr) = tooks wr := by simp [tooks]
        obtain ⟨w', out', wr', h1⟩ := ih w out hp' (by omega)
        refine ⟨w', out', wr', ?_⟩
        rw [directLoop, if_pos hw]
        simpa [pollSig] using h1
    · refine ⟨w, out, r :: wr, ?_⟩
      unfold directLoop
      rw [if_neg hw]

/-- **C20.**  Against a kernel that only makes short writes and spurious interruptions, a flush
and a write come back, successfully, after at most as many productive kernel entries as there
are bytes. -/
theorem C20_completes (s : Stream) (data : List Byte) (wr : List WResp) (hp : patient wr)
    (hn : s.wb.buf.length + data.length ≤ tooks wr) :
    (∃ s' os', s.flush ⟨[], wr⟩ = some (.ok (), s', os')) ∧
    (∃ s' os', s.attempt data 0 ⟨[], wr⟩ = some (.ok (), data.length, s', os')) := by
  obtain ⟨w', out', wr', h1, h2, h3⟩ :=
    drainLoop_completes s.wb.buf wr 0 [] hp (by omega)
  refine ⟨?_, ?_⟩
  · simp [Stream.flush, WriteBuf.drain, h1]
  · have : ∃ p' s' os', s.attempt data 0 ⟨[], wr⟩ = some (.ok (), p', s', os') := by
      obtain ⟨w'', out'', wr'', h4⟩ := directLoop_completes data wr' 0 [] h2 (by omega)
      unfold Stream.attempt WriteBuf.write
      by_cases hc : (!s.wb.writesThrough
          && decide (s.wb.buf.length + (data.length - 0) < ioBufCapa)) = true
      · rw [if_pos hc]; simp
      · rw [if_neg hc]; simp [WriteBuf.drain, h1, h4]
    obtain ⟨p', s', os', h⟩ := this
    have hl := (attempt_spec h (Nat.zero_le _)).2.2.2.1 rfl
    rw [hl] at h
    exact ⟨s', os', h⟩

example : patient [.took 0, .eintr, .took 3, .took 1] ∧ tooks [.took 0, .eintr, .took 3, .took 1] = 3 := by
  constructor
  · simp [patient]
  · decide

/-! ### Several writers -/

/-- Several threads are each in the middle of writing `data w`; `sched` says whose attempt runs
next.  `prog w` is the progress variable of writer `w` (`done` in `io_write_method`). The log
records every byte accepted with the writer it came from. -/
def Stream.runWriters (data : Nat → List Byte) (s : Stream) (prog : Nat → Nat) (os : WOs) :
    List Nat → Option (List (Nat × Byte) × Stream × (Nat → Nat) × WOs)
  | [] => some ([], s, prog, os)
  | w :: ws =>
    match s.attempt (data w) (prog w) os with
    | none => none
    | some (_, p', s', os') =>
      match s'.runWriters data (fun v => if v = w then p' else prog v) os' ws with
      | none => none
      | some (log, s'', prog'', os'') =>
        some ((((data w).take p').drop (prog w)).map (fun b => (w, b)) ++ log, s'', prog'', os'')

/-- **C20.**  With any number of threads writing to one stream and any interleaving of their
attempts and retries, the output is the log of accepted bytes, and the part of it that came
from one writer is a prefix of what that writer wrote, up to its own progress: no byte of any
writer is lost, repeated or overtaken by a later byte of the same writer. -/
theorem C20_writers_interleave (data : Nat → List Byte) (sched : List Nat) :
    ∀ (s : Stream) (prog : Nat → Nat) (os : WOs) (log : List (Nat × Byte)) (s' : Stream)
      (prog' : Nat → Nat) (os' : WOs),
      s.runWriters data prog os sched = some (log, s', prog', os') →
      (∀ w, prog w ≤ (data w).length) →
      s'.sink ++ s'.wb.buf = s.sink ++ s.wb.buf ++ log.map Prod.snd ∧
      ∀ w, prog w ≤ prog' w ∧ prog' w ≤ (data w).length ∧
        (data w).take (prog w) ++ (log.filter (fun e => e.1 = w)).map Prod.snd
          = (data w).take (prog' w) := by
  induction sched with
  | nil =>
    intro s prog os log s' prog' os' h hle
    simp [Stream.runWriters] at h
    obtain ⟨rfl, rfl, rfl, rfl⟩ := h
    exact ⟨by simp, fun w => ⟨Nat.le_refl _, hle w, by simp⟩⟩
  | cons w ws ih =>
    intro s prog os log s' prog' os' h hle
    unfold Stream.runWriters at h
    cases ha : s.attempt (data w) (prog w) os with
    | none => rw [ha] at h; simp at h
    | some r =>
      obtain ⟨res, p', s₁, os₁⟩ := r
      rw [ha] at h
      dsimp only at h
      cases hr : s₁.runWriters data (fun v => if v = w then p' else prog v) os₁ ws with
      | none => rw [hr] at h; simp at h
      | some r =>
        obtain ⟨log₂, s₂, prog₂, os₂⟩ := r
        rw [hr] at h
        simp only [Option.some.injEq, Prod.mk.injEq] at h
        obtain ⟨rfl, rfl, rfl, rfl⟩ := h
        have h1 := attempt_spec ha (hle w)
        have h2 := attempt_progress_le ha (hle w)
        have h3 := ih _ _ _ _ _ _ _ hr (by
          intro v; by_cases hv : v = w
          · subst hv; simpa using h2.2
          · simpa [hv] using hle v)
        refine ⟨?_, ?_⟩
        · rw [h3.1, h1.1]
          simp [List.map_map, Function.comp_def]
        · intro v
          have h4 := h3.2 v
          by_cases hv : v = w
          · subst hv
            simp only [if_true] at h4
            refine ⟨by omega, h4.2.1, ?_⟩
            rw [← h4.2.2]
            have hfilter : (((((data v).take p').drop (prog v)).map (fun b => (v, b))).filter
                (fun e => decide (e.1 = v))).map Prod.snd = ((data v).take p').drop (prog v) := by
              generalize ((data v).take p').drop (prog v) = l
              rw [List.filter_eq_self.2 (by simp)]
              simp [List.map_map, Function.comp_def]
            rw [List.filter_append, List.map_append, hfilter, ← List.append_assoc]
            congr 1
            have : (data v).take (prog v) = ((data v).take p').take (prog v) := by
              rw [List.take_take, Nat.min_eq_left h2.1]
            rw [this, List.take_append_drop]
          · simp only [if_neg hv] at h4
            refine ⟨h4.1, h4.2.1, ?_⟩
            rw [← h4.2.2]
            have hfilter : (((((data w).take p').drop (prog w)).map (fun b => (w, b))).filter
                (fun e => decide (e.1 = v))) = [] := by
              generalize ((data w).take p').drop (prog w) = l
              rw [List.filter_eq_nil_iff]
              simp [Ne.symm hv]
            rw [List.filter_append, hfilter, List.nil_append]

/-- Two writers on a `sync` stream; the first is parked in the middle of its data. -/
example :
    (Stream.runWriters (fun w => if w = 0 then [1, 2] else [3]) ⟨.new true false, []⟩ (fun _ => 0)
        ⟨[], [.took 0, .again, .took 0, .took 0]⟩ [0, 1, 0]).map (fun r => (r.1, r.2.1.sink))
      = some ([(0, 1), (1, 3), (0, 2)], [1, 3, 2]) := by decide

/-- **C20, failure.**  `IO#write_nonblock` goes to the descriptor without draining the write
buffer first, so it overtakes what `IO#write` accepted earlier. -/
theorem C20_write_nonblock_overtakes :
    ∃ (s s₁ s₂ s₃ : Stream) (os₁ os₂ os₃ : WOs),
      s = ⟨.new false false, []⟩ ∧
      s.attempt [97] 0 ⟨[], [.took 0, .took 0]⟩ = some (.ok (), 1, s₁, os₁) ∧
      s₁.writeNonblock [98] os₁ = some (.ok (), 1, s₂, os₂) ∧
      s₂.flush os₂ = some (.ok (), s₃, os₃) ∧ s₃.sink = [98, 97] := by
  exact ⟨_, ⟨⟨[97], false, false⟩, []⟩, ⟨⟨[97], false, false⟩, [98]⟩,
    ⟨⟨[], false, false⟩, [98, 97]⟩, _, _, _, rfl, rfl, rfl, rfl, rfl⟩

end Verif.IoBuf
