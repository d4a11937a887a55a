import Verif.Signal.Model

/-!
# C22, C23: signals and poll requests
-/

namespace Verif.Signal

/-! ## C23: the lanes -/

/-- The requests and answers, in any order, from any thread. -/
inductive LaneOp where
  | setGc | clearGc | setPreempt | clearPreempt | setSignal | clearSignal
  deriving DecidableEq

/-- The word after one of them. -/
def LaneOp.apply (w : Word) : LaneOp → Word
  | .setGc => Signal.setGc w
  | .clearGc => Signal.clearGc w
  | .setPreempt => Signal.setPreempt w
  | .clearPreempt => Signal.clearPreempt w
  | .setSignal => Signal.setSignal w
  | .clearSignal => Signal.clearSignal w

/-- Is a collection pending: was the last of the collection requests and answers a request? -/
def wantsGc : List LaneOp → Bool
  | [] => false
  | .setGc :: _ => true
  | .clearGc :: _ => false
  | _ :: r => wantsGc r

/-- Is a switch pending? -/
def wantsPreempt : List LaneOp → Bool
  | [] => false
  | .setPreempt :: _ => true
  | .clearPreempt :: _ => false
  | _ :: r => wantsPreempt r

/-- Is a signal poll pending? -/
def wantsSignal : List LaneOp → Bool
  | [] => false
  | .setSignal :: _ => true
  | .clearSignal :: _ => false
  | _ :: r => wantsSignal r

/-- The word with the given requests pending. -/
def enc (g p s : Bool) : Word :=
  (if g then gcLane else 0#32) ||| (if p then preemptLane else 0#32)
    ||| (if s then signalLane else 0#32)

theorem enc_setGc (g p s) : setGc (enc g p s) = enc true p s := by
  cases g <;> cases p <;> cases s <;> rfl
theorem enc_clearGc (g p s) : clearGc (enc g p s) = enc false p s := by
  cases g <;> cases p <;> cases s <;> rfl
theorem enc_setPreempt (g p s) : setPreempt (enc g p s) = enc g true s := by
  cases g <;> cases p <;> cases s <;> rfl
theorem enc_clearPreempt (g p s) : clearPreempt (enc g p s) = enc g false s := by
  cases g <;> cases p <;> cases s <;> rfl
theorem enc_setSignal (g p s) : setSignal (enc g p s) = enc g p true := by
  cases g <;> cases p <;> cases s <;> rfl
theorem enc_clearSignal (g p s) : clearSignal (enc g p s) = enc g p false := by
  cases g <;> cases p <;> cases s <;> rfl
theorem enc_gcRequested (g p s) : gcRequested (enc g p s) = g := by
  cases g <;> cases p <;> cases s <;> rfl
theorem enc_preemptPending (g p s) : preemptPending (enc g p s) = p := by
  cases g <;> cases p <;> cases s <;> rfl
theorem enc_pollFires (g p s) : pollFires (enc g p s) = (g || p || s) := by
  cases g <;> cases p <;> cases s <;> rfl

theorem ops_enc (ops : List LaneOp) : ops.foldr (fun o w => o.apply w) 0#32 =
    enc (wantsGc ops) (wantsPreempt ops) (wantsSignal ops) := by
  induction ops with
  | nil => rfl
  | cons o r ih =>
    rw [List.foldr_cons, ih]
    cases o <;> simp only [LaneOp.apply, wantsGc, wantsPreempt, wantsSignal, enc_setGc, enc_clearGc,
      enc_setPreempt, enc_clearPreempt, enc_setSignal, enc_clearSignal]

/-- **C23.**  After any sequence of requests and answers (latest first), by whatever threads in
whatever order, each of the three requests is pending exactly if the last operation *on that
request* was a request; and the one test the generated code makes fires exactly if something is
pending. -/
theorem C23_requests_independent (ops : List LaneOp) :
    gcRequested (ops.foldr (fun o w => o.apply w) 0#32) = wantsGc ops ∧
    preemptPending (ops.foldr (fun o w => o.apply w) 0#32) = wantsPreempt ops ∧
    (ops.foldr (fun o w => o.apply w) 0#32 &&& signalLaneMask != 0#32) = wantsSignal ops ∧
    pollFires (ops.foldr (fun o w => o.apply w) 0#32)
      = (wantsGc ops || wantsPreempt ops || wantsSignal ops) := by
  rw [ops_enc]
  refine ⟨enc_gcRequested .., enc_preemptPending .., ?_, enc_pollFires ..⟩
  cases wantsGc ops <;> cases wantsPreempt ops <;> cases wantsSignal ops <;> rfl

example : (wantsGc [.clearSignal, .clearPreempt, .setGc, .setSignal],
    wantsPreempt [.clearSignal, .clearPreempt, .setGc, .setSignal],
    wantsSignal [.clearSignal, .clearPreempt, .setGc, .setSignal]) = (true, false, false) := by
  decide

/-! ## The invariant of the interleaving -/

/-- A running poll that has cleared the signal lane and is about to drain. -/
def Draining (s : St) : Prop := ∃ a ∈ s.acts, a.pc = .take

/-- The word holds only the three requests; a recorded signal has its lane set, or its handler is
about to set it, or a poll is about to drain it. -/
structure Inv (s : St) : Prop where
  word : ∃ g p sg, s.word = enc g p sg
  pend : s.pend ≠ 0#32 → s.word &&& signalLaneMask ≠ 0#32 ∨ s.inflight ≠ 0 ∨ Draining s

theorem enc_signal (g p s) : (enc g p s &&& signalLaneMask ≠ 0#32) ↔ s = true := by
  cases g <;> cases p <;> cases s <;> decide

theorem inv_init : Inv init := ⟨⟨false, false, false, rfl⟩, fun h => absurd rfl h⟩

theorem mem_putAct {as : List Act} {i : Nat} {o : Option Act} {a b : Act} (hb : b ∈ as)
    (ha : as[i]? = some a) (hne : b ≠ a) : b ∈ putAct as i o := by
  obtain ⟨j, hj, rfl⟩ := List.mem_iff_getElem.1 hb
  have hij : i ≠ j := by
    rintro rfl
    rw [List.getElem?_eq_getElem hj] at ha
    exact hne (Option.some.inj ha)
  cases o with
  | some c =>
    exact List.mem_iff_getElem.2 ⟨j, by simpa [putAct] using hj, by
      simp [putAct, List.getElem_set_ne hij]⟩
  | none => exact List.mem_eraseIdx_iff_getElem.2 ⟨j, hj, Ne.symm hij, rfl⟩

/-- The poll's own steps: the lanes it may change. -/
theorem stepAct_word (disp) (g p sg) (q : Bitmap) (a : Act) (ok) :
    ∃ g' p' sg', (stepAct disp (enc g p sg) q a ok).1 = enc g' p' sg' ∧
      (a.pc ≠ .clear → sg' = sg) ∧ (a.pc ≠ .ack → g' = g) := by
  unfold stepAct
  cases hpc : a.pc <;> dsimp only
  · split <;> exact ⟨g, p, sg, rfl, fun _ => rfl, fun _ => rfl⟩
  · exact ⟨g, false, sg, enc_clearPreempt .., fun _ => rfl, fun _ => rfl⟩
  · split <;> exact ⟨g, p, sg, rfl, fun _ => rfl, fun _ => rfl⟩
  · exact ⟨g, p, false, enc_clearSignal .., fun h => absurd rfl h, fun _ => rfl⟩
  · exact ⟨g, p, sg, rfl, fun _ => rfl, fun _ => rfl⟩
  · exact ⟨g, p, sg, rfl, fun _ => rfl, fun _ => rfl⟩
  · refine ⟨g, p, sg, ?_, fun _ => rfl, fun _ => rfl⟩
    split
    · rfl
    · split
      · split <;> rfl
      · rfl
      · split <;> rfl
      · split <;> rfl
  · split <;> exact ⟨g, p, sg, rfl, fun _ => rfl, fun _ => rfl⟩
  · exact ⟨false, p, sg, enc_clearGc .., fun _ => rfl, fun h => absurd rfl h⟩
  · split <;> exact ⟨g, p, sg, rfl, fun _ => rfl, fun _ => rfl⟩

theorem stepAct_pend (disp) (w : Word) (q : Bitmap) (a : Act) (ok) :
    (stepAct disp w q a ok).2.1 = if a.pc = .take then 0#32 else q := by
  unfold stepAct
  cases hpc : a.pc <;> dsimp only
  · split <;> rfl
  · rfl
  · split <;> rfl
  · rfl
  · rfl
  · rfl
  · split
    · rfl
    · split
      · split <;> rfl
      · rfl
      · split <;> rfl
      · split <;> rfl
  · split <;> rfl
  · rfl
  · split <;> rfl

theorem inv_next {s : St} (h : Inv s) (e : Ev) : Inv (next s e).1 := by
  obtain ⟨⟨g, p, sg, hw⟩, hp⟩ := h
  cases e with
  | signal n => exact ⟨⟨g, p, sg, hw⟩, fun _ => Or.inr (Or.inl (Nat.succ_ne_zero _))⟩
  | arm =>
    unfold next
    dsimp only
    split
    · exact ⟨⟨g, p, sg, hw⟩, hp⟩
    · refine ⟨⟨g, p, true, by show setSignal s.word = _; rw [hw, enc_setSignal]⟩, fun _ => Or.inl ?_⟩
      show setSignal s.word &&& signalLaneMask ≠ _
      rw [hw, enc_setSignal, enc_signal]
  | tick =>
    refine ⟨⟨g, true, sg, by show setPreempt s.word = _; rw [hw, enc_setPreempt]⟩, fun h => ?_⟩
    rcases hp h with h | h | h
    · refine Or.inl ?_
      show setPreempt s.word &&& signalLaneMask ≠ _
      rw [hw, enc_signal] at h
      rw [hw, enc_setPreempt, enc_signal]; exact h
    · exact Or.inr (Or.inl h)
    · exact Or.inr (Or.inr h)
  | gcRequest =>
    refine ⟨⟨true, p, sg, by show setGc s.word = _; rw [hw, enc_setGc]⟩, fun h => ?_⟩
    rcases hp h with h | h | h
    · refine Or.inl ?_
      show setGc s.word &&& signalLaneMask ≠ _
      rw [hw, enc_signal] at h
      rw [hw, enc_setGc, enc_signal]; exact h
    · exact Or.inr (Or.inl h)
    · exact Or.inr (Or.inr h)
  | poll =>
    unfold next
    dsimp only
    split
    · refine ⟨⟨g, p, sg, hw⟩, fun h => ?_⟩
      rcases hp h with h | h | ⟨a, ha, hpc⟩
      · exact Or.inl h
      · exact Or.inr (Or.inl h)
      · exact Or.inr (Or.inr ⟨a, List.mem_append_left _ ha, hpc⟩)
    · exact ⟨⟨g, p, sg, hw⟩, hp⟩
  | trap n d => exact ⟨⟨g, p, sg, hw⟩, hp⟩
  | step i ok =>
    unfold next
    dsimp only
    cases ha : s.acts[i]? with
    | none => exact ⟨⟨g, p, sg, hw⟩, hp⟩
    | some a =>
      dsimp only
      obtain ⟨g', p', sg', e1, e2, _⟩ := stepAct_word s.disp g p sg s.pend a ok
      have hw' : (stepAct s.disp s.word s.pend a ok).1 = enc g' p' sg' := by rw [hw]; exact e1
      refine ⟨⟨g', p', sg', hw'⟩, fun h => ?_⟩
      dsimp only at h ⊢
      rw [stepAct_pend] at h
      by_cases ht : a.pc = .take
      · rw [if_pos ht] at h
        exact absurd rfl h
      rw [if_neg ht] at h
      by_cases hc : a.pc = .clear
      · refine Or.inr (Or.inr ⟨{ a with pc := .take }, ?_, rfl⟩)
        have hi : i < s.acts.length := (List.getElem?_eq_some_iff.1 ha).1
        have : (stepAct s.disp s.word s.pend a ok).2.2.1 = some { a with pc := .take } := by
          unfold stepAct; rw [hc]
        dsimp only
        rw [this]
        exact List.mem_set hi _
      · rcases hp h with h | h | ⟨b, hb, hpc⟩
        · rw [hw, enc_signal] at h
          refine Or.inl ?_
          rw [hw', enc_signal, e2 hc]; exact h
        · exact Or.inr (Or.inl h)
        · exact Or.inr (Or.inr ⟨b, mem_putAct hb ha (by rintro rfl; exact ht hpc), hpc⟩)

theorem inv_run {s : St} (h : Inv s) (es : List Ev) : Inv (run s es).1 := by
  induction es generalizing s with
  | nil => exact h
  | cons e es ih => exact ih (inv_next h e)

/-! ## C22: signals -/

/-- Signal `n` is recorded and not yet taken by a poll. -/
def Pending (s : St) (n : Nat) : Prop := s.pend.getLsbD (n - 1) = true

theorem getLsbD_ne_zero {p : Bitmap} {k : Nat} (h : p.getLsbD k = true) : p ≠ 0#32 := by
  rintro rfl
  simp at h

/-- **C22, arming.**  In every reachable state, as soon as no handler and no drain is in
progress, a pending signal makes the next poll site stop: the request cannot have been cleared by
a poll, a collection, a timer tick, another signal, or any interleaving of these. -/
theorem C22_pending_signal_stops_the_program (es : List Ev) (n : Nat)
    (hp : Pending (run init es).1 n) (hi : (run init es).1.inflight = 0)
    (hd : ¬ Draining (run init es).1) : Obs.skipped ∉ (next (run init es).1 .poll).2 := by
  have inv := inv_run inv_init es
  obtain ⟨g, p, sg, hw⟩ := inv.word
  rcases inv.pend (getLsbD_ne_zero hp) with h | h | h
  · rw [hw, enc_signal] at h
    unfold next
    rw [hw, enc_pollFires, h]
    simp
  · exact absurd hi h
  · exact absurd h hd

/-- SIGTERM, recorded and armed between a poll's clearing of the lane and its drain, then again
after the drain. -/
example : Pending (run init [.signal 2, .arm, .poll, .step 0 true, .step 0 true, .step 0 true,
      .signal 15, .arm, .step 0 true, .signal 15, .arm]).1 15 ∧
    (run init [.signal 2, .arm, .poll, .step 0 true, .step 0 true, .step 0 true,
      .signal 15, .arm, .step 0 true, .signal 15, .arm]).1.inflight = 0 := by
  unfold Pending; decide

theorem record_getLsbD (p : Bitmap) (n k : Nat) :
    (record p n).getLsbD k = (p.getLsbD k || decide (k + 1 = n ∧ n ≤ 32)) := by
  unfold record
  split
  · rename_i h
    rw [BitVec.getLsbD_or]
    congr 1
    rw [BitVec.getLsbD_shiftLeft]
    by_cases hk : k + 1 = n
    · subst hk
      have h32 : k < 32 := by omega
      have h1 : k + 1 ≤ 32 := h.2
      simp [h1, h32]
    · rw [show decide (k + 1 = n ∧ n ≤ 32) = false from by simp [hk]]
      by_cases hlt : k < n - 1
      · simp [hlt]
      · have : k - (n - 1) ≠ 0 := by omega
        simp [this]
  · rename_i h
    have : ¬ (k + 1 = n ∧ n ≤ 32) := by omega
    simp [this]

/-- **C22, no loss before the drain.**  A pending signal stays pending until a poll takes it: after
any events, it is still pending or some drain since then returned it. -/
theorem C22_recorded_until_drained (s : St) (n : Nat) (hp : Pending s n) (es : List Ev) :
    Pending (run s es).1 n ∨ ∃ p, Obs.drained p ∈ (run s es).2 ∧ p.getLsbD (n - 1) = true := by
  induction es generalizing s with
  | nil => exact Or.inl hp
  | cons e es ih =>
    have key : Pending (next s e).1 n ∨
        ∃ p, Obs.drained p ∈ (next s e).2 ∧ p.getLsbD (n - 1) = true := by
      cases e with
      | signal m =>
        refine Or.inl ?_
        show (record s.pend m).getLsbD (n - 1) = true
        rw [record_getLsbD, show s.pend.getLsbD (n - 1) = true from hp]; rfl
      | arm => unfold next; dsimp only; split <;> exact Or.inl hp
      | tick => exact Or.inl hp
      | gcRequest => exact Or.inl hp
      | poll => unfold next; dsimp only; split <;> exact Or.inl hp
      | trap m d => exact Or.inl hp
      | step i ok =>
        unfold next; dsimp only
        cases ha : s.acts[i]? with
        | none => exact Or.inl hp
        | some a =>
          by_cases ht : a.pc = .take
          · refine Or.inr ⟨s.pend, ?_, hp⟩
            dsimp only; unfold stepAct; rw [ht]; exact List.mem_singleton.2 rfl
          · refine Or.inl ?_
            show (stepAct s.disp s.word s.pend a ok).2.1.getLsbD (n - 1) = true
            rw [stepAct_pend, if_neg ht]; exact hp
    rcases key with h | ⟨p, h1, h2⟩
    · rcases ih _ h with h | ⟨p, h1, h2⟩
      · exact Or.inl h
      · exact Or.inr ⟨p, List.mem_append_right _ h1, h2⟩
    · exact Or.inr ⟨p, List.mem_append_left _ h1, h2⟩

/-- What may happen at any instruction of a poll: signals, timer ticks, collection requests. -/
def Async : Ev → Prop
  | .signal _ | .arm | .tick | .gcRequest => True
  | _ => False

/-- How many of its own steps a poll is away from its drain, at most. -/
def toDrain : Pc → Nat
  | .consume => 5 | .consume2 => 4 | .gate => 3 | .clear => 2 | .take => 1 | _ => 0

/-- How many own steps the events grant poll `i`. -/
def grants (i : Nat) (es : List Ev) : Nat :=
  es.countP fun e => match e with
    | .step j true => j == i
    | _ => false

theorem next_async_acts {s : St} {e : Ev} (h : Async e) : (next s e).1.acts = s.acts := by
  cases e <;> simp only [Async] at h <;> try rfl
  unfold next; dsimp only; split <;> rfl

theorem next_async_pend {s : St} {e : Ev} (h : Async e) {k : Nat} (hp : s.pend.getLsbD k = true) :
    (next s e).1.pend.getLsbD k = true := by
  cases e <;> simp only [Async] at h <;> try exact hp
  · show (record _ _).getLsbD k = true
    rw [record_getLsbD, hp]; rfl
  · unfold next; dsimp only; split <;> exact hp

/-- **C22, the poll drains.**  A poll on the main thread that has started drains every pending
signal, whatever signals, ticks and requests arrive between its instructions. -/
theorem C22_poll_drains (i n : Nat) (es : List Ev)
    (hes : ∀ e ∈ es, Async e ∨ e = .step i true) (s : St) (a : Act) (ha : s.acts[i]? = some a)
    (hpc : toDrain a.pc ≠ 0) (hn : toDrain a.pc ≤ grants i es) (hp : Pending s n) :
    ∃ p, Obs.drained p ∈ (run s es).2 ∧ p.getLsbD (n - 1) = true := by
  induction es generalizing s a with
  | nil => simp [grants] at hn; exact absurd hn hpc
  | cons e es ih =>
    have hes' : ∀ e ∈ es, Async e ∨ e = .step i true := fun e he => hes e (List.mem_cons_of_mem _ he)
    have ih' : ∀ s a, s.acts[i]? = some a → toDrain a.pc ≠ 0 → toDrain a.pc ≤ grants i es →
        Pending s n → ∃ p, Obs.drained p ∈ (run s es).2 ∧ p.getLsbD (n - 1) = true :=
      fun s a => ih hes' s a
    have lift : (∃ p, Obs.drained p ∈ (run (next s e).1 es).2 ∧ p.getLsbD (n - 1) = true) →
        ∃ p, Obs.drained p ∈ (run s (e :: es)).2 ∧ p.getLsbD (n - 1) = true :=
      fun ⟨p, h1, h2⟩ => ⟨p, List.mem_append_right _ h1, h2⟩
    rcases hes e List.mem_cons_self with he | rfl
    · have hg : grants i (e :: es) = grants i es := by
        unfold grants
        rw [List.countP_cons]
        cases e <;> simp only [Async] at he <;> rfl
      rw [hg] at hn
      exact lift (ih' _ a (by rw [next_async_acts he]; exact ha) hpc hn (next_async_pend he hp))
    · have hg : grants i (.step i true :: es) = grants i es + 1 := by
        unfold grants
        rw [List.countP_cons]
        simp
      rw [hg] at hn
      have hi : i < s.acts.length := (List.getElem?_eq_some_iff.1 ha).1
      by_cases ht : a.pc = .take
      · refine ⟨s.pend, List.mem_append_left _ ?_, hp⟩
        unfold next; dsimp only; rw [ha]; dsimp only; unfold stepAct; rw [ht]
        exact List.mem_singleton.2 rfl
      · refine lift ?_
        obtain ⟨b, hb, hb1, hb2⟩ : ∃ b, (stepAct s.disp s.word s.pend a true).2.2.1 = some b ∧
            toDrain b.pc ≠ 0 ∧ toDrain b.pc + 1 ≤ toDrain a.pc := by
          unfold stepAct
          cases hc : a.pc <;> rw [hc] at hpc ht <;> dsimp only
          · split
            · exact ⟨_, rfl, by simp [toDrain], by simp [toDrain]⟩
            · exact ⟨_, rfl, by simp [toDrain], by simp [toDrain]⟩
          · exact ⟨_, rfl, by simp [toDrain], by simp [toDrain]⟩
          · exact ⟨_, rfl, by simp [toDrain], by simp [toDrain]⟩
          · exact ⟨_, rfl, by simp [toDrain], by simp [toDrain]⟩
          · exact absurd rfl ht
          all_goals exact absurd rfl hpc
        have hnext : next s (.step i true) = ({ s with
            word := (stepAct s.disp s.word s.pend a true).1
            pend := (stepAct s.disp s.word s.pend a true).2.1
            acts := putAct s.acts i (stepAct s.disp s.word s.pend a true).2.2.1 },
            (stepAct s.disp s.word s.pend a true).2.2.2) := by
          unfold next; dsimp only; rw [ha]
        refine ih' _ b ?_ hb1 (by omega) ?_
        · rw [hnext]; dsimp only
          rw [hb]
          show (s.acts.set i b)[i]? = _
          rw [List.getElem?_set_self hi]
        · rw [hnext]
          show (stepAct s.disp s.word s.pend a true).2.1.getLsbD (n - 1) = true
          rw [stepAct_pend, if_neg ht]; exact hp

/-- The signal a poll acted on: a handler ran, an exception was raised, or the signal is one the
program ignores. -/
def Obs.delivers (n : Nat) : Obs → Bool
  | .called m _ => m == n
  | .raised m => m == n
  | .dropped m => m == n
  | _ => false

/-- Does the poll hold a token of `n`? -/
def holds (n : Nat) (a : Act) : Bool :=
  match a.pc with
  | .check | .deliver => a.pending.getLsbD (n - 1)
  | _ => false

/-- How many tokens of signal `n` exist: one if it is pending, one per poll that has drained it and
not yet acted. -/
def tokens (n : Nat) (s : St) : Nat :=
  (s.pend.getLsbD (n - 1)).toNat + s.acts.countP (holds n)

theorem find_range {p : Bitmap} (h : p ≠ 0#32) :
    ∃ k, (List.range 32).find? (fun i => p.getLsbD i) = some k ∧ p.getLsbD k = true ∧ k < 32 ∧
      ∀ j, j < k → p.getLsbD j = false := by
  cases hf : (List.range 32).find? (fun i => p.getLsbD i) with
  | none =>
    refine absurd ?_ h
    rw [List.find?_eq_none] at hf
    refine BitVec.eq_of_getLsbD_eq fun i hi => ?_
    have := hf i (List.mem_range.2 hi)
    simpa using this
  | some k =>
    have hk := List.find?_some hf
    have hm := List.mem_range.1 (List.mem_of_find?_eq_some hf)
    refine ⟨k, rfl, hk, hm, fun j hj => ?_⟩
    obtain ⟨_, as, bs, hab, hbs⟩ := List.find?_eq_some_iff_append.1 hf
    have hlen : as.length = k := by
      have h1 : (List.range 32)[as.length]? = some k := by rw [hab]; simp
      rw [List.getElem?_range (by
        have := congrArg List.length hab
        simp at this; omega)] at h1
      exact Option.some.inj h1
    have hjm : j ∈ as := by
      have h1 : (List.range 32)[j]? = some j := List.getElem?_range (by omega)
      rw [hab, List.getElem?_append_left (by omega)] at h1
      exact List.mem_of_getElem? h1
    have := hbs j hjm
    simpa using this

/-- **C22, priority.**  The signal a poll acts on is the lowest-numbered of those it drained; it
acts on none only if it drained none. -/
theorem C22_lowest_first (p : Bitmap) :
    (lowestPendingSigno p = none ↔ p = 0#32) ∧
    ∀ n, lowestPendingSigno p = some n →
      1 ≤ n ∧ n ≤ 32 ∧ p.getLsbD (n - 1) = true ∧
      ∀ m, 1 ≤ m → m < n → p.getLsbD (m - 1) = false := by
  unfold lowestPendingSigno trailingZeros
  by_cases h : p = 0#32
  · rw [if_pos h]; exact ⟨by simp [h], fun n hn => by cases hn⟩
  · rw [if_neg h]
    obtain ⟨k, hk, h1, h2, h3⟩ := find_range h
    rw [hk]
    refine ⟨by simp [h], ?_⟩
    intro n hn
    have : k + 1 = n := Option.some.inj hn
    subst this
    exact ⟨by omega, by omega, h1, fun m hm hmn => h3 _ (by omega)⟩

example : lowestPendingSigno (record (record 0#32 15) 2) = some 2 := by decide

theorem countP_putAct {as : List Act} {i : Nat} {a : Act} (ha : as[i]? = some a) (f : Act → Bool)
    (o : Option Act) : (putAct as i o).countP f + (f a).toNat =
      as.countP f + (o.elim false f).toNat := by
  induction as generalizing i with
  | nil => simp at ha
  | cons c cs ih =>
    cases i with
    | zero =>
      simp only [List.getElem?_cons_zero, Option.some.injEq] at ha
      subst ha
      cases o with
      | none =>
        simp only [putAct, List.eraseIdx_cons_zero, List.countP_cons, Option.elim]
        cases f c <;> simp
      | some b =>
        simp only [putAct, List.set_cons_zero, List.countP_cons, Option.elim]
        cases f b <;> cases f c <;> simp <;> omega
    | succ i =>
      have := ih (i := i) (by simpa using ha)
      cases o with
      | none =>
        simp only [putAct, List.eraseIdx_cons_succ, List.countP_cons] at this ⊢
        omega
      | some b =>
        simp only [putAct, List.set_cons_succ, List.countP_cons] at this ⊢
        omega

theorem delivers_one {n m : Nat} {o : Obs}
    (h : o = .raised m ∨ o = .dropped m ∨ ∃ x, o = .called m x) :
    [o].countP (Obs.delivers n) = (m == n).toNat := by
  have ho : Obs.delivers n o = (m == n) := by rcases h with rfl | rfl | ⟨x, rfl⟩ <;> rfl
  have h1 : ∀ b : Bool, Obs.delivers n o = b → [o].countP (Obs.delivers n) = b.toNat := by
    intro b hb
    cases b <;> simp [List.countP_cons, hb]
  exact h1 _ ho

theorem holds_gcTest (n : Nat) (x y z) : holds n ⟨.gcTest, x, y, z⟩ = false := rfl

theorem stepAct_tokens (n : Nat) (disp) (w : Word) (q : Bitmap) (a : Act) (ok) :
    ((stepAct disp w q a ok).2.1.getLsbD (n - 1)).toNat +
      ((stepAct disp w q a ok).2.2.1.elim false (holds n)).toNat +
      (stepAct disp w q a ok).2.2.2.countP (Obs.delivers n) ≤
    (q.getLsbD (n - 1)).toNat + (holds n a).toNat := by
  obtain ⟨pc, pre, pe, df⟩ := a
  cases pc
  case consume => unfold stepAct; dsimp only; split <;> simp [holds]
  case consume2 => simp [stepAct, holds]
  case gate => cases ok <;> simp [stepAct, holds]
  case clear => simp [stepAct, holds]
  case take => simp [stepAct, holds, Obs.delivers]
  case check => simp [stepAct, holds]
  case deliver =>
    unfold stepAct; dsimp only
    rcases hl : lowestPendingSigno pe with _ | m
    · simp [holds]
    · obtain ⟨l1, _, l3, _⟩ := (C22_lowest_first pe).2 m hl
      have hh : (m == n).toNat ≤ (holds n ⟨.deliver, pre, pe, df⟩).toNat := by
        by_cases hm : m = n
        · subst hm
          simp [holds, l3]
        · rw [beq_eq_false_iff_ne.2 hm]; exact Nat.zero_le _
      dsimp only
      generalize disp m = d
      rcases d with _ | _ | _ | obj
      · cases signoToError m
        · show (q.getLsbD (n - 1)).toNat + 0 + [Obs.dropped m].countP _ ≤ _
          rw [delivers_one (m := m) (by simp)]; omega
        · show (q.getLsbD (n - 1)).toNat + 0 + [Obs.raised m].countP _ ≤ _
          rw [delivers_one (m := m) (by simp)]; omega
      · cases signoToError m
        · show (q.getLsbD (n - 1)).toNat + 0 + [Obs.dropped m].countP _ ≤ _
          rw [delivers_one (m := m) (by simp)]; omega
        · show (q.getLsbD (n - 1)).toNat + 0 + [Obs.raised m].countP _ ≤ _
          rw [delivers_one (m := m) (by simp)]; omega
      · show (q.getLsbD (n - 1)).toNat + 0 + [Obs.dropped m].countP _ ≤ _
        rw [delivers_one (m := m) (by simp)]; omega
      · cases ok
        · show (q.getLsbD (n - 1)).toNat + 0 + [Obs.called m obj].countP _ ≤ _
          rw [delivers_one (m := m) (by simp)]; omega
        · show (q.getLsbD (n - 1)).toNat + 0 + [Obs.called m obj].countP _ ≤ _
          rw [delivers_one (m := m) (by simp)]; omega
  case gcTest => unfold stepAct; dsimp only; split <;> simp [holds, Obs.delivers]
  case ack => simp [stepAct, holds]
  case switch => unfold stepAct; dsimp only; split <;> simp [Obs.delivers]

theorem tokens_next (n : Nat) (hn : 1 ≤ n) (s : St) (e : Ev) :
    tokens n (next s e).1 + (next s e).2.countP (Obs.delivers n) ≤
      tokens n s + (match e with | .signal m => m == n | _ => false).toNat := by
  cases e with
  | signal m =>
    show ((record s.pend m).getLsbD (n - 1)).toNat + s.acts.countP (holds n) + 0 ≤
      (s.pend.getLsbD (n - 1)).toNat + s.acts.countP (holds n) + (m == n).toNat
    rw [record_getLsbD]
    by_cases hm : m = n
    · have : ∀ x y : Bool, (x || y).toNat ≤ x.toNat + 1 := by decide
      have := this (s.pend.getLsbD (n - 1)) (decide (n - 1 + 1 = m ∧ m ≤ 32))
      simp only [hm, beq_self_eq_true, Bool.toNat_true] at this ⊢
      omega
    · have : ¬ (n - 1 + 1 = m ∧ m ≤ 32) := by omega
      rw [show decide (n - 1 + 1 = m ∧ m ≤ 32) = false from by simpa using this, Bool.or_false]
      exact Nat.le_add_right _ _
  | arm => unfold next; dsimp only; split <;> exact Nat.le_refl _
  | tick => exact Nat.le_refl _
  | gcRequest => exact Nat.le_refl _
  | poll =>
    unfold next; dsimp only; split
    · simp [tokens, holds]
    · exact Nat.le_refl _
  | trap m d => exact Nat.le_refl _
  | step i ok =>
    unfold next; dsimp only
    cases ha : s.acts[i]? with
    | none => exact Nat.le_refl _
    | some a =>
      have hc := countP_putAct ha (holds n) (stepAct s.disp s.word s.pend a ok).2.2.1
      have ht := stepAct_tokens n s.disp s.word s.pend a ok
      unfold tokens
      dsimp only
      simp only [Bool.toNat_false]
      omega

theorem tokens_run (n : Nat) (hn : 1 ≤ n) (s : St) (es : List Ev) :
    tokens n (run s es).1 + (run s es).2.countP (Obs.delivers n) ≤
      tokens n s + es.countP (fun e => match e with | .signal m => m == n | _ => false) := by
  induction es generalizing s with
  | nil => simp [run]
  | cons e es ih =>
    have h1 := tokens_next n hn s e
    have h2 := ih (next s e).1
    show tokens n (run (next s e).1 es).1 + ((next s e).2 ++ (run (next s e).1 es).2).countP _ ≤ _
    rw [List.countP_append, List.countP_cons]
    have h3 : ∀ b : Bool, b.toNat = if b = true then 1 else 0 := by decide
    rw [h3] at h1
    omega

/-- **C22, no invention.**  In every history a signal is acted on at most as often as it has
arrived: every delivery is of a signal that did arrive, and none is delivered twice.  (Every prefix
of a history is a history, so deliveries never run ahead of arrivals.) -/
theorem C22_delivered_at_most_as_often_as_arrived (es : List Ev) (n : Nat) (hn : 1 ≤ n) :
    (run init es).2.countP (Obs.delivers n) ≤
      es.countP (fun e => match e with | .signal m => m == n | _ => false) := by
  have := tokens_run n hn init es
  have h0 : tokens n init = 0 := by simp [tokens, init]
  omega

/-- How many of its own steps a poll is away from having acted on the signals, at most. -/
def toDeliver : Pc → Nat
  | .consume => 7 | .consume2 => 6 | .gate => 5 | .clear => 4 | .take => 3 | .check => 2
  | .deliver => 1 | _ => 0

/-- The poll still holds or will take signal `n`, and no lower one. -/
def Holds (n : Nat) (s : St) (a : Act) : Prop :=
  match a.pc with
  | .check | .deliver => a.pending.getLsbD (n - 1) = true ∧
      ∀ m, 1 ≤ m → m < n → a.pending.getLsbD (m - 1) = false
  | _ => s.pend.getLsbD (n - 1) = true ∧ ∀ m, 1 ≤ m → m < n → s.pend.getLsbD (m - 1) = false

theorem lowest_eq {p : Bitmap} {n : Nat} (hn : 1 ≤ n) (h1 : p.getLsbD (n - 1) = true)
    (h2 : ∀ m, 1 ≤ m → m < n → p.getLsbD (m - 1) = false) : lowestPendingSigno p = some n := by
  rcases hl : lowestPendingSigno p with _ | m
  · exact absurd ((C22_lowest_first p).1.1 hl) (getLsbD_ne_zero h1)
  · obtain ⟨l1, _, l3, l4⟩ := (C22_lowest_first p).2 m hl
    rcases Nat.lt_trichotomy m n with h | h | h
    · rw [h2 m l1 h] at l3; cases l3
    · rw [h]
    · rw [l4 n hn h] at h1; cases h1

/-- **C22, delivery.**  A poll on the main thread delivers the pending signal if no lower-numbered
one is pending or arrives meanwhile.  Missing from the full claim: a signal drained together with a
lower-numbered one (`C22_coalesced_signal_is_lost`). -/
theorem C22_poll_delivers_partial (i n : Nat) (hn : 1 ≤ n) (es : List Ev)
    (hes : ∀ e ∈ es, (Async e ∧ ∀ m, m < n → e ≠ .signal m) ∨ e = .step i true) (s : St) (a : Act)
    (ha : s.acts[i]? = some a) (hpc : toDeliver a.pc ≠ 0) (hg : toDeliver a.pc ≤ grants i es)
    (hp : Holds n s a) :
    ∃ o ∈ (run s es).2, Obs.delivers n o = true := by
  induction es generalizing s a with
  | nil => simp [grants] at hg; exact absurd hg hpc
  | cons e es ih =>
    have hes' : ∀ e ∈ es, (Async e ∧ ∀ m, m < n → e ≠ .signal m) ∨ e = .step i true :=
      fun e he => hes e (List.mem_cons_of_mem _ he)
    have lift : (∃ o ∈ (run (next s e).1 es).2, Obs.delivers n o = true) →
        ∃ o ∈ (run s (e :: es)).2, Obs.delivers n o = true :=
      fun ⟨p, h1, h2⟩ => ⟨p, List.mem_append_right _ h1, h2⟩
    rcases hes e List.mem_cons_self with ⟨he, hlow⟩ | rfl
    · have hg' : grants i (e :: es) = grants i es := by
        unfold grants
        rw [List.countP_cons]
        cases e <;> simp only [Async] at he <;> rfl
      rw [hg'] at hg
      refine lift (ih hes' _ a (by rw [next_async_acts he]; exact ha) hpc hg ?_)
      have low : ∀ m, 1 ≤ m → m < n → s.pend.getLsbD (m - 1) = false →
          (next s e).1.pend.getLsbD (m - 1) = false := by
        intro m hm1 hm h
        cases e <;> simp only [Async] at he <;> try exact h
        · rename_i k
          show (record _ _).getLsbD (m - 1) = false
          rw [record_getLsbD, h]
          have : k ≠ m := by rintro rfl; exact hlow k hm rfl
          have : ¬ (m - 1 + 1 = k ∧ k ≤ 32) := by omega
          simpa using this
        · unfold next; dsimp only; split <;> exact h
      unfold Holds at hp ⊢
      cases hc : a.pc <;> simp only [hc] at hp ⊢ <;>
        first
        | exact hp
        | exact ⟨next_async_pend he hp.1, fun m hm1 hm => low m hm1 hm (hp.2 m hm1 hm)⟩
    · have hg' : grants i (.step i true :: es) = grants i es + 1 := by
        unfold grants
        rw [List.countP_cons]
        simp
      rw [hg'] at hg
      have hi : i < s.acts.length := (List.getElem?_eq_some_iff.1 ha).1
      have hnext : next s (.step i true) = ({ s with
          word := (stepAct s.disp s.word s.pend a true).1
          pend := (stepAct s.disp s.word s.pend a true).2.1
          acts := putAct s.acts i (stepAct s.disp s.word s.pend a true).2.2.1 },
          (stepAct s.disp s.word s.pend a true).2.2.2) := by
        unfold next; dsimp only; rw [ha]
      have go : ∀ b, (stepAct s.disp s.word s.pend a true).2.2.1 = some b →
          toDeliver b.pc ≠ 0 → toDeliver b.pc + 1 ≤ toDeliver a.pc →
          Holds n (next s (.step i true)).1 b →
          ∃ o ∈ (run s (.step i true :: es)).2, Obs.delivers n o = true := by
        intro b hb hb1 hb2 hb3
        refine lift (ih hes' _ b ?_ hb1 (by omega) hb3)
        rw [hnext]; dsimp only
        rw [hb]
        show (s.acts.set i b)[i]? = _
        rw [List.getElem?_set_self hi]
      by_cases hd : a.pc = .deliver
      · have hl : lowestPendingSigno a.pending = some n := by
          unfold Holds at hp; rw [hd] at hp
          exact lowest_eq hn hp.1 hp.2
        have : ∃ o ∈ (stepAct s.disp s.word s.pend a true).2.2.2, Obs.delivers n o = true := by
          unfold stepAct; rw [hd]; dsimp only; rw [hl]; dsimp only
          split
          · exact ⟨_, List.mem_singleton.2 rfl, by simp [Obs.delivers]⟩
          · exact ⟨_, List.mem_singleton.2 rfl, by simp [Obs.delivers]⟩
          · split <;> exact ⟨_, List.mem_singleton.2 rfl, by simp [Obs.delivers]⟩
          · split <;> exact ⟨_, List.mem_singleton.2 rfl, by simp [Obs.delivers]⟩
        obtain ⟨o, h1, h2⟩ := this
        exact ⟨o, List.mem_append_left _ (by rw [hnext]; exact h1), h2⟩
      · have hpend := stepAct_pend s.disp s.word s.pend a true
        unfold Holds at hp
        cases hc : a.pc <;> rw [hc] at hpc hd hp hpend
        case consume =>
          by_cases hw : preemptPending s.word
          · refine go { a with pc := .consume2 } (by unfold stepAct; rw [hc]; simp [hw])
              (by simp [toDeliver]) (by simp [hc, toDeliver]) ?_
            rw [hnext]; unfold Holds; dsimp only; rw [hpend, if_neg (by simp)]; exact hp
          · refine go { a with pc := .gate, preempt := false } (by unfold stepAct; rw [hc]; simp [hw])
              (by simp [toDeliver]) (by simp [hc, toDeliver]) ?_
            rw [hnext]; unfold Holds; dsimp only; rw [hpend, if_neg (by simp)]; exact hp
        case consume2 =>
          refine go { a with pc := .gate, preempt := true } (by unfold stepAct; rw [hc])
              (by simp [toDeliver]) (by simp [hc, toDeliver]) ?_
          rw [hnext]; unfold Holds; dsimp only; rw [hpend, if_neg (by simp)]; exact hp
        case gate =>
          refine go { a with pc := .clear } (by unfold stepAct; rw [hc]; rfl)
              (by simp [toDeliver]) (by simp [hc, toDeliver]) ?_
          rw [hnext]; unfold Holds; dsimp only; rw [hpend, if_neg (by simp)]; exact hp
        case clear =>
          refine go { a with pc := .take } (by unfold stepAct; rw [hc])
              (by simp [toDeliver]) (by simp [hc, toDeliver]) ?_
          rw [hnext]; unfold Holds; dsimp only; rw [hpend, if_neg (by simp)]; exact hp
        case take =>
          refine go { a with pc := .check, pending := s.pend } (by unfold stepAct; rw [hc])
              (by simp [toDeliver]) (by simp [hc, toDeliver]) ?_
          unfold Holds; exact hp
        case check =>
          refine go { a with pc := .deliver, deferred := a.pending == 0#32 && s.pend != 0#32 }
              (by unfold stepAct; rw [hc])
              (by simp [toDeliver]) (by simp [hc, toDeliver]) ?_
          unfold Holds; exact hp
        case deliver => exact absurd rfl hd
        all_goals exact absurd rfl hpc

/-- SIGTERM pending, a poll just started, a timer tick and SIGSYS (31) arriving inside it: the hypotheses hold and SIGTERM is raised. -/
example : ∃ a, (run init [.signal 15, .arm, .poll]).1.acts[0]? = some a ∧
    Holds 15 (run init [.signal 15, .arm, .poll]).1 a ∧ toDeliver a.pc = 7 ∧
    Obs.raised 15 ∈ (run (run init [.signal 15, .arm, .poll]).1 [.step 0 true, .tick, .step 0 true,
      .step 0 true, .signal 31, .arm, .step 0 true, .step 0 true, .step 0 true]).2 := by
  refine ⟨_, rfl, ⟨by decide, fun m h1 h2 => ?_⟩, by decide, by decide⟩
  have : m = 1 ∨ m = 2 ∨ m = 3 ∨ m = 4 ∨ m = 5 ∨ m = 6 ∨ m = 7 ∨ m = 8 ∨ m = 9 ∨ m = 10 ∨ m = 11 ∨
    m = 12 ∨ m = 13 ∨ m = 14 := by omega
  rcases this with rfl | rfl | rfl | rfl | rfl | rfl | rfl | rfl | rfl | rfl | rfl | rfl | rfl | rfl
    <;> decide

/-- **C22, defaults.**  Every signal whose handler the interpreter installs at start becomes an
exception unless the program says otherwise, and every signal that can be trapped has a bit in the
bitmap. -/
theorem C22_installed_signals_raise :
    (∀ n ∈ posixSignals, initDisp n = .default ∧ signoToError n = true) ∧
    (∀ n ∈ trappableSignals ++ posixSignals, ∀ p, (record p n).getLsbD (n - 1) = true) := by
  refine ⟨by decide, fun n hn p => ?_⟩
  have h : ∀ n ∈ trappableSignals ++ posixSignals, n - 1 + 1 = n ∧ n ≤ 32 := by decide
  rw [record_getLsbD]
  simp [h n hn]

/-- **C22 fails when two signals are drained together.**  SIGINT (trapped, so it runs a handler)
and SIGTERM arrive before the same poll.  The poll calls the SIGINT handler, returns normally, and
SIGTERM is gone: it is not pending, and however the program continues, unless SIGTERM arrives
again it is never delivered. -/
theorem C22_coalesced_signal_is_lost :
    let es : List Ev := [.trap 2 (.handler 7), .signal 2, .arm, .signal 15, .arm, .poll,
      .step 0 true, .step 0 true, .step 0 true, .step 0 true, .step 0 true, .step 0 true,
      .step 0 true, .step 0 true]
    Obs.called 2 7 ∈ (run init es).2 ∧ ¬ Pending (run init es).1 15 ∧
      (run init es).2.countP (Obs.delivers 15) = 0 ∧
    ∀ es', (∀ e ∈ es', e ≠ .signal 15) →
      (run (run init es).1 es').2.countP (Obs.delivers 15) = 0 := by
  dsimp only
  refine ⟨by decide, by unfold Pending; decide, by decide, fun es' h => ?_⟩
  have := tokens_run 15 (by decide) (run init [.trap 2 (.handler 7), .signal 2, .arm, .signal 15,
    .arm, .poll, .step 0 true, .step 0 true, .step 0 true, .step 0 true, .step 0 true, .step 0 true,
    .step 0 true, .step 0 true]).1 es'
  have h0 : tokens 15 (run init [.trap 2 (.handler 7), .signal 2, .arm, .signal 15,
    .arm, .poll, .step 0 true, .step 0 true, .step 0 true, .step 0 true, .step 0 true, .step 0 true,
    .step 0 true, .step 0 true]).1 = 0 := by decide
  have hc : es'.countP (fun e => match e with | .signal m => m == 15 | _ => false) = 0 := by
    rw [List.countP_eq_zero]
    intro e he
    have := h e he
    cases e with
    | signal m =>
      intro hm
      exact this (by rw [beq_iff_eq.1 hm])
    | _ => simp
  omega

/-! ## C23: requests survive other requests' answers -/

/-- **C23, collections.**  A pending collection request stays pending, whatever happens, until a
collection runs: neither a signal, a tick, nor a poll that does other work drops it. -/
theorem C23_gc_request_survives (s : St) (h : Inv s) (hg : gcRequested s.word = true)
    (ha : ∀ a ∈ s.acts, a.pc ≠ .ack) (es : List Ev) (hno : Obs.collected ∉ (run s es).2) :
    gcRequested (run s es).1.word = true := by
  induction es generalizing s with
  | nil => exact hg
  | cons e es ih =>
    have hno1 : Obs.collected ∉ (next s e).2 := fun h => hno (List.mem_append_left _ h)
    have hno2 : Obs.collected ∉ (run (next s e).1 es).2 := fun h => hno (List.mem_append_right _ h)
    obtain ⟨g, p, sg, hw⟩ := h.word
    have hg' : g = true := by rw [hw, enc_gcRequested] at hg; exact hg
    have key : gcRequested (next s e).1.word = true ∧ ∀ a ∈ (next s e).1.acts, a.pc ≠ .ack := by
      cases e with
      | signal n => exact ⟨hg, ha⟩
      | arm =>
        unfold next; dsimp only; split
        · exact ⟨hg, ha⟩
        · exact ⟨by show gcRequested (setSignal s.word) = true
                    rw [hw, enc_setSignal, enc_gcRequested]; exact hg', ha⟩
      | tick =>
        exact ⟨by show gcRequested (setPreempt s.word) = true
                  rw [hw, enc_setPreempt, enc_gcRequested]; exact hg', ha⟩
      | gcRequest =>
        exact ⟨by show gcRequested (setGc s.word) = true
                  rw [hw, enc_setGc, enc_gcRequested], ha⟩
      | poll =>
        unfold next; dsimp only; split
        · refine ⟨hg, fun a hm => ?_⟩
          rcases List.mem_append.1 hm with hm | hm
          · exact ha a hm
          · rw [List.mem_singleton.1 hm]; simp
        · exact ⟨hg, ha⟩
      | trap n d => exact ⟨hg, ha⟩
      | step i ok =>
        unfold next at hno1 ⊢; dsimp only at hno1 ⊢
        cases hx : s.acts[i]? with
        | none => exact ⟨hg, ha⟩
        | some a =>
          rw [hx] at hno1; dsimp only at hno1 ⊢
          have hmem : a ∈ s.acts := List.mem_of_getElem? hx
          obtain ⟨g', p', sg', e1, _, e3⟩ := stepAct_word s.disp g p sg s.pend a ok
          refine ⟨by rw [hw, e1, enc_gcRequested, e3 (ha a hmem)]; exact hg', ?_⟩
          intro b hb
          cases ho : (stepAct s.disp s.word s.pend a ok).2.2.1 with
          | none => rw [ho] at hb; exact ha b (List.mem_of_mem_eraseIdx hb)
          | some c =>
            rw [ho] at hb
            rcases List.mem_or_eq_of_mem_set hb with hb | rfl
            · exact ha b hb
            · intro hack
              revert ho hno1
              unfold stepAct
              cases hc : a.pc <;> dsimp only
              · split <;> rintro _ ⟨⟩ <;> cases hack
              · rintro _ ⟨⟩; cases hack
              · split <;> rintro _ ⟨⟩ <;> cases hack
              · rintro _ ⟨⟩; cases hack
              · rintro _ ⟨⟩; cases hack
              · rintro _ ⟨⟩; cases hack
              · split
                · rintro _ ⟨⟩; cases hack
                · split
                  · split <;> rintro _ ⟨⟩; cases hack
                  · rintro _ ⟨⟩; cases hack
                  · split <;> rintro _ ⟨⟩; cases hack
                  · split <;> rintro _ ⟨⟩; cases hack
              · split
                · intro h _; exact h (List.mem_singleton.2 rfl)
                · rintro _ ⟨⟩; cases hack
              · rintro _ ⟨⟩; cases hack
              · split <;> rintro _ ⟨⟩
    exact ih _ (inv_next h e) key.1 key.2 hno2

/-- A collection is requested while a signal it may not deliver is pending: the off-main poll
defers it and it is still requested. -/
example :
    let s := (run init [.gcRequest, .signal 15, .arm, .poll]).1
    gcRequested s.word = true ∧ (∀ a ∈ s.acts, a.pc ≠ .ack) ∧
    Obs.collected ∉ (run s (List.replicate 6 (.step 0 false))).2 ∧
    (run s (List.replicate 6 (.step 0 false))).1.acts = [] := by decide

/-! ## C23: only live words are written -/

/-- The life of interpreters: a thread creates one at a fresh address, traps a signal, or drops one
it created. -/
inductive RegOp where
  | register (t addr : Nat) | adopt (t : Nat) | unregister (t addr : Nat)

/-- The step, where addresses are fresh when allocated and interpreters are dropped by their own
thread. -/
def RegOp.apply (r : Reg) : RegOp → Option Reg
  | .register t a => if a ∈ r.live.map (·.2) then none else some (r.register t a)
  | .adopt t => some (r.adopt t)
  | .unregister t a => if (t, a) ∈ r.live then some (r.unregister t a) else none

def runReg (r : Reg) : List RegOp → Option Reg
  | [] => some r
  | o :: os => (o.apply r).bind fun r' => runReg r' os

structure RegInv (r : Reg) : Prop where
  own : ∀ t a, r.own t = some a → (t, a) ∈ r.live
  uniq : ∀ t u a, (t, a) ∈ r.live → (u, a) ∈ r.live → t = u
  handler : ∀ a, r.handler = some a → a ∈ r.live.map (·.2)

theorem regInv_step {r r' : Reg} (h : RegInv r) (o : RegOp) (ho : o.apply r = some r') :
    RegInv r' := by
  cases o with
  | register t a =>
    simp only [RegOp.apply] at ho
    split at ho
    · cases ho
    · rename_i hf
      cases ho
      have hf' : ∀ u, (u, a) ∉ r.live := fun u hu => hf (List.mem_map.2 ⟨_, hu, rfl⟩)
      refine ⟨fun u b hb => ?_, fun u v b hu hv => ?_, fun b hb => ?_⟩
      · simp only [Reg.register] at hb ⊢
        split at hb
        · rename_i hut
          cases hb; subst hut
          exact List.mem_cons_self
        · exact List.mem_cons_of_mem _ (h.own u b hb)
      · simp only [Reg.register, List.mem_cons, Prod.mk.injEq] at hu hv
        rcases hu with ⟨rfl, rfl⟩ | hu
        · rcases hv with ⟨rfl, _⟩ | hv
          · rfl
          · exact absurd hv (hf' v)
        · rcases hv with ⟨rfl, rfl⟩ | hv
          · exact absurd hu (hf' u)
          · exact h.uniq u v b hu hv
      · simp only [Reg.register] at hb ⊢
        cases hb
        simp
  | adopt t =>
    simp only [RegOp.apply, Reg.adopt] at ho
    split at ho
    · rename_i a ha
      cases ho
      refine ⟨h.own, h.uniq, fun b hb => ?_⟩
      cases hb
      exact List.mem_map.2 ⟨_, h.own t _ ha, rfl⟩
    · cases ho; exact h
  | unregister t a =>
    simp only [RegOp.apply] at ho
    split at ho
    · rename_i hm
      cases ho
      refine ⟨fun u b hb => ?_, fun u v b hu hv => ?_, fun b hb => ?_⟩
      · simp only [Reg.unregister] at hb ⊢
        have key : r.own u = some b ∧ b ≠ a := by
          split at hb
          · rename_i hut
            subst hut
            split at hb
            · cases hb
            · rename_i hne
              exact ⟨hb, by rintro rfl; exact hne hb⟩
          · rename_i hut
            refine ⟨hb, ?_⟩
            rintro rfl
            exact hut (h.uniq u t b (h.own u b hb) hm)
        exact List.mem_filter.2 ⟨h.own u b key.1, by simpa using key.2⟩
      · exact h.uniq u v b (List.mem_filter.1 hu).1 (List.mem_filter.1 hv).1
      · simp only [Reg.unregister] at hb ⊢
        split at hb
        · cases hb
        · rename_i hne
          obtain ⟨x, hx, hxb⟩ := List.mem_map.1 (h.handler b hb)
          refine List.mem_map.2 ⟨x, List.mem_filter.2 ⟨hx, ?_⟩, hxb⟩
          have : x.2 ≠ a := by rw [hxb]; rintro rfl; exact hne hb
          simpa using this
    · cases ho

/-- **C23, lifetime.**  However interpreters come and go on however many threads, the word a thread
uses for its own requests and the word the signal handler arms are always words of live
interpreters: a request never lands in freed memory, and a thread's request lands in its own
interpreter. -/
theorem C23_requests_reach_a_live_word (os : List RegOp) (r : Reg)
    (h : runReg ⟨[], fun _ => none, none⟩ os = some r) :
    (∀ t a, r.own t = some a → (t, a) ∈ r.live) ∧
    (∀ a, r.handler = some a → ∃ t, (t, a) ∈ r.live) := by
  have aux : ∀ (os : List RegOp) (r r' : Reg), RegInv r → runReg r os = some r' → RegInv r' := by
    intro os
    induction os with
    | nil => intro r r' h hr; cases hr; exact h
    | cons o os ih =>
      intro r r' h hr
      simp only [runReg] at hr
      cases ho : o.apply r with
      | none => rw [ho] at hr; cases hr
      | some r₁ => rw [ho] at hr; exact ih r₁ r' (regInv_step h o ho) hr
  have inv := aux os _ r ⟨fun _ _ h => (by cases h), fun _ _ _ h => (by cases h),
    fun _ h => (by cases h)⟩ h
  refine ⟨inv.own, fun a ha => ?_⟩
  obtain ⟨⟨t, b⟩, h1, h2⟩ := List.mem_map.1 (inv.handler a ha)
  exact ⟨t, by cases h2; exact h1⟩

/-- Two threads' interpreters, the first one dropped after the second took the handler over. -/
example : (runReg ⟨[], fun _ => none, none⟩ [.register 1 10, .register 2 20, .unregister 1 10,
    .register 3 10, .adopt 2]).map (fun r => (r.handler, r.own 1, r.own 3))
    = some (some 20, none, some 10) := by decide

end Verif.Signal
