import Verif.Sched.Io

/-!
# The scheduler: the run queue (C24), wakeups and joins (C25), interrupts (C26), sleeping (C49),
forking (C50)

`Reachable` is any schedule from the start.  `CleanReachable m` is the part of it on which the
book-keeping of deadlines holds: no fork, no zero-timeout poll that ends a *timed* wait for
descriptors (of a green thread, and of main too if `m`), and no error out of the scheduler loop into
main if `m`.  The theorems named `_fails`, `_lost`, … show what happens outside it.
-/

namespace Verif.Sched

/-! ## C24 -/

/-- On a clean schedule, a thread other than main is queued exactly once if it is ready to run and is
not the running one, and is not queued otherwise; and the scheduler does not panic. -/
theorem C24_queue_partial {m : Bool} {s : St} (h : CleanReachable m s) :
    s.crashed = false ∧ ∀ t, s.ready.count t =
      if t ≠ 0 ∧ t ≠ s.current ∧ ((s.thr t).state = .created ∨ (s.thr t).state = .runnable)
      then 1 else 0 := by
  have hi := h.cinv
  refine ⟨hi.r.ncr, fun t => ?_⟩
  rw [hi.q.cnt t]
  have : (s.thr t).state.active = true ↔
      ((s.thr t).state = .created ∨ (s.thr t).state = .runnable) := by
    cases (s.thr t).state <;> simp [TS.active]
  simp only [this]

/-- On a clean schedule, a thread that has started, is alive and does not run can be resumed. -/
theorem C24_resumable_partial {m : Bool} {s : St} (h : CleanReachable m s) {t : Nat} (h0 : t ≠ 0)
    (hc : t ≠ s.current) (hd : (s.thr t).state ≠ .dead) (hn : (s.thr t).state ≠ .created) :
    (s.thr t).resume = true := by
  refine h.cinv.q.res t h0 hc ?_
  cases e : (s.thr t).state <;> simp [TS.parked] <;> simp_all

/-- Two threads: one passes, the other waits for a descriptor, main waits for both. -/
def cleanSched : List Act :=
  [.call (.spawn false), .call (.spawn false), .call (.join 2 none), .joinLoop, .loopIter [],
   .call (.pass []), .loopIter [], .call (.waitFds [7] none), .loopIter [7]]

example : ∃ s, run init cleanSched = some s ∧ CleanRun false init cleanSched ∧ s.ready = [2] ∧
    s.current = 1 := by
  refine ⟨_, rfl, ?_, rfl, rfl⟩
  refine ⟨trivial, fun s h => ?_⟩; cases h
  refine ⟨trivial, fun s h => ?_⟩; cases h
  refine ⟨trivial, fun s h => ?_⟩; cases h
  refine ⟨trivial, fun s h => ?_⟩; cases h
  refine ⟨?_, fun s h => ?_⟩
  · intro e he; cases he
  cases h
  refine ⟨?_, fun s h => ?_⟩
  · intro e; cases e
  cases h
  refine ⟨?_, fun s h => ?_⟩
  · intro e he; cases he
  cases h
  refine ⟨trivial, fun s h => ?_⟩; cases h
  refine ⟨?_, fun s h => ?_⟩
  · intro e he _ _ _
    have he' : e ∈ [((7 : Nat), (2 : Nat))] := he
    simp only [List.mem_singleton] at he'
    subst he'; rfl
  trivial

/-- A thread whose timed wait for a descriptor is ended by the zero-timeout poll, and which then
sleeps. -/
def staleSched (sleepTo : Nat) : List Act :=
  [.call (.spawn false), .call (.sleep none), .loopIter [], .call (.waitFds [7] (some 5)), .tick 1,
   .loopIter [7], .call (.sleep (some sleepTo))]

/-- C24 fails: the deadline of a wait that ended early stays in the list of sleepers; when the deadline
of a later sleep passes with it, the thread is queued twice, so that it is queued while it runs, and
still queued when it is dead. -/
theorem C24_queued_while_running_and_dead :
    (∃ s, run init (staleSched 6 ++ [.tick 9, .loopIter []]) = some s ∧ s.current = 1 ∧
      s.ready = [1]) ∧
    (∃ s, run init (staleSched 6 ++ [.tick 9, .loopIter [], .call (.exit none)]) = some s ∧
      (s.thr 1).state = .dead ∧ s.ready = [1]) := by
  exact ⟨⟨_, rfl, rfl, rfl⟩, ⟨_, rfl, rfl, rfl⟩⟩

/-- … and resuming it then panics. -/
theorem C24_double_entry_panics :
    ∃ s, run init (staleSched 6 ++ [.tick 9, .loopIter [], .call (.exit none), .loopIter []]) = some s ∧
      s.crashed = true := ⟨_, rfl, rfl⟩

/-- Thread `t` is inside a wait for the descriptors `fds` that it began on the way to this state. -/
inductive WaitOf (t : Nat) (fds : List Nat) : St → Prop
  | start {s s' : St} {dl d : Option Nat} (h : Reachable s) (hr : running s = some t)
      (hs : step s (.call (.waitFds fds dl)) = some s') (hp : (s'.thr t).pc = .io d) : WaitOf t fds s'
  | step {s s' : St} {a : Act} {d : Option Nat} (h : WaitOf t fds s) (hs : step s a = some s')
      (hp : (s'.thr t).pc = .io d) : WaitOf t fds s'

/-- While a thread waits, it is registered for the descriptors of this wait and no others (whatever it
waited for before). -/
theorem C24_registered_for_this_wait {t : Nat} {fds : List Nat} {s : St} (h : WaitOf t fds s) :
    ∀ fd, (fd, t) ∈ s.io → fd ∈ fds := by
  have key : Reachable s ∧ (∃ d, (s.thr t).pc = .io d) ∧ ∀ fd, (fd, t) ∈ s.io → fd ∈ fds := by
    induction h with
    | start h hr hs hp =>
      refine ⟨h.step hs, ⟨_, hp⟩, fun fd he => ?_⟩
      obtain ⟨c, hc, hu, _⟩ := call_of_step hs
      rw [hr] at hc; injection hc with hc; subst hc
      rcases step_io hs _ he with h1 | ⟨fds', dl', h1, _, _, h2, _⟩
      · obtain ⟨_, d', h2⟩ := h.io _ h1
        have h2' : ((_ : St).thr t).pc = .io d' := h2
        rw [hu] at h2'; cases h2'
      · cases h1; exact h2
    | step h hs hp ih =>
      obtain ⟨h1, ⟨d, h2⟩, h3⟩ := ih
      refine ⟨h1.step hs, ⟨_, hp⟩, fun fd he => ?_⟩
      rcases step_io hs _ he with h4 | ⟨_, _, _, _, h5, _⟩
      · exact h3 fd h4
      · have h5' : ((_ : St).thr t).pc = .user := h5
        rw [h2] at h5'; cases h5'
  exact key.2.2

/-- So the idle poll ends a wait only if one of its descriptors is ready. -/
theorem C24_descriptor_wakes_its_wait {t : Nat} {fds ready : List Nat} {s s' : St} (h : WaitOf t fds s)
    (hs : step s (.idle ready) = some s') (h1 : (s.thr t).state.parked = true)
    (h2 : (s'.thr t).state.parked = false) : ∃ fd ∈ fds, fd ∈ ready := by
  unfold Sched.step at hs
  split at hs
  · cases hs
  · simp only at hs
    split at hs
    · injection hs with hs; subst hs
      obtain ⟨_, e, he, e1, e2⟩ := poll_woken h1 h2
      exact ⟨e.1, C24_registered_for_this_wait h e.1 (by rw [← e1]; exact he), e2⟩
    · cases hs

/-- A thread waits for descriptor 7, is woken, and waits for 8; main's wait is woken by neither. -/
def rewait : List Act :=
  [.call (.spawn false), .call (.join 1 none), .joinLoop, .loopIter [], .call (.waitFds [7] none),
   .loopIter [], .idle [7], .loopIter [], .call (.waitFds [8] none), .loopIter []]

example : ∃ s s1 s2, run init rewait = some s ∧ WaitOf 1 [8] s ∧
    step s (.idle [7]) = some s1 ∧ (s1.thr 1).state = .ioWaiting ∧
    step s (.idle [8]) = some s2 ∧ (s2.thr 1).state = .runnable := by
  refine ⟨_, _, _, rfl, ?_, rfl, rfl, rfl, rfl⟩
  exact .step (.start ⟨rewait.take 8, rfl⟩ rfl rfl rfl) (a := .loopIter []) rfl rfl

/-! ## C25 -/

/-- A wakeup of a sleeping thread makes it runnable and, unless it is main, queues it. -/
theorem C25_wakeup_ends_sleep {s s' : St} {t : Nat} {p : Bool}
    (h : step s (.call (.wakeup t p)) = some s') (hs : (s.thr t).state = .sleeping) :
    (s'.thr t).state = .runnable ∧ (t ≠ 0 → s'.ready = s.ready ++ [t]) := by
  obtain ⟨c, _, _, h⟩ := call_of_step h
  simp only [doCall] at h
  split at h
  · injection h with h; subst h
    unfold wakeup
    rw [hs]
    refine ⟨by simp [wake_thr], fun h0 => ?_⟩
    rw [wake_ready, if_neg h0]; rfl
  · cases h

/-- The queue is served in order: what a run takes from the queue, followed by what is left, begins
with what was queued at the start.  So a queued thread gets its turn after exactly those before it. -/
theorem C25_queue_is_fifo {s s' : St} {as : List Act} (h : run s as = some s') :
    ∃ l, s.ready ++ l = served s as ++ s'.ready := run_order as h

/-- A wakeup with a permit that finds its thread runnable is kept, through any steps, until the thread
calls `sleep`, and that call returns at once. -/
theorem C25_permit_armed {s s' : St} {t : Nat} (h : step s (.call (.wakeup t true)) = some s')
    (hs : (s.thr t).state = .runnable) : (s'.thr t).permit = true := by
  obtain ⟨c, _, _, h⟩ := call_of_step h
  simp only [doCall] at h
  split at h
  · injection h with h; subst h
    unfold wakeup
    rw [hs]; simp
  · cases h

theorem C25_permit_kept {s s' : St} {a : Act} {t : Nat} (h : Reachable s) (hs : step s a = some s')
    (ht : t < s.n) (hp : (s.thr t).permit = true) :
    (s'.thr t).permit = true ∨
    (∃ dl, a = .call (.sleep dl)) ∧ running s = some t ∧ running s' = some t ∧
      (s'.thr t).state = (s.thr t).state ∧ (s'.thr t).pc = .user := by
  rcases (step_cv h.p hs ht).1 hp with e | ⟨e1, e2, e3, e4, e5, e6⟩
  · exact Or.inl e
  · refine Or.inr ⟨e1, e2, ?_, e3, e4⟩
    rw [← e2]; unfold running; rw [e5, e6]

example : ∃ s, run init [.call (.spawn false), .call (.pass []), .passNext, .call (.wakeup 0 true)] =
    some s ∧ (s.thr 0).permit = true ∧ 0 < s.n := ⟨_, rfl, rfl, by decide⟩

/-- A thread that waits in `join` waits for a live thread, which has it in its list. -/
theorem C25_join_waits_for_the_living {s : St} (h : Reachable s) {t : Nat}
    (ht : t ≠ 0 ∨ s.host = .loop ∨ s.host = .idle) (hj : (s.thr t).state = .joining) :
    ∃ g dl, (s.thr t).pc = .join g dl ∧ (s.thr g).state ≠ .dead ∧ t ∈ (s.thr g).joiners :=
  h.j t ht hj

example : ∃ s, run init [.call (.spawn false), .call (.join 1 none), .joinLoop] = some s ∧
    (s.thr 0).state = .joining ∧ s.host = .loop := ⟨_, rfl, rfl, rfl⟩

/-- A thread leaves `join` only if the target is dead, the timeout has passed, an interrupt is
delivered, or, for main, the scheduler loop fails. -/
theorem C25_join_returns {s s' : St} {a : Act} {t g : Nat} {dl : Option Nat}
    (hs : step s a = some s') (ht : t < s.n) (hp : (s.thr t).pc = .join g dl)
    (hp' : (s'.thr t).pc ≠ .join g dl) :
    (s.thr g).state = .dead ∨ (∃ d, dl = some d ∧ d ≤ s.now) ∨
    (∃ id, (s'.thr t).got = (s.thr t).got ++ [id]) ∨ (t = 0 ∧ a = .loopErr) := by
  rcases step_pc hs ht with e | e
  · exact absurd (e.trans hp) hp'
  · cases e with
    | call q _ hu => rw [hp] at hu; cases hu
    | join hr =>
      unfold Sched.step at hs
      split at hs
      · cases hs
      · simp only [hr, hp, Option.some.injEq] at hs
        subst hs
        revert hp'
        unfold joinLoop
        rcases deliver_cases (s.thr t) true with ⟨id, rs, _, e⟩ | ⟨hn, e⟩
        · rw [e]; intro _; right; right; left; exact ⟨id, by simp⟩
        · rw [e]
          simp only
          split
          · rename_i hd
            intro _; left
            by_cases e1 : g = t
            · subst e1; simpa using hd
            · simpa [e1] using hd
          · split
            · rename_i hd
              intro _; right; left
              cases dl with
              | none => simp [isDue] at hd
              | some d => exact ⟨d, rfl, of_decide_eq_true hd⟩
            · intro hp'
              exact absurd (((joinPark_thr s t g dl t).1).trans hp) hp'
    | main fds h0 hl hr he =>
      subst h0; subst he
      have hm := machine_pc s fds 0
      rw [hp] at hm
      have hg : ((poll (wakeDue s) fds).thr 0).got = (s.thr 0).got := by
        rcases machine_thr s fds 0 with e | e <;> rw [e]
      rcases mainBack_join (b := true) hm with e | ⟨id, e⟩
      · exact absurd e hp'
      · exact Or.inr (Or.inr (Or.inl ⟨id, by rw [e, hg]⟩))
    | green fds rest hl hc hr he =>
      subst he
      have hm := machine_pc s fds t
      rw [hp] at hm
      have hg : ((poll (wakeDue s) fds).thr t).got = (s.thr t).got := by
        rcases machine_thr s fds t with e | e <;> rw [e]
      rcases dispatch_join (s := { poll (wakeDue s) fds with ready := rest }) hm with e | ⟨id, e⟩
      · exact absurd e hp'
      · exact Or.inr (Or.inr (Or.inl ⟨id, by rw [e]; show _ = _; rw [← hg]⟩))
    | passed n h0 hl he =>
      subst h0; subst he
      rcases mainBack_join (b := false) hp with e | ⟨id, e⟩
      · exact absurd e hp'
      · exact Or.inr (Or.inr (Or.inl ⟨id, e⟩))
    | pass n rest hl hc hr he =>
      subst he
      rcases dispatch_join (s := { s with ready := rest, host := .pass n }) hp with e | ⟨id, e⟩
      · exact absurd e hp'
      · exact Or.inr (Or.inr (Or.inl ⟨id, e⟩))
    | err h0 => exact Or.inr (Or.inr (Or.inr ⟨h0, rfl⟩))

example : ∃ s s', run init [.call (.spawn false), .call (.join 1 none), .joinLoop, .loopIter [],
    .call (.exit none), .loopIter []] = some s ∧ step s .joinLoop = some s' ∧
    (s.thr 0).pc = .join 1 none ∧ (s'.thr 0).pc = .user ∧ (s.thr 1).state = .dead :=
  ⟨_, _, rfl, rfl, rfl, rfl, rfl⟩

/-- C25 fails for the public `Thread#wakeup`: sent to a thread that is about to sleep it has no effect,
and the sleep, which has no deadline, is entered all the same. -/
theorem C25_public_wakeup_before_sleep_is_lost :
    ∃ s, run init [.call (.spawn false), .call (.pass []), .passNext, .call (.wakeup 0 false),
      .call (.exit none), .passNext, .call (.sleep none)] = some s ∧
      (s.thr 0).state = .sleeping ∧ s.ready = [] ∧ s.sleepers = [(none, 0)] := ⟨_, rfl, rfl, rfl, rfl⟩

/-- C25 fails for wakeups with a permit too, once an error (a signal handler that raises) has ended a
park of main: main then runs with state `Sleeping`, so the wakeup arms no permit, and main's next
sleep, which has no deadline, is entered.  The same run without the error keeps the permit. -/
theorem C25_permit_lost_after_error_in_main :
    (∃ s, run init [.call (.spawn false), .call (.sleep none), .loopErr, .call (.pass []), .passNext,
      .call (.wakeup 0 true), .call (.exit none), .passNext, .call (.sleep none)] = some s ∧
      (s.thr 0).state = .sleeping ∧ s.host = .loop ∧ s.ready = []) ∧
    (∃ s, run init [.call (.spawn false), .call (.pass []), .passNext,
      .call (.wakeup 0 true), .call (.exit none), .passNext, .call (.sleep none)] = some s ∧
      s.host = .main ∧ (s.thr 0).pc = .user) := ⟨⟨_, rfl, rfl, rfl, rfl⟩, ⟨_, rfl, rfl, rfl⟩⟩

/-! ## C26 -/

/-- May interrupt `i` be delivered to thread `x` now, at a blocking point or not?  The innermost mask
entry that covers its class decides; kills cannot be masked; an uninterruptible section holds back
everything. -/
def may (x : Thread) (blocking : Bool) (i : Intr) : Prop :=
  x.unint = 0 ∧ match i with
    | .kill => True
    | .raise cs => match x.masks.flatten.find? (fun e => e.1 ∈ cs) with
      | none => True
      | some (_, .immediate) => True
      | some (_, .onBlocking) => blocking = true
      | some (_, .never) => False

theorem maskTiming_find (cs : List Nat) : ∀ (ms : List (List (Nat × Timing))),
    maskTiming cs ms = ((ms.flatten.find? (fun e => e.1 ∈ cs)).map (·.2)).getD .immediate := by
  have hf : ∀ (f : List (Nat × Timing)),
      frameTiming cs f = (f.find? (fun e => e.1 ∈ cs)).map (·.2) := by
    intro f
    induction f with
    | nil => rfl
    | cons e f ih =>
      obtain ⟨c, tm⟩ := e
      unfold frameTiming
      by_cases hc : c ∈ cs
      · simp [hc]
      · simp [hc, ih]
  intro ms
  induction ms with
  | nil => rfl
  | cons f ms ih =>
    unfold maskTiming
    rw [hf f, List.flatten_cons, List.find?_append]
    cases f.find? (fun e => e.1 ∈ cs) with
    | none => simpa using ih
    | some e => rfl

theorem deliverable_may (x : Thread) (b : Bool) (i : Intr) : deliverable x b i = true ↔ may x b i := by
  unfold deliverable intrTiming may
  by_cases hu : 0 < x.unint
  · simp [hu]; omega
  · have h0 : x.unint = 0 := by omega
    rw [if_neg hu]
    cases i with
    | kill => simp [h0]
    | raise cs =>
      simp only [maskTiming_find, h0, true_and]
      cases x.masks.flatten.find? (fun e => e.1 ∈ cs) with
      | none => simp
      | some e => obtain ⟨c, tm⟩ := e; cases tm <;> simp

/-- No interrupt is delivered twice, and one that is pending has not been delivered. -/
theorem C26_at_most_once {s : St} (h : Reachable s) (t : Nat) :
    (s.thr t).got.Nodup ∧ ∀ p ∈ (s.thr t).pending, p.1 ∉ (s.thr t).got :=
  ⟨(h.h.each t).h4, (h.h.each t).h5⟩

/-- The queue is in the order in which the interrupts were sent. -/
theorem C26_queue_order {s : St} (h : Reachable s) (t : Nat) :
    ((s.thr t).pending.map (·.1)).Pairwise (· < ·) := (h.h.each t).h1

/-- What one step delivers to a thread: nothing, or the first interrupt in the queue that may be
delivered, where an interrupt the thread sends to itself counts as queued.  It counts as a blocking
point only if the thread is inside or enters `sleep`, `join` or a wait, or asks for it.  The rest of the
queue stays, in order, unless the thread dies. -/
theorem C26_delivery {s s' : St} {a : Act} (h : Reachable s) (hs : step s a = some s') (t : Nat) :
    (s'.thr t).got = (s.thr t).got ∨
    ∃ q pre id i post b, (q = (s.thr t).pending ∨ ∃ j, a = .call (.interrupt t j) ∧
        q = (s.thr t).pending ++ [((s.thr t).queued, j)]) ∧
      q = pre ++ (id, i) :: post ∧ (s'.thr t).got = (s.thr t).got ++ [id] ∧
      (b = true → atBlock s a t) ∧ may (s.thr t) b i ∧ (∀ e ∈ pre, ¬ may (s.thr t) b e.2) ∧
      ((s'.thr t).pending = pre ++ post ∨ (s'.thr t).state = .dead ∧ (s'.thr t).pending = []) := by
  have ofDel : ∀ (x : Thread) (b : Bool), (s'.thr t).iv = (deliver x b).1.iv → x.got = (s.thr t).got →
      x.masks = (s.thr t).masks → x.unint = (s.thr t).unint → (b = true → atBlock s a t) →
      (x.pending = (s.thr t).pending ∨ ∃ j, a = .call (.interrupt t j) ∧
        x.pending = (s.thr t).pending ++ [((s.thr t).queued, j)]) →
      (s'.thr t).got = (s.thr t).got ∨
      ∃ q pre id i post b, (q = (s.thr t).pending ∨ ∃ j, a = .call (.interrupt t j) ∧
        q = (s.thr t).pending ++ [((s.thr t).queued, j)]) ∧
      q = pre ++ (id, i) :: post ∧ (s'.thr t).got = (s.thr t).got ++ [id] ∧
      (b = true → atBlock s a t) ∧ may (s.thr t) b i ∧ (∀ e ∈ pre, ¬ may (s.thr t) b e.2) ∧
      ((s'.thr t).pending = pre ++ post ∨ (s'.thr t).state = .dead ∧ (s'.thr t).pending = []) := by
    intro x b e hg hm hu hb hq
    have hmay : ∀ i, deliverable x b i = true ↔ may (s.thr t) b i := by
      intro i; rw [deliverable_may]; unfold may; rw [hm, hu]
    simp only [Thread.iv, IV.mk.injEq] at e
    obtain ⟨e1, e2, _⟩ := e
    rcases deliver_cases x b with ⟨id, rs, ht, ed⟩ | ⟨_, ed⟩
    · right
      obtain ⟨pre, i, post, q1, q2, q3, q4⟩ := takeFirst_some ht
      refine ⟨x.pending, pre, id, i, post, b, hq, q1, ?_, hb, (hmay i).1 q4, ?_, ?_⟩
      · rw [e2, ed]; simp [hg]
      · intro p hp hmp
        have := q3 p hp
        rw [(hmay p.2).2 hmp] at this; cases this
      · left; rw [e1, ed]; exact q2
    · left; rw [e2, ed]; exact hg
  cases step_evt h.p hs t with
  | quiet e => left; simp only [Thread.iv, IV.mk.injEq] at e; exact e.2.1
  | push i e _ => left; simp only [Thread.iv, IV.mk.injEq] at e; exact e.2.1
  | give b e hb => exact ofDel _ b e rfl rfl rfl hb (Or.inl rfl)
  | own i e ha =>
    exact ofDel (push (s.thr t) i) false e rfl rfl rfl (by simp) (Or.inr ⟨i, ha, rfl⟩)
  | die e _ => left; simp only [Thread.iv, IV.mk.injEq] at e; exact e.2.1
  | dieFirst id i rest hc hp e hd =>
    right
    simp only [Thread.iv, IV.mk.injEq] at e
    obtain ⟨g1, g2, _⟩ := (h.p.good t).g2 hc
    refine ⟨(s.thr t).pending, [], id, i, rest, false, Or.inl rfl, hp, e.2.1, by simp, ?_, by simp,
      Or.inr ⟨hd, e.1⟩⟩
    unfold may
    rw [g1, g2]
    cases i <;> simp
  | mask _ hg _ _ => exact Or.inl hg
  | born hn _ hg _ _ => left; rw [hg, (h.h.fresh t hn).2]

theorem fst_inj {l : List (Nat × Intr)} (h : (l.map (·.1)).Pairwise (· < ·)) {id : Nat} {i j : Intr}
    (hi : (id, i) ∈ l) (hj : (id, j) ∈ l) : i = j := by
  induction l with
  | nil => cases hi
  | cons p l ih =>
    simp only [List.map_cons, List.pairwise_cons] at h
    simp only [List.mem_cons] at hi hj
    have hlt : ∀ k, (id, k) ∈ l → p.1 < id := fun k hk => h.1 id (List.mem_map_of_mem hk)
    rcases hi with hi | hi <;> rcases hj with hj | hj
    · rw [← hi] at hj; exact (Prod.mk.inj hj).2.symm
    · have := hlt _ hj; rw [← hi] at this; exact absurd this (Nat.lt_irrefl _)
    · have := hlt _ hi; rw [← hj] at this; exact absurd this (Nat.lt_irrefl _)
    · exact ih h.2 hi hj

/-- An interrupt masked with `:never`, or held back by an uninterruptible section, is not delivered. -/
theorem C26_never {s s' : St} {a : Act} (h : Reachable s) (hs : step s a = some s') {t id : Nat}
    {i : Intr} (hp : (id, i) ∈ (s.thr t).pending) (hn : ¬ may (s.thr t) true i) :
    id ∉ (s'.thr t).got := by
  have hone := C26_at_most_once h t
  have hlt := (h.h.each t).h2 _ hp
  rcases C26_delivery h hs t with e | ⟨q, pre, id', i', post, b, hq, hqe, hg, _, hm, _, _⟩
  · rw [e]; exact hone.2 _ hp
  · rw [hg]
    intro hc
    simp only [List.mem_append, List.mem_singleton] at hc
    rcases hc with hc | rfl
    · exact hone.2 _ hp hc
    · have hmem : (id, i') ∈ (s.thr t).pending := by
        have : (id, i') ∈ q := by rw [hqe]; simp
        rcases hq with rfl | ⟨j, _, rfl⟩
        · exact this
        · simp only [List.mem_append, List.mem_singleton, Prod.mk.injEq] at this
          rcases this with this | ⟨e, _⟩
          · exact this
          · rw [e] at hlt; exact absurd hlt (Nat.lt_irrefl _)
      have hii : i' = i := by
        have hpw := (h.h.each t).h1
        exact fst_inj hpw hmem hp
      subst hii
      apply hn
      cases b with
      | true => exact hm
      | false =>
        obtain ⟨m1, m2⟩ := hm
        refine ⟨m1, ?_⟩
        cases i' with
        | kill => trivial
        | raise cs =>
          simp only at m2 ⊢
          cases hf : (s.thr t).masks.flatten.find? (fun e => e.1 ∈ cs) with
          | none => trivial
          | some e =>
            obtain ⟨c, tm⟩ := e
            rw [hf] at m2
            cases tm with
            | immediate => trivial
            | onBlocking => exact absurd m2 (by simp)
            | never => exact m2

/-- A pending interrupt stays pending until it is delivered or the thread is dead. -/
theorem C26_kept {s s' : St} {a : Act} (h : Reachable s) (hs : step s a = some s') {t : Nat}
    {p : Nat × Intr} (hp : p ∈ (s.thr t).pending) :
    p ∈ (s'.thr t).pending ∨ p.1 ∈ (s'.thr t).got ∨ (s'.thr t).state = .dead := by
  have ofDel : ∀ (x : Thread) (b : Bool), (s'.thr t).iv = (deliver x b).1.iv → p ∈ x.pending →
      p ∈ (s'.thr t).pending ∨ p.1 ∈ (s'.thr t).got ∨ (s'.thr t).state = .dead := by
    intro x b e hp
    simp only [Thread.iv, IV.mk.injEq] at e
    obtain ⟨e1, e2, _⟩ := e
    rw [e1, e2]
    rcases deliver_cases x b with ⟨id, rs, ht, ed⟩ | ⟨_, ed⟩
    · obtain ⟨pre, i, post, q1, q2, q3, q4⟩ := takeFirst_some ht
      rw [ed]
      rw [q1] at hp
      simp only [List.mem_append, List.mem_cons] at hp
      rcases hp with hp | rfl | hp
      · left; simp [q2, hp]
      · right; left; simp
      · left; simp [q2, hp]
    · rw [ed]; exact Or.inl hp
  cases step_evt h.p hs t with
  | quiet e => left; simp only [Thread.iv, IV.mk.injEq] at e; rw [e.1]; exact hp
  | push i e _ =>
    left; simp only [Thread.iv, IV.mk.injEq, push] at e; rw [e.1]; simp [hp]
  | give b e hb => exact ofDel _ b e hp
  | own i e ha => exact ofDel (push (s.thr t) i) false e (by simp [push, hp])
  | die e hd => exact Or.inr (Or.inr hd)
  | dieFirst id i rest hc _ e hd => exact Or.inr (Or.inr hd)
  | mask hpe _ _ _ => left; rw [hpe]; exact hp
  | born hn _ _ _ _ => rw [(h.h.fresh t hn).1] at hp; cases hp

/-- Masks change only by the thread's own doing (or when the thread is created). -/
theorem C26_masks_own {s s' : St} {a : Act} (h : Reachable s) (hs : step s a = some s') {t : Nat}
    (ht : t < s.n) (hne : (s'.thr t).masks ≠ (s.thr t).masks ∨ (s'.thr t).unint ≠ (s.thr t).unint) :
    running s = some t := by
  have iveq : ∀ (x : Thread), (s'.thr t).iv = x.iv → x.masks = (s.thr t).masks →
      x.unint = (s.thr t).unint → running s = some t := by
    intro x e h1 h2
    simp only [Thread.iv, IV.mk.injEq] at e
    rcases hne with hne | hne
    · exact absurd (e.2.2.2.1.trans h1) hne
    · exact absurd (e.2.2.2.2.trans h2) hne
  have del : ∀ (x : Thread) (b : Bool), (deliver x b).1.masks = x.masks ∧
      (deliver x b).1.unint = x.unint := by
    intro x b
    rcases deliver_cases x b with ⟨_, _, _, e⟩ | ⟨_, e⟩ <;> rw [e] <;> exact ⟨rfl, rfl⟩
  cases step_evt h.p hs t with
  | quiet e => exact iveq _ e rfl rfl
  | push i e _ => exact iveq _ e rfl rfl
  | give b e hb => exact iveq _ e (del _ _).1 (del _ _).2
  | own i e ha => exact iveq _ e ((del _ _).1.trans rfl) ((del _ _).2.trans rfl)
  | die e hd =>
    simp only [Thread.iv, IV.mk.injEq] at e
    rcases hne with hne | hne
    · exact absurd e.2.2.2.1 hne
    · exact absurd e.2.2.2.2 hne
  | dieFirst id i rest hc _ e hd =>
    simp only [Thread.iv, IV.mk.injEq] at e
    rcases hne with hne | hne
    · exact absurd e.2.2.2.1 hne
    · exact absurd e.2.2.2.2 hne
  | mask _ _ _ hr => exact hr
  | born hn _ _ _ _ => omega

/-- A parked thread has no pending interrupt that it may take where it is parked: an interrupt that may
be delivered wakes its thread, and one that may be delivered is taken before parking. -/
theorem C26_parked_has_none_due {s : St} (h : Reachable s) {t : Nat}
    (ht : t ≠ 0 ∨ s.host = .loop ∨ s.host = .idle) (hp : (s.thr t).state.parked = true) :
    ∀ p ∈ (s.thr t).pending, ¬ may (s.thr t) true p.2 := by
  intro p hpp hm
  have := (h.p.good t).g3 ht hp p hpp
  rw [← deliverable_may] at hm
  simp [deliverable, this] at hm

/-- In a process that has not forked, a dead thread stays dead, gets no interrupt and keeps none. -/
theorem C26_dead_partial {as bs : List Act} {s s' : St} (h : run init as = some s) (ha : NoFork as)
    (hs : run s bs = some s') (hb : NoFork bs) {t : Nat} (ht : t < s.n)
    (hd : (s.thr t).state = .dead) :
    (s'.thr t).state = .dead ∧ (s'.thr t).got = (s.thr t).got ∧ (s'.thr t).pending = [] := by
  have hP : P true s := (P.init true).run (fun _ => ha) h
  have hR : Reachable s := ⟨as, h⟩
  clear h ha
  induction bs generalizing s with
  | nil =>
    simp only [Sched.run, Option.some.injEq] at hs; subst hs
    exact ⟨hd, rfl, ((hP.good t).g4 rfl hd).2⟩
  | cons a bs ih =>
    simp only [Sched.run] at hs
    split at hs
    · rename_i s1 h1
      have hna : a ≠ .call .fork := by rintro rfl; exact hb (by simp)
      have hd1 := D.step hP h1 t ht hd
      have hR1 : Reachable s1 := by
        obtain ⟨cs, hc⟩ := hR
        refine ⟨cs ++ [a], ?_⟩
        clear ih hs
        revert hc
        generalize init = z
        induction cs generalizing z with
        | nil =>
          intro hc; simp only [Sched.run, Option.some.injEq] at hc; subst hc
          simp [Sched.run, h1]
        | cons b cs ihc =>
          intro hc
          simp only [Sched.run, List.cons_append] at hc ⊢
          split at hc
          · exact ihc _ hc
          · cases hc
      have hpn := ((hP.good t).g4 rfl hd).2
      have hg : (s1.thr t).got = (s.thr t).got := by
        rcases C26_delivery hR h1 t with e | ⟨q, pre, id, i, post, b, hq, hqe, hg, _, _, _, _⟩
        · exact e
        · rcases hq with rfl | ⟨j, rfl, rfl⟩
          · rw [hpn] at hqe; simp at hqe
          · -- the thread would have to send it to itself, but it is dead
            obtain ⟨c, hc, _, hdc⟩ := call_of_step h1
            have hct : t ≠ c := by
              rintro rfl
              unfold running at hc
              split at hc
              · injection hc with hc; subst hc; exact hP.s0.2 rfl hd
              · split at hc
                · cases hc
                · rename_i h0; injection hc with hc; subst hc
                  rw [(hP.cur h0).1] at hd; cases hd
            have hi : doCall s c (.interrupt t j) = some s := by
              simp only [doCall, if_pos ht]
              unfold interrupt
              rw [if_neg hct, if_pos hd]
            rw [hi] at hdc
            injection hdc with hdc
            rw [← hdc]
      obtain ⟨r1, r2, r3⟩ := ih hs (fun e => hb (by simp [e])) (Nat.lt_of_lt_of_le ht (step_n h1)) hd1
        (hP.step (fun _ => hna) h1) hR1
      exact ⟨r1, r2.trans hg, r3⟩
    · cases hs

/-- Main masks class 5, gets two interrupts of class 5 from thread 1 and one of class 6, and sleeps:
only the last is delivered. -/
example : ∃ s, run init [.call (.spawn false), .call (.pushMask [(5, .never)]), .call (.pass []),
    .passNext, .call (.interrupt 0 (.raise [5])), .call (.interrupt 0 (.raise [5])),
    .call (.interrupt 0 (.raise [6])), .call (.exit none), .passNext] = some s ∧
    (s.thr 0).got = [2] ∧ (s.thr 0).pending = [(0, .raise [5]), (1, .raise [5])] :=
  ⟨_, rfl, rfl, rfl⟩

/-! ## C49 -/

/-- On a clean schedule a thread leaves `sleep` only when the deadline has passed, or a wakeup or an
interrupt has hit the sleep.  For main (`m = true`) this takes schedules without errors out of the
scheduler loop. -/
theorem C49_step_partial {m : Bool} {s s' : St} {a : Act} (h : CleanReachable m s)
    (hcl : Clean m s a) (hs : step s a = some s') {t : Nat} (ht : t ≠ 0 ∨ m = true) (hn : t < s.n)
    {d : Option Nat} (hpc : (s.thr t).pc = .sleep d) (hne : (s'.thr t).pc ≠ .sleep d) :
    (s'.thr t).roused = true ∨ ∃ e, d = some e ∧ e ≤ s'.now := by
  rcases clean_leave h.cinv hcl hs ht hn hpc hne with e | e
  · exact Or.inl e
  · cases d with
    | none => simp [isDue] at e
    | some e' => exact Or.inr ⟨e', rfl, by simpa [isDue] using e⟩

/-- Over a whole clean run, for a green thread: from a sleep that nothing has hit, the thread is only
out of it if its deadline has passed, or the run has a wakeup of it or an interrupt to it. -/
theorem C49_sleep_lasts_partial {m : Bool} {t : Nat} {d : Option Nat} (ht : t ≠ 0) :
    ∀ (as : List Act) {s s' : St}, CInv m s → P false s → t < s.n → (s.thr t).pc = .sleep d →
    (s.thr t).roused = false → CleanRun m s as → run s as = some s' →
    (s'.thr t).pc = .sleep d ∨ (∃ e, d = some e ∧ e ≤ s'.now) ∨
      (∃ p, Act.call (.wakeup t p) ∈ as) ∨ (∃ i, Act.call (.interrupt t i) ∈ as) := by
  have now_run : ∀ (as : List Act) {s s' : St}, run s as = some s' → s.now ≤ s'.now := by
    intro as
    induction as with
    | nil => intro s s' h; simp only [Sched.run, Option.some.injEq] at h; subst h; exact Nat.le_refl _
    | cons a as ih =>
      intro s s' h
      simp only [Sched.run] at h
      split at h
      · rename_i s1 h1; exact Nat.le_trans (step_now h1) (ih h)
      · cases h
  intro as
  induction as with
  | nil =>
    intro s s' _ _ _ hpc _ _ hr
    simp only [Sched.run, Option.some.injEq] at hr; subst hr; exact Or.inl hpc
  | cons a as ih =>
    intro s s' hC hP hn hpc hro hcl hr
    simp only [Sched.run] at hr
    split at hr
    · rename_i s1 h1
      by_cases hr1 : (s1.thr t).roused = true
      · right; right
        rcases (step_cv hP h1 hn).2 hro hr1 with ⟨p, rfl⟩ | ⟨i, rfl⟩ | e
        · exact Or.inl ⟨p, by simp⟩
        · exact Or.inr ⟨i, by simp⟩
        · exact absurd e ht
      · by_cases hp1 : (s1.thr t).pc = .sleep d
        · have hro1 : (s1.thr t).roused = false := by
            cases e : (s1.thr t).roused with
            | false => rfl
            | true => exact absurd e hr1
          rcases ih (hC.step hcl.1 h1) (hP.step (by simp) h1) (Nat.lt_of_lt_of_le hn (step_n h1)) hp1
            hro1 (hcl.2 _ h1) hr with e | e | ⟨p, e⟩ | ⟨i, e⟩
          · exact Or.inl e
          · exact Or.inr (Or.inl e)
          · exact Or.inr (Or.inr (Or.inl ⟨p, by simp [e]⟩))
          · exact Or.inr (Or.inr (Or.inr ⟨i, by simp [e]⟩))
        · right; left
          rcases clean_leave hC hcl.1 h1 (Or.inl ht) hn hpc hp1 with e | e
          · exact absurd e hr1
          · cases d with
            | none => simp [isDue] at e
            | some e' =>
              exact ⟨e', rfl, Nat.le_trans (by simpa [isDue] using e) (now_run as hr)⟩
    · cases hr

/-- The sleep of thread 1 starts unroused, in a clean reachable state. -/
example : ∃ s, run init [.call (.spawn false), .call (.sleep none), .loopIter [],
    .call (.sleep (some 5))] = some s ∧ (s.thr 1).pc = .sleep (some 5) ∧ (s.thr 1).roused = false ∧
    CInv true s ∧ P false s ∧ 1 < s.n := by
  refine ⟨_, rfl, rfl, rfl, ?_, ?_, by decide⟩
  · refine CleanReachable.cinv ⟨[.call (.spawn false), .call (.sleep none), .loopIter [],
      .call (.sleep (some 5))], ?_, rfl⟩
    refine ⟨trivial, fun s h => ?_⟩; cases h
    refine ⟨trivial, fun s h => ?_⟩; cases h
    refine ⟨?_, fun s h => ?_⟩
    · intro e he; cases he
    cases h
    exact ⟨trivial, fun s h => trivial⟩
  · exact Reachable.p ⟨[.call (.spawn false), .call (.sleep none), .loopIter [],
      .call (.sleep (some 5))], rfl⟩

/-- C49 fails for a thread whose earlier timed wait for a descriptor ended early: its sleep until 11
ends at 5, the deadline of that wait, though nothing has woken or interrupted it. -/
theorem C49_stale_deadline_cuts_sleep :
    ∃ s, run init (staleSched 11 ++ [.tick 4, .loopIter []]) = some s ∧
      s.current = 1 ∧ (s.thr 1).pc = .user ∧ s.now = 5 ∧ (s.thr 1).roused = false ∧
      (s.thr 1).got = [] := ⟨_, rfl, rfl, rfl, rfl, rfl, rfl⟩

/-- C49 fails for main after an error (a signal handler that raises) has ended a sleep: the sleep was to
last until 5 and is given up at 1; the next sleep, until 11, then ends at 5. -/
theorem C49_rescued_signal_cuts_next_sleep :
    ∃ s, run init [.call (.spawn false), .call (.sleep (some 5)), .loopIter [], .call (.sleep none),
      .loopIter [], .tick 1, .loopErr, .call (.sleep (some 11)), .loopIter [], .tick 4, .idle [],
      .loopIter []] = some s ∧
      s.host = .main ∧ (s.thr 0).pc = .user ∧ s.now = 5 ∧ (s.thr 0).roused = false ∧
      (s.thr 0).got = [] := ⟨_, rfl, rfl, rfl, rfl, rfl, rfl⟩

/-! ## C50 -/

/-- In the child of a fork, a thread other than main and the forking one that was not in the run queue
never runs: it is dead and not the running thread, whatever happens afterwards. -/
theorem C50_unqueued_stay_dead_partial {s s1 s2 : St} {as : List Act} {c t : Nat}
    (h : Reachable s) (hc : running s = some c) (hf : step s (.call .fork) = some s1)
    (ht : t < s.n) (h0 : t ≠ 0) (htc : t ≠ c) (hq : t ∉ s.ready) (hr : run s1 as = some s2) :
    (s2.thr t).state = .dead ∧ running s2 ≠ some t ∧ t ∉ s2.ready := by
  have _ := h
  obtain ⟨c', hc', _, hd⟩ := call_of_step hf
  rw [hc] at hc'; injection hc' with e; subst e
  simp only [doCall, Option.some.injEq] at hd
  have hcur : s.current ≠ t := by
    unfold running at hc
    split at hc
    · rename_i hm
      intro e
      by_cases h00 : s.current = 0
      · exact h0 (e.symm.trans h00)
      · exact (h.p.cur h00).2.2.1 hm
    · split at hc
      · cases hc
      · injection hc with hc; rw [hc]; exact Ne.symm htc
  have hz : Z t s1 := by
    rw [← hd]
    exact ⟨by simp [forkChild, htc], hq, hcur, h0, ht⟩
  have hz2 := hz.run as hr
  refine ⟨hz2.dead, ?_, hz2.nq⟩
  unfold running
  split
  · intro e; injection e with e; exact h0 e.symm
  · split
    · simp
    · intro e; injection e with e; exact hz2.nc e

example : ∃ s, run init [.call (.spawn false), .call (.sleep (some 9)), .loopIter [],
    .call (.sleep none), .tick 9, .loopIter []] = some s ∧ running s = some 0 ∧ 1 ∉ s.ready ∧
    1 < s.n ∧ (s.thr 1).state = .sleeping ∧ (step s (.call .fork)).isSome = true :=
  ⟨_, rfl, rfl, by decide, by decide, rfl, rfl⟩

/-- C50 fails: a thread that was in the run queue, having passed, runs in the child when the forking
thread passes. -/
theorem C50_queued_thread_runs_in_child :
    ∃ s, run init [.call (.spawn false), .call (.spawn false), .call (.sleep none), .loopIter [],
      .call (.pass []), .loopIter [], .call .fork, .call (.pass []), .loopIter []] = some s ∧
      running s = some 1 ∧ (s.thr 1).state = .runnable ∧ (s.thr 1).pc = .user :=
  ⟨_, rfl, rfl, rfl, rfl⟩

/-- C50 fails: with a thread in the run queue that had not started, the child panics at its first
`Thread.pass`, and also when it starts a thread of its own and joins it. -/
theorem C50_unstarted_thread_panics_in_child :
    (∃ s, run init [.call (.spawn false), .call .fork, .call (.pass []), .passNext] = some s ∧
      s.crashed = true) ∧
    (∃ s, run init [.call (.spawn false), .call .fork, .call (.spawn false), .call (.join 2 none),
      .joinLoop, .loopIter []] = some s ∧ s.crashed = true) := ⟨⟨_, rfl, rfl⟩, ⟨_, rfl, rfl⟩⟩

/-- C50 fails: when a green thread has forked and the child then has nothing to run, the deadlock error
is raised in the main thread, which is dead there, and main's code runs on in the child. -/
theorem C50_dead_main_runs_in_child :
    ∃ s, run init [.call (.spawn false), .call (.sleep none), .loopIter [], .call .fork,
      .call (.sleep none), .loopIter [], .loopErr] = some s ∧
      running s = some 0 ∧ (s.thr 0).state = .dead ∧ (s.thr 0).pc = .user := ⟨_, rfl, rfl, rfl, rfl⟩

end Verif.Sched
