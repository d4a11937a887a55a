import Verif.NativePool.Lemmas

/-! # C27: offloaded blocking work is neither lost nor leaked -/

namespace Verif.NativePool

/-- Number of times the result of a job has been handed over or thrown away. -/
def outcomes (evs : List Ev) : Nat :=
  (evs.filter fun | .fin _ => false | _ => true).length

/-- In every reachable state the result of a job has been handed over or thrown away at most once,
what was handed over or thrown away is the job's own result, and a waiter that returned a result
returned the one handed over to it. -/
theorem C27_at_most_once {s : St} (hs : Reachable s) {i : Nat} {j : Job}
    (hj : s.jobs[i]? = some j) :
    outcomes j.evs ≤ 1 ∧
    (∀ c, (.took c ∈ j.evs ∨ .dropped c ∈ j.evs) → .fin c ∈ j.evs) ∧
    (∀ c, j.waiter = .got c ↔ .took c ∈ j.evs) ∧
    (∀ c d, .fin c ∈ j.evs → .fin d ∈ j.evs → c = d) := by
  have h := (reachable_inv hs).job i j hj
  obtain ⟨ow, op, wk, wt, evs⟩ := j
  cases wk <;> simp only [JobInv] at h
  case running => obtain ⟨_, rfl, hp⟩ := h; cases wt <;> simp_all [Pre, outcomes]
  case finished => obtain ⟨_, rfl, hp⟩ := h; cases wt <;> simp_all [Pre, outcomes]
  case holding => obtain ⟨_, rfl, hp⟩ := h; cases wt <;> simp_all [Pre, outcomes]
  case inserting => obtain ⟨_, rfl, hp⟩ := h; cases wt <;> simp_all [Pre, outcomes]
  case inserted =>
    obtain ⟨_, c, hp⟩ := h; cases wt <;> simp_all [Post, outcomes] <;> exact fun _ => eq_comm
  case toWrite =>
    obtain ⟨_, c, hp⟩ := h; cases wt <;> simp_all [Post, outcomes] <;> exact fun _ => eq_comm
  case dropped =>
    obtain ⟨_, rfl, _, c, rfl⟩ := h; simp [outcomes]
  case done =>
    obtain ⟨_, ⟨c, hp⟩ | ⟨rfl, _, c, rfl⟩⟩ := h
    · cases wt <;> simp_all [Post, outcomes] <;> exact fun _ => eq_comm
    · simp [outcomes]

/-- When the worker has ended and the waiter has returned, the job's result was handed over exactly
once, to its waiter, or thrown away exactly once, its waiter having returned an error. -/
theorem C27_exactly_once {s : St} (hs : Reachable s) {i : Nat} {j : Job}
    (hj : s.jobs[i]? = some j) (hw : j.worker = .done) (ht : j.waiter.ended = true) :
    ∃ c, (j.waiter = .got c ∧ j.evs = [.fin c, .took c]) ∨
      (j.waiter = .gone ∧ j.evs = [.fin c, .dropped c]) := by
  have h := (reachable_inv hs).job i j hj
  obtain ⟨ow, op, wk, wt, evs⟩ := j
  simp only at hw; subst hw
  simp only [JobInv] at h
  obtain ⟨_, ⟨c, hp⟩ | ⟨rfl, _, c, rfl⟩⟩ := h
  · cases wt <;> simp_all [Post, Waiter.ended]
  · exact ⟨c, Or.inr ⟨rfl, rfl⟩⟩

/-- Nothing stays in memory: a result is stored only while its waiter is still there to take or
discard it, and the mark of an abandoned job is removed before its worker ends. -/
theorem C27_no_leak {s : St} (hs : Reachable s) (i : Nat) :
    (∀ c, s.results i = some c → ∃ j, s.jobs[i]? = some j ∧ j.waiter.ended = false ∧
      .fin c ∈ j.evs) ∧
    (s.orphans i = true → ∃ j, s.jobs[i]? = some j ∧ j.worker ≠ .done ∧ outcomes j.evs = 0) := by
  have hI := reachable_inv hs
  cases hj : s.jobs[i]? with
  | none => obtain ⟨a, b, _⟩ := hI.out i hj; simp [a, b]
  | some j =>
    have h := hI.job i j hj
    obtain ⟨ow, op, wk, wt, evs⟩ := j
    cases wk <;> simp only [JobInv] at h
    case running => obtain ⟨hr, rfl, hp⟩ := h; simp [hr, outcomes]
    case finished => obtain ⟨hr, rfl, hp⟩ := h; simp [hr, outcomes]
    case holding => obtain ⟨hr, rfl, hp⟩ := h; simp [hr, outcomes]
    case inserting => obtain ⟨hr, rfl, hp⟩ := h; simp [hr, outcomes]
    case inserted =>
      obtain ⟨ho, c, hp⟩ := h; cases wt <;> simp_all [Post, Waiter.ended]
    case toWrite =>
      obtain ⟨ho, c, hp⟩ := h; cases wt <;> simp_all [Post, Waiter.ended]
    case dropped => obtain ⟨ho, rfl, hr, _⟩ := h; simp [ho, hr]
    case done =>
      obtain ⟨ho, ⟨c, hp⟩ | ⟨rfl, hr, _⟩⟩ := h
      · cases wt <;> simp_all [Post, Waiter.ended]
      · simp [ho, hr]

/-- After every worker has ended and every waiter has returned, both tables are empty and the lock
is free. -/
theorem C27_quiescent {s : St} (hs : Reachable s)
    (hq : ∀ j ∈ s.jobs, j.worker = .done ∧ j.waiter.ended = true) (i : Nat) :
    s.results i = none ∧ s.orphans i = false ∧ s.lock = none := by
  refine ⟨?_, ?_, ?_⟩
  · cases hr : s.results i with
    | none => rfl
    | some c =>
      obtain ⟨j, hj, he, _⟩ := (C27_no_leak hs i).1 c hr
      rw [(hq j (List.mem_of_getElem? hj)).2] at he; cases he
  · cases ho : s.orphans i with
    | false => rfl
    | true =>
      obtain ⟨j, hj, hd, _⟩ := (C27_no_leak hs i).2 ho
      exact absurd (hq j (List.mem_of_getElem? hj)).1 hd
  · have hI := reachable_inv hs
    cases hl : s.lock with
    | none => rfl
    | some p =>
      obtain ⟨k, b⟩ := p
      cases hj : s.jobs[k]? with
      | none => exact absurd hl ((hI.out k hj).2.2 b)
      | some j =>
        obtain ⟨h1, h2⟩ := hq j (List.mem_of_getElem? hj)
        cases b with
        | true => have := (hI.lockW k j hj).2 hl; rw [h1] at this; cases this
        | false =>
          have := (hI.lockD k j hj).2 hl
          cases hw : j.waiter <;> simp_all [Waiter.holds, Waiter.ended]

theorem setget {l : List Job} {i : Nat} {j j' : Job} (hj : l[i]? = some j) :
    (l.set i j')[i]? = some j' := by
  have hlt : i < l.length := by
    rcases List.getElem?_eq_some_iff.1 hj with ⟨h1, _⟩; exact h1
  rw [List.getElem?_set]; simp [hlt]

/-- The lock is never held for good: whoever holds it can release it by its own steps alone. -/
theorem C27_lock_released {s : St} (hs : Reachable s) {i : Nat} {b : Bool}
    (hl : s.lock = some (i, b)) :
    ∃ as s', run s as = some s' ∧ s'.lock = none ∧ ∀ a ∈ as, a.ticket? = some i := by
  have hI := reachable_inv hs
  cases hj : s.jobs[i]? with
  | none => exact absurd hl ((hI.out i hj).2.2 b)
  | some j =>
    obtain ⟨ow, op, wk, wt, evs⟩ := j
    cases b with
    | true =>
      have hw := (hI.lockW i _ hj).2 hl
      have fin2 : ∀ (t : St) (c : Comp) (w : Waiter) (e : List Ev),
          t.jobs[i]? = some ⟨ow, op, .inserting c, w, e⟩ →
          ∃ s', run t [.insert i, .unlockW i] = some s' ∧ s'.lock = none := by
        intro t c w e ht
        simp [run, step, Act.ticket?, ht, stepJob, setget ht]
      cases wk <;> simp [Worker.holds] at hw
      case holding c =>
        cases ho : s.orphans i with
        | true =>
          exact ⟨[.testOrphan i, .unlockW i], by simp [run, step, Act.ticket?, hj, stepJob, ho, setget hj]⟩
        | false =>
          obtain ⟨s', h1, h2⟩ := fin2 { s with jobs := s.jobs.set i ⟨ow, op, .inserting c, wt, evs⟩ }
            c wt evs (setget hj)
          refine ⟨[.testOrphan i, .insert i, .unlockW i], s', ?_, h2, by simp [Act.ticket?]⟩
          rw [run]
          simp only [step, Act.ticket?, hj, stepJob, ho]
          exact h1
      case inserting c =>
        obtain ⟨s', h1, h2⟩ := fin2 s c wt evs hj
        exact ⟨[.insert i, .unlockW i], s', h1, h2, by simp [Act.ticket?]⟩
      case inserted =>
        exact ⟨[.unlockW i], by simp [run, step, Act.ticket?, hj, stepJob]⟩
      case dropped =>
        exact ⟨[.unlockW i], by simp [run, step, Act.ticket?, hj, stepJob]⟩
    | false =>
      have hw := (hI.lockD i _ hj).2 hl
      cases wt <;> simp [Waiter.holds] at hw
      case dholding =>
        cases hr : s.results i with
        | some c =>
          exact ⟨[.removeD i, .unlockD i], by simp [run, step, Act.ticket?, hj, stepJob, hr, setget hj]⟩
        | none =>
          exact ⟨[.removeD i, .markD i, .unlockD i], by simp [run, step, Act.ticket?, hj, stepJob, hr, setget hj, List.set_set]⟩
      case dmark =>
        exact ⟨[.markD i, .unlockD i], by simp [run, step, Act.ticket?, hj, stepJob, setget hj]⟩
      case dleaving =>
        exact ⟨[.unlockD i], by simp [run, step, Act.ticket?, hj, stepJob]⟩

/-- A parked waiter whose job's result is stored, and whose interpreter's pipe is readable, gets
that result after one poll. -/
theorem C27_delivered {s : St} (hs : Reachable s) {i : Nat} {j : Job}
    (hj : s.jobs[i]? = some j) (hp : j.waiter = .parked) (hw : j.worker = .done)
    (hpipe : 0 < s.pipe j.owner) :
    ∃ s' j' c, run s [.poll j.owner, .drain i, .take i] = some s' ∧ s'.jobs[i]? = some j' ∧
      j'.waiter = .got c ∧ .fin c ∈ j.evs := by
  have h := (reachable_inv hs).job i j hj
  obtain ⟨ow, op, wk, wt, evs⟩ := j
  simp only at hp hw; subst hp; subst hw
  simp only [JobInv, Post, Drop, reduceCtorEq, false_and, or_false] at h
  obtain ⟨_, c, hr, rfl⟩ := h
  simp only at hpipe
  have h0 : (s.jobs.map (wake ow))[i]? = some ⟨ow, op, .done, .woken, [.fin c]⟩ := by
    rw [List.getElem?_map, hj]; simp [wake]
  have hne := Nat.pos_iff_ne_zero.1 hpipe
  simp only [run, step, if_neg hne]
  generalize s.jobs.map (wake ow) = l at h0
  simp [Act.ticket?, h0, stepJob, setget h0, hr]

/-- Part of C27: as long as an interpreter has at most one outstanding job at a time, a waiter whose
worker has ended is woken by the next poll and gets its result.  Without the restriction this is
false (`C27_lost_wakeup`). -/
theorem C27_wakeup_partial {as : List Act} {s : St} (hser : Serial init as)
    (hs : run init as = some s) {i : Nat} {j : Job} (hj : s.jobs[i]? = some j)
    (hp : j.waiter = .parked) (hw : j.worker = .done) :
    ∃ s' j' c, run s [.poll j.owner, .drain i, .take i] = some s' ∧ s'.jobs[i]? = some j' ∧
      j'.waiter = .got c ∧ .fin c ∈ j.evs :=
  C27_delivered ⟨as, hs⟩ hj hp hw
    ((run_sinv inv_init sinv_init hser hs).pend i j hj (Or.inr hp) hw)

/-- Two jobs of one interpreter.  Both wait; job 1 completes; the poll wakes both; waiter 0 runs
first, empties the pipe, finds nothing and parks; job 0 completes and writes its byte; waiter 1,
still on its way from the first poll, empties the pipe and takes its own result. -/
def lostSchedule : List Act :=
  [.submit 0 .other, .take 0, .park 0, .submit 0 .other, .take 1, .park 1,
   .finish 1 ⟨11, 0⟩, .lockW 1, .testOrphan 1, .insert 1, .unlockW 1, .write 1,
   .poll 0, .drain 0, .take 0, .park 0,
   .finish 0 ⟨10, 0⟩, .lockW 0, .testOrphan 0, .insert 0, .unlockW 0, .write 0,
   .drain 1, .take 1]

theorem lost_state : ∃ s, run init lostSchedule = some s ∧
    s.jobs = [⟨0, .other, .done, .parked, [.fin ⟨10, 0⟩]⟩,
      ⟨0, .other, .done, .got ⟨11, 0⟩, [.fin ⟨11, 0⟩, .took ⟨11, 0⟩]⟩] ∧
    s.results 0 = some ⟨10, 0⟩ ∧ s.pipe 0 = 0 := by
  refine ⟨_, rfl, ?_, ?_, ?_⟩ <;> decide

/-- A parked waiter of an interpreter with an empty pipe and no running workers stays parked as
long as it is not interrupted and nothing is submitted. -/
theorem stays_parked {as : List Act} : ∀ {s s' : St} {i : Nat} {j : Job},
    s.jobs[i]? = some j → j.waiter = .parked → s.pipe j.owner = 0 →
    (∀ k ∈ s.jobs, k.owner = j.owner → k.worker = .done) →
    (∀ a ∈ as, a ≠ .interrupt i ∧ ∀ o op, a ≠ .submit o op) →
    run s as = some s' → ∃ j', s'.jobs[i]? = some j' ∧ j'.waiter = .parked ∧ j'.evs = j.evs := by
  induction as with
  | nil => intro s s' i j hj hp _ _ _ hs; simp [run] at hs; subst hs; exact ⟨j, hj, hp, rfl⟩
  | cons a as ih =>
    intro s s' i j hj hp h0 hd hno hs
    simp only [run] at hs
    split at hs
    · rename_i s1 h1
      have hno' := fun b hb => hno b (List.mem_cons_of_mem _ hb)
      have ha := hno a List.mem_cons_self
      rcases step_job h1 with ⟨o, op, rfl, rfl⟩ | ⟨o, rfl, hp1, rfl⟩ | ⟨k, l, htk, hl, h1⟩
      · exact absurd rfl (ha.2 o op)
      · have hne : j.owner ≠ o := by rintro rfl; omega
        have hji : (s.jobs.map (wake o))[i]? = some j := by
          rw [List.getElem?_map, hj]; simp [wake, hne]
        refine ih (s := { s with jobs := s.jobs.map (wake o) }) hji hp h0 ?_ hno' hs
        intro k hk hko
        simp only [List.mem_map] at hk
        obtain ⟨k0, hk0, rfl⟩ := hk
        rw [wake_owner] at hko; rw [wake_worker]; exact hd k0 hk0 hko
      · have hlm := List.mem_of_getElem? hl
        by_cases e : l.owner = j.owner
        · have hlw := hd l hlm e
          -- a job of the same interpreter: only its waiter can move
          have key : ∃ l', s1.jobs = s.jobs.set k l' ∧ l'.owner = l.owner ∧ l'.worker = .done ∧
              (l.waiter = .parked → l' = { l with waiter := .discarding } ∧ a = .interrupt k) ∧
              s1.pipe l.owner ≤ s.pipe l.owner := by
            obtain ⟨ow, op, wk, wt, evs⟩ := l
            simp only at hlw; subst hlw
            cases a <;> cases wt <;> simp only [stepJob, reduceCtorEq] at h1
            all_goals (repeat' split at h1)
            all_goals first
              | (cases h1; done)
              | skip
            all_goals (injection h1 with h1; subst h1)
            all_goals refine ⟨_, rfl, rfl, rfl, ?_, ?_⟩
            all_goals simp_all [upd, Act.ticket?]
          obtain ⟨l', hjobs, hown, hdone, hpk, hpipe⟩ := key
          have hki : k ≠ i := by
            rintro rfl
            rw [hj] at hl; cases hl
            exact ha.1 (hpk hp).2
          have hji : s1.jobs[i]? = some j := by
            rw [hjobs, List.getElem?_set]; simp [hki, hj]
          refine ih hji hp (by rw [e] at hpipe; omega) ?_ hno' hs
          intro m hm hmo
          rw [hjobs] at hm
          rcases List.mem_or_eq_of_mem_set hm with hm | rfl
          · exact hd m hm hmo
          · exact hdone
        · have key : ∃ l', s1.jobs = s.jobs.set k l' ∧ l'.owner = l.owner ∧
              ∀ o, o ≠ l.owner → s1.pipe o = s.pipe o := by
            obtain ⟨ow, op, wk, wt, evs⟩ := l
            cases a <;> simp only [stepJob, reduceCtorEq] at h1
            all_goals (repeat' split at h1)
            all_goals first
              | (cases h1; done)
              | skip
            all_goals (injection h1 with h1; subst h1)
            all_goals refine ⟨_, rfl, rfl, ?_⟩
            all_goals simp_all [upd]
          obtain ⟨l', hjobs, hown, hpipe⟩ := key
          have hki : k ≠ i := by
            rintro rfl
            rw [hj] at hl; cases hl; exact e rfl
          have hji : s1.jobs[i]? = some j := by
            rw [hjobs, List.getElem?_set]; simp [hki, hj]
          refine ih hji hp (by rw [hpipe _ (Ne.symm e)]; exact h0) ?_ hno' hs
          intro m hm hmo
          rw [hjobs] at hm
          rcases List.mem_or_eq_of_mem_set hm with hm | rfl
          · exact hd m hm hmo
          · rw [hown] at hmo; exact absurd hmo e
    · cases hs

/-- C27 fails as stated: with two outstanding jobs on one interpreter there is a schedule after
which a job has completed, its result is stored, and its waiter sleeps on an empty pipe; whatever
the workers, the poller and the other waiters do from then on, it stays there until it is killed
or raised into or some further job is submitted. -/
theorem C27_lost_wakeup : ∃ s, run init lostSchedule = some s ∧
    s.results 0 = some ⟨10, 0⟩ ∧
    ∀ as s', (∀ a ∈ as, a ≠ .interrupt 0 ∧ ∀ o op, a ≠ .submit o op) → run s as = some s' →
      ∃ j, s'.jobs[0]? = some j ∧ j.waiter = .parked ∧ j.worker = .done ∧ outcomes j.evs = 0 := by
  obtain ⟨s, hs, hjobs, hr, hp⟩ := lost_state
  refine ⟨s, hs, hr, ?_⟩
  intro as s' hno hrun
  have hj : s.jobs[0]? = some ⟨0, .other, .done, .parked, [.fin ⟨10, 0⟩]⟩ := by rw [hjobs]; rfl
  obtain ⟨j, h1, h2, h3⟩ := stays_parked hj rfl hp (by rw [hjobs]; simp) hno hrun
  have hreach : Reachable s' := by
    refine ⟨lostSchedule ++ as, ?_⟩; rw [run_append, hs]; exact hrun
  have hI := (reachable_inv hreach).job 0 j h1
  refine ⟨j, h1, h2, ?_, by rw [h3]; rfl⟩
  -- the worker: it can only have stayed ended
  have hW : ∀ (bs : List Act) (t t' : St) (k : Nat) (l : Job), t.jobs[k]? = some l →
      l.worker = .done → run t bs = some t' → ∃ l', t'.jobs[k]? = some l' ∧ l'.worker = .done := by
    intro bs
    induction bs with
    | nil => intro t t' k l hl hd hr; simp [run] at hr; subst hr; exact ⟨l, hl, hd⟩
    | cons b bs ih =>
      intro t t' k l hl hd hr
      simp only [run] at hr
      split at hr
      · rename_i t1 ht1
        rcases step_job ht1 with ⟨o, op, rfl, rfl⟩ | ⟨o, rfl, hp1, rfl⟩ | ⟨m, n, _, hn, h1⟩
        · refine ih _ t' k l ?_ hd hr
          have hlt : k < t.jobs.length := by
            rcases List.getElem?_eq_some_iff.1 hl with ⟨h1, _⟩; exact h1
          simp only; rw [List.getElem?_append_left hlt]; exact hl
        · refine ih _ t' k (wake o l) ?_ (by rw [wake_worker]; exact hd) hr
          simp only; rw [List.getElem?_map, hl]; rfl
        · have key : ∃ n', t1.jobs = t.jobs.set m n' ∧ (n.worker = .done → n'.worker = .done) := by
            obtain ⟨ow, op, wk, wt, evs⟩ := n
            cases b <;> simp only [stepJob, reduceCtorEq] at h1
            all_goals (repeat' split at h1)
            all_goals first
              | (cases h1; done)
              | skip
            all_goals (injection h1 with h1; subst h1)
            all_goals refine ⟨_, rfl, ?_⟩
            all_goals simp_all
          obtain ⟨n', hjobs, hnd⟩ := key
          by_cases e : m = k
          · subst e
            rw [hl] at hn; cases hn
            exact ih t1 t' m n' (by rw [hjobs]; exact setget hl) (hnd hd) hr
          · exact ih t1 t' k l (by rw [hjobs, List.getElem?_set]; simp [e, hl]) hd hr
      · cases hr
  obtain ⟨l', hl', hd'⟩ := hW as s s' 0 _ hj rfl hrun
  rw [h1] at hl'; cases hl'; exact hd'

/-- C27 fails for what an abandoned job leaves behind: the descriptor an abandoned `open` returned
stays open in every later state. -/
theorem C27_abandoned_open_leaks {s : St} (hs : Reachable s) {j : Job} (hj : j ∈ s.jobs)
    (ho : j.op = .open) {c : Comp} (hd : .dropped c ∈ j.evs) (h0 : 0 ≤ c.ret)
    {as : List Act} {s' : St} (hr : run s as = some s') : c.ret ∈ s'.fds := by
  obtain ⟨bs, hb⟩ := hs
  obtain ⟨i, hi⟩ := List.getElem?_of_mem hj
  have hf := (C27_at_most_once ⟨bs, hb⟩ hi).2.1 c (Or.inr hd)
  exact run_fds hr _ (run_fdinv (fun _ h => by simp [init] at h) hb j hj ho c hf h0)

/-! ## The hypotheses are met -/

/-- One job, submitted, waited for and delivered. -/
def oneJob : List Act :=
  [.submit 3 .other, .take 0, .park 0, .finish 0 ⟨7, 0⟩, .lockW 0, .testOrphan 0, .insert 0,
   .unlockW 0, .write 0]

example : ∃ s, run init oneJob = some s ∧ Serial init oneJob ∧
    ∃ j, s.jobs[0]? = some j ∧ j.waiter = .parked ∧ j.worker = .done := by
  refine ⟨_, rfl, ?_, _, rfl, rfl, rfl⟩
  simp [oneJob, Serial, init]

/-- An `open` that is abandoned before it returns: the mark is set, the worker drops the result, and
descriptor 5 is open for good. -/
def abandonedOpen : List Act :=
  [.submit 0 .open, .take 0, .park 0, .interrupt 0, .lockD 0, .removeD 0, .markD 0, .unlockD 0,
   .finish 0 ⟨5, 0⟩, .lockW 0, .testOrphan 0, .unlockW 0]

example : ∃ s, run init abandonedOpen = some s ∧
    s.jobs = [⟨0, .open, .done, .gone, [.fin ⟨5, 0⟩, .dropped ⟨5, 0⟩]⟩] ∧ s.fds = [5] ∧
    s.orphans 0 = false ∧ s.results 0 = none := by
  refine ⟨_, rfl, ?_, ?_, ?_, ?_⟩ <;> decide

/-- Discarding while the worker holds the lock has to wait; then the stored result is dropped by
the waiter. -/
example : (run init [.submit 0 .other, .take 0, .finish 0 ⟨1, 0⟩, .lockW 0, .testOrphan 0,
    .interrupt 0, .lockD 0]).isNone ∧
    ∃ s, run init [.submit 0 .other, .take 0, .finish 0 ⟨1, 0⟩, .lockW 0, .testOrphan 0,
      .interrupt 0, .insert 0, .unlockW 0, .lockD 0, .removeD 0, .unlockD 0, .write 0] = some s ∧
      s.jobs = [⟨0, .other, .done, .gone, [.fin ⟨1, 0⟩, .dropped ⟨1, 0⟩]⟩] := by
  refine ⟨by decide, _, rfl, by decide⟩

/-- The lock is held in a reachable state. -/
example : ∃ s, run init [.submit 0 .other, .take 0, .interrupt 0, .lockD 0] = some s ∧
    s.lock = some (0, false) := ⟨_, rfl, rfl⟩

end Verif.NativePool
