import Verif.Sync.Live
import Verif.Sync.Monitor
import Verif.Sync.Props

/-!
# Properties of `Mutex`, queues and `Monitor`: nobody waits in vain

`Reach0 caps w`: the program can come to `w` without interrupts (`Thread#raise`, `Thread#kill`,
`Timeout`).  `w.settled`: no thread can go on by itself.
-/

namespace Verif.Sync

def Reach0 (caps : Nat → Option Nat) (w : World) : Prop :=
  ∃ as, (∀ a ∈ as, Act.quiet a) ∧ (init caps).run as = some w

/-- `t` is parked inside `lock` of `m`: in `Mutex#lock`, or getting the mutex back in `Mutex#sleep` or
`ConditionVariable#wait`. -/
def World.blocked (w : World) (t : Nat) (m : MId) : Prop :=
  (∃ b, (w.th t).status = .parked b) ∧ ∃ k, (w.th t).pc = .lock m .stop k

/-! ## C94: nobody is left waiting for a free mutex -/

/-- Without interrupts, and while no thread has ended holding a mutex: when nothing moves any more,
a thread blocked in `lock` waits for a mutex that somebody holds, and nobody waits for the mutex inside
a queue. -/
theorem C94_no_lost_wakeup_partial {caps : Nat → Option Nat} {w : World} (h : Reach0 caps w)
    (hs : w.settled) (ho : Orderly w.log) {t : Nat} {m : MId} (hb : w.blocked t m) :
    (∃ o, holders w.log m = [o] ∧ (w.th o).status ≠ .dead) ∧ ∃ m', m = .user m' := by
  obtain ⟨as, hq, h⟩ := h
  obtain ⟨n, c, k⟩ := live_run hq h
  obtain ⟨⟨b, hb⟩, k', hp⟩ := hb
  have ha : AtStop m (w.th t).pc := by rw [hp]; rfl
  constructor
  · obtain ⟨o, h1⟩ := c.resp_none hs hb ha
    have hd := c.alive ho m o h1
    refine ⟨o, ?_, hd⟩
    rw [c.all.own m]
    simp [World.holder, h1, hd]
  · cases m with
    | user m => exact ⟨m, rfl⟩
    | queue q => exact (c.queue_free hs hb ha).elim

def state? (caps : Nat → Option Nat) (as : List Act) (t : Nat) : Option (List Ev × List Bool × Status × Pc) :=
  ((init caps).run as).map fun w => (w.log, (List.range 3).map w.active, (w.th t).status, (w.th t).pc)

theorem state_of {caps : Nat → Option Nat} {as : List Act} {t : Nat} {log : List Ev} {s : Status} {pc : Pc}
    (h : state? caps as t = some (log, [false, false, false], s, pc)) (hn : ∀ a ∈ as, a.who < 3) :
    ∃ w, (init caps).run as = some w ∧ w.settled ∧ w.log = log ∧ (w.th t).status = s ∧ (w.th t).pc = pc := by
  unfold state? at h
  obtain ⟨w, h1, h2⟩ := Option.map_eq_some_iff.1 h
  simp only [Prod.mk.injEq] at h2
  obtain ⟨e1, e2, e3, e4⟩ := h2
  refine ⟨w, h1, settled_of h1 3 hn fun t ht => ?_, e1, e3, e4⟩
  simp only [List.range, List.range.loop, List.map, List.cons.injEq] at e2
  have : t = 0 ∨ t = 1 ∨ t = 2 := by omega
  obtain rfl | rfl | rfl := this
  · exact e2.1
  · exact e2.2.1
  · exact e2.2.2.1

/-- A thread blocked on a mutex that another holds: the hypotheses of `C94_no_lost_wakeup_partial`. -/
example : ∃ w, Reach0 (fun _ => none) w ∧ w.settled ∧ Orderly w.log ∧ w.blocked 1 (.user 0) ∧
    holders w.log (.user 0) = [0] := by
  have h : state? (fun _ => none) [.call 0 (.lock 0) {}, st 0, st 0, st 0, .call 1 (.lock 0) {},
      st 1, st 1, st 1] 1 = some ([.got 0 (.user 0), .ret 0 (.lock 0) .self], [false, false, false],
        .parked false, .lock (.user 0) .stop .user) := by decide
  obtain ⟨w, h1, h2, h3, h4, h5⟩ := state_of h (by simp [Act.who, st])
  refine ⟨w, ⟨_, by simp [Act.quiet, st], h1⟩, h2, ?_, ⟨⟨_, h4⟩, _, h5⟩, by rw [h3]; decide⟩
  rw [h3]
  intro l₁ t l₂ e
  have : Ev.ended t ∈ [Ev.got 0 (.user 0), .ret 0 (.lock 0) .self] := by rw [e]; simp
  simp at this

/-- A thread that ends while it holds a mutex is not noticed by the threads already blocked on it: they
stay blocked although nobody holds the mutex. -/
theorem C94_owner_ends_fails : ∃ w, Reach0 (fun _ => none) w ∧ w.settled ∧ w.blocked 1 (.user 0) ∧
    holders w.log (.user 0) = [] := by
  have h : state? (fun _ => none) [.call 0 (.lock 0) {}, st 0, st 0, st 0, .call 1 (.lock 0) {},
      st 1, st 1, st 1, .exit 0] 1 = some ([.got 0 (.user 0), .ret 0 (.lock 0) .self, .ended 0],
        [false, false, false], .parked false, .lock (.user 0) .stop .user) := by decide
  obtain ⟨w, h1, h2, h3, h4, h5⟩ := state_of h (by simp [Act.who, st])
  exact ⟨w, ⟨_, by simp [Act.quiet, st], h1⟩, h2, ⟨⟨_, h4⟩, _, h5⟩, by rw [h3]; decide⟩

/-- `unlock` wakes one thread; if that thread is interrupted before it runs, the next one stays blocked
although the mutex is free and no thread has ended. -/
theorem C94_woken_interrupted_fails : ∃ w, Reach (fun _ => none) w ∧ w.settled ∧ w.blocked 2 (.user 0) ∧
    holders w.log (.user 0) = [] ∧ ∀ t, Ev.ended t ∉ w.log := by
  have h : state? (fun _ => none) [.call 0 (.lock 0) {}, st 0, st 0, st 0, .call 1 (.lock 0) {},
      st 1, st 1, st 1, .call 2 (.lock 0) {}, st 2, st 2, st 2, .call 0 (.unlock 0) {}, st 0, st 0,
      .send 1, .step 1 { intr := true }] 2 =
      some ([.got 0 (.user 0), .ret 0 (.lock 0) .self, .gave 0 (.user 0), .ret 0 (.unlock 0) .self,
        .ret 1 (.lock 0) (.exc .interrupt)],
        [false, false, false], .parked false, .lock (.user 0) .stop .user) := by decide
  obtain ⟨w, h1, h2, h3, h4, h5⟩ := state_of h (by simp [Act.who, st])
  exact ⟨w, ⟨_, h1⟩, h2, ⟨⟨_, h4⟩, _, h5⟩, by rw [h3]; decide, by rw [h3]; simp⟩

/-! ## C96: nobody waits in vain for a queue -/

/-- Without interrupts: when nothing moves any more, a call on a queue that has not returned is a `pop`
of an empty open queue or a `push` to a full open one. -/
theorem C96_no_lost_signal_partial {caps : Nat → Option Nat} {w : World} (h : Reach0 caps w)
    (hs : w.settled) {t q : Nat} {op : QOp} (hc : (w.th t).call = some (.queue q op)) :
    ∃ a, replay (caps q) q w.log = some a ∧ a.closed = false ∧
      (((∃ nb timed, op = .pop nb timed) ∧ a.items = []) ∨
        ((∃ v nb timed, op = .push v nb timed) ∧ a.fits = false)) := by
  obtain ⟨as, hq, h⟩ := h
  obtain ⟨n, c, k⟩ := live_run hq h
  refine ⟨_, c.all.rep q, ?_⟩
  have hpc : (w.th t).pc.qop = some (q, op) ∧ (w.th t).pc ≠ .user := by
    obtain ⟨_, h2⟩ | ⟨c', h1, h2, h3, _⟩ := c.all.consis t
    · rw [hc] at h2; cases h2
    · rw [hc] at h1; cases h1; exact ⟨h3, h2⟩
  obtain ⟨cc, h1, h2⟩ := settled_queue c k hs (fun hd => hpc.2 (c.all.good.dead t hd)) hpc.1
  obtain ⟨h3, h4⟩ := cv_q h1
  obtain ⟨h5, h6⟩ := settled_wait c k hs h4 h2
  rw [h3] at h6
  refine ⟨h6, ?_⟩
  cases op with
  | pop nb timed =>
    cases h1
    exact .inl ⟨⟨nb, timed, rfl⟩, List.eq_nil_of_length_eq_zero h5⟩
  | push v nb timed =>
    cases h1
    refine .inr ⟨⟨v, nb, timed, rfl⟩, ?_⟩
    obtain ⟨x, hx⟩ := List.exists_mem_of_ne_nil _ h2
    have hm := k.room x q (.inl (k.inWt _ h4 x hx))
    cases hmax : (w.qu q).max with
    | none => exact (hm hmax).elim
    | some N =>
      simp only [World.demand, hmax] at h5
      simp only [Qu.abs, Abs.fits, hmax, decide_eq_false_iff_not]
      omega
  | _ => cases h1

/-- A thread waits for an item that a `push` has put into the queue: the `push` was interrupted between
putting the item and waking the thread. -/
theorem C96_push_interrupted_fails : ∃ w, Reach (fun _ => none) w ∧ w.settled ∧
    (w.th 0).call = some (.queue 0 (.pop false false)) ∧
    (replay none 0 w.log).map (·.items) = some [5] := by
  have h : state? (fun _ => none) ([.call 0 (.queue 0 (.pop false false)) {}] ++ List.replicate 12 (st 0) ++
      [.call 1 (.queue 0 (.push 5 false false)) {}] ++ List.replicate 6 (st 1) ++
      [.send 1, .step 1 { intr := true }, st 1, st 1]) 0 =
      some ([.got 0 (.queue 0), .gave 0 (.queue 0), .got 1 (.queue 0), .ins 1 0 5, .gave 1 (.queue 0),
        .ret 1 (.queue 0 (.push 5 false false)) (.exc .interrupt)],
        [false, false, false], .parked false,
        .sleep (.queue 0) false .stop (.wait (.pop 0) (.queue 0 (.pop false false)))) := by decide
  obtain ⟨w, h1, h2, h3, h4, h5⟩ := state_of h (by decide)
  refine ⟨w, ⟨_, h1⟩, h2, ?_, by rw [h3]; decide⟩
  obtain ⟨h6, _⟩ | ⟨c', h6, _, h7, _⟩ := (all_run h1).consis 0
  · rw [h5] at h6; cases h6
  · rw [h6]
    rw [h5] at h7
    cases c' <;> simp_all [Pc.qop, SleepK.qop, WaitK.qop, Call.qop]

/-- A thread that waits to take an item from an empty queue: the hypotheses of
`C96_no_lost_signal_partial`. -/
example : ∃ w, Reach0 (fun _ => none) w ∧ w.settled ∧
    (w.th 0).call = some (.queue 0 (.pop false false)) := by
  have h : state? (fun _ => none) ([.call 0 (.queue 0 (.pop false false)) {}] ++ List.replicate 12 (st 0)) 0 =
      some ([.got 0 (.queue 0), .gave 0 (.queue 0)],
        [false, false, false], .parked false,
        .sleep (.queue 0) false .stop (.wait (.pop 0) (.queue 0 (.pop false false)))) := by decide
  obtain ⟨w, h1, h2, h3, h4, h5⟩ := state_of h (by decide)
  refine ⟨w, ⟨_, by decide, h1⟩, h2, ?_⟩
  obtain ⟨h6, _⟩ | ⟨c', h6, _, h7, _⟩ := (all_run h1).consis 0
  · rw [h5] at h6; cases h6
  · rw [h6]
    rw [h5] at h7
    cases c' <;> simp_all [Pc.qop, SleepK.qop, WaitK.qop, Call.qop]

/-! ## C97: `Monitor` -/

/-- What a monitor is for: at most one thread is inside. -/
def Exclusive (log : List MonEv) : Prop := ∀ t u, 0 < depth log t → 0 < depth log u → t = u

/-- As long as every `enter` is made while no other thread is inside (in particular with one thread, or
with `try_enter` only): at most one thread is inside; `try_enter` fails exactly when another thread is
inside; `exit` by a thread that is not inside raises when another is; `owned?` and `locked?` are
right. -/
theorem C97_monitor_partial (l : List (Nat × MonOp)) (hp : Polite (({} : Mon).run l).1) :
    Exclusive (({} : Mon).run l).1 ∧
    ∀ l₁ t op r l₂, (({} : Mon).run l).1 = l₁ ++ (t, op, r) :: l₂ →
      (op = .tryEnter → (r = .bool true ∨ r = .bool false) ∧
        (r = .bool false ↔ ∃ u, u ≠ t ∧ 0 < depth l₁ u)) ∧
      (op = .exit → (r = .notOwner ↔ ∃ u, u ≠ t ∧ 0 < depth l₁ u)) ∧
      (op = .owned → r = .bool (decide (0 < depth l₁ t))) ∧
      (op = .locked → (r = .bool true ↔ ∃ u, 0 < depth l₁ u)) := by
  have inv0 : MonInv ({} : Mon) [] := ⟨fun t => by simp [depth], by simp⟩
  have key : ∀ {s : Mon} {log : List MonEv}, MonInv s log → ∀ t, 0 < depth log t ↔ s.owner = some t := by
    intro s log h t
    rw [h.depth t]
    split_ifs with e
    · have : s.count ≠ 0 := fun h0 => by rw [h.free.2 h0] at e; cases e
      simp [e]; omega
    · simp [e]
  constructor
  · intro t u h1 h2
    have inv := monInv_run l {} [] inv0 (by simpa using hp)
    rw [List.nil_append] at inv
    have := (key inv t).1 h1
    rw [(key inv u).1 h2] at this
    exact (Option.some.inj this).symm
  · intro l₁ t op r l₂ e
    -- the state at that point
    obtain ⟨s, inv, hr⟩ : ∃ s : Mon, MonInv s l₁ ∧ r = (s.step t op).2 := by
      have aux : ∀ (l : List (Nat × MonOp)) (s : Mon) (log : List MonEv), MonInv s log →
          Polite (log ++ (s.run l).1) → ∀ l₁, (s.run l).1 = l₁ ++ (t, op, r) :: l₂ →
          ∃ s' : Mon, MonInv s' (log ++ l₁) ∧ r = (s'.step t op).2 := by
        intro l
        induction l with
        | nil => intro s log _ _ l₁ e; simp [Mon.run] at e
        | cons x l ih =>
          obtain ⟨t', op'⟩ := x
          intro s log h hp l₁ e
          have e' : log ++ (s.run ((t', op') :: l)).1 =
              (log ++ [(t', op', (s.step t' op').2)]) ++ ((s.step t' op').1.run l).1 := by
            simp [Mon.run]
          cases l₁ with
          | nil =>
            simp only [Mon.run, List.nil_append, List.cons.injEq, Prod.mk.injEq] at e
            obtain ⟨⟨rfl, rfl, h3⟩, _⟩ := e
            exact ⟨s, by simpa using h, h3.symm⟩
          | cons y l₁ =>
            simp only [Mon.run, List.cons_append, List.cons.injEq] at e
            obtain ⟨rfl, e2⟩ := e
            rw [e'] at hp
            have := ih _ _ (monInv_step h t' op' (by
              rintro rfl
              exact hp log t' _ _ (List.append_assoc ..))) hp l₁ e2
            simpa using this
      simpa using aux l {} [] inv0 (by simpa using hp) l₁ e
    have hk := key inv
    simp only [hk]
    have hfree := inv.free
    obtain ⟨o, c⟩ := s
    subst hr
    simp only at hk hfree
    refine ⟨?_, ?_, ?_, ?_⟩
    · rintro rfl
      simp only [Mon.step]
      cases o with
      | none => simp
      | some x =>
        by_cases ex : x = t
        · subst ex; simp
        · simp [ex]
    · rintro rfl
      simp only [Mon.step]
      cases o with
      | none => simp [hfree.1 rfl]
      | some x =>
        have hc : 0 < c := Nat.pos_of_ne_zero fun h0 => by simp [h0] at hfree
        by_cases ex : x = t
        · subst ex
          simp only [ne_eq, not_true_eq_false, false_and, if_false, hc, if_true]
          split_ifs <;> simp <;> exact fun u hu e => hu e.symm
        · simp [ex, hc]
    · rintro rfl; simp [Mon.step]
    · rintro rfl
      simp only [Mon.step]
      cases o with
      | none => simp [hfree.1 rfl]
      | some x =>
        have hc : 0 < c := Nat.pos_of_ne_zero fun h0 => by simp [h0] at hfree
        simp [hc]

example : Polite (({} : Mon).run [(0, .enter), (0, .enter), (1, .tryEnter), (0, .exit), (1, .exit),
    (0, .exit), (1, .tryEnter), (0, .tryEnter), (1, .locked)]).1 := by
  have e : (({} : Mon).run [(0, .enter), (0, .enter), (1, .tryEnter), (0, .exit), (1, .exit),
    (0, .exit), (1, .tryEnter), (0, .tryEnter), (1, .locked)]).1 =
    [(0, .enter, .self), (0, .enter, .self), (1, .tryEnter, .bool false), (0, .exit, .self),
      (1, .exit, .notOwner), (0, .exit, .self), (1, .tryEnter, .bool true),
      (0, .tryEnter, .bool false), (1, .locked, .bool true)] := by decide
  rw [e]
  intro l₁ t r l₂ h u hu
  match l₁, h with
  | [], h => rfl
  | [a], h => cases h; simp [depth, inside, Ne.symm hu]
  | a :: b :: l₁, h =>
    simp only [List.cons_append, List.cons.injEq] at h
    have : (t, MonOp.enter, r) ∈ [(1, MonOp.tryEnter, MonRes.bool false), (0, .exit, .self),
      (1, .exit, .notOwner), (0, .exit, .self), (1, .tryEnter, .bool true),
      (0, .tryEnter, .bool false), (1, .locked, .bool true)] := by rw [h.2.2]; simp
    simp at this

/-- `enter` does not wait: two threads are inside the same monitor, and the first then gets an error
from its `exit`. -/
theorem C97_enter_fails : ∃ l, ¬ Exclusive (({} : Mon).run l).1 ∧
    (0, MonOp.exit, MonRes.notOwner) ∈ (({} : Mon).run l).1 :=
  ⟨[(0, .enter), (1, .enter), (0, .exit)], fun h => (by decide : (0 : Nat) ≠ 1) (h 0 1 (by decide) (by decide)), by decide⟩

/-- `exit` without `enter` is not an error when nobody is inside. -/
theorem C97_exit_fails : (({} : Mon).run [(0, .exit)]).1 = [(0, .exit, .self)] := by decide

end Verif.Sync
