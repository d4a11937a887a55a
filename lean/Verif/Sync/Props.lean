import Verif.Sync.Hold

/-!
# Properties of `Mutex`, `ConditionVariable`, `Queue` and `SizedQueue`

`Reach caps w` says that a program on any number of threads, making any calls, with any switches,
wake-ups, time-outs, interrupts and ends of threads, can come to `w`.
-/

namespace Verif.Sync

def Reach (caps : Nat → Option Nat) (w : World) : Prop := ∃ as, (init caps).run as = some w

/-! ## C92: mutual exclusion -/

/-- At most one thread holds a mutex, whatever interrupts, kills and time-outs happen. -/
theorem C92_mutual_exclusion {caps : Nat → Option Nat} {w : World} (h : Reach caps w) (m : MId) :
    (holders w.log m).length ≤ 1 := by
  obtain ⟨as, h⟩ := h
  rw [(all_run h).own m]
  unfold World.holder
  split
  · simp
  · split_ifs <;> simp

/-- `lock`, `Mutex#sleep` and `ConditionVariable#wait` return only to a thread that holds the mutex, as
does `try_lock` with `true`. -/
theorem C92_returns_holding {caps : Nat → Option Nat} {w : World} (h : Reach caps w)
    {l₁ l₂ : List Ev} {t m : Nat} {c : Call} {r : Res} (e : w.log = l₁ ++ .ret t c r :: l₂)
    (hc : c = .lock m ∨ c = .tryLock m ∨ (∃ b, c = .sleep m b) ∨ ∃ cv b, c = .wait cv m b)
    (hr : ∀ x, r ≠ .exc x) (hf : r ≠ .bool false) : t ∈ holders l₁ (.user m) := by
  obtain ⟨as, h⟩ := h
  refine (mxs_run h).rets.yes l₁ t c r l₂ m e ?_ ?_ hf
  · obtain rfl | rfl | ⟨b, rfl⟩ | ⟨cv, b, rfl⟩ := hc <;> rfl
  · cases r with
    | exc x => exact (hr x rfl).elim
    | _ => rfl

def st (t : Nat) : Act := .step t {}

def log? (caps : Nat → Option Nat) (as : List Act) : Option (List Ev) :=
  ((init caps).run as).map (·.log)

/-- Two threads, one blocked in `lock` until the other is done. -/
def handover : List Act :=
  [.call 0 (.lock 0) {}, st 0, st 0, st 0, .call 1 (.lock 0) {}, st 1, st 1, st 1,
    .call 0 (.unlock 0) {}, st 0, st 0, st 1, st 1, st 1]

example : log? (fun _ => none) handover = some [.got 0 (.user 0), .ret 0 (.lock 0) .self,
    .gave 0 (.user 0), .ret 0 (.unlock 0) .self, .got 1 (.user 0), .ret 1 (.lock 0) .self] := by decide

/-- A producer and a consumer with a condition variable: the consumer waits, is signalled and has the
mutex again. -/
example : log? (fun _ => none)
    [.call 0 (.lock 0) {}, st 0, st 0, st 0, .call 0 (.wait 0 0 false) {}, st 0, st 0, st 0, st 0, st 0,
      .call 1 (.lock 0) {}, st 1, st 1, st 1, .call 1 (.signal 0) {}, st 1, st 1,
      st 0, st 0, st 0, st 0, st 0, .call 1 (.unlock 0) {}, st 1, st 1, st 0, st 0, st 0] =
    some [.got 0 (.user 0), .ret 0 (.lock 0) .self, .gave 0 (.user 0), .got 1 (.user 0),
      .ret 1 (.lock 0) .self, .ret 1 (.signal 0) .self, .gave 1 (.user 0),
      .ret 1 (.unlock 0) .self, .got 0 (.user 0), .ret 0 (.wait 0 0 false) .self] := by decide

/-- An interrupt (`Thread#raise`, `Timeout`) that arrives while `ConditionVariable#wait` is in `unlock`
leaves `wait` without the mutex: the code after it, or the `ensure` of a `synchronize` around it, runs
with the mutex free. -/
theorem C92_wait_interrupted_fails : ∃ w, Reach (fun _ => none) w ∧ ∃ l₁ l₂,
    w.log = l₁ ++ .ret 0 (.wait 0 0 false) (.exc .interrupt) :: l₂ ∧
      holders l₁ (.user 0) = [] := by
  have h : log? (fun _ => none) [.call 0 (.lock 0) {}, st 0, st 0, st 0,
      .call 0 (.wait 0 0 false) {}, st 0, st 0, st 0, st 0, .send 0, .step 0 { intr := true }] =
      some [.got 0 (.user 0), .ret 0 (.lock 0) .self, .gave 0 (.user 0),
        .ret 0 (.wait 0 0 false) (.exc .interrupt)] := by decide
  unfold log? at h
  obtain ⟨w, h1, h2⟩ := Option.map_eq_some_iff.1 h
  exact ⟨w, ⟨_, h1⟩, [.got 0 (.user 0), .ret 0 (.lock 0) .self, .gave 0 (.user 0)], [], h2, by decide⟩

/-! ## C93: `try_lock` succeeds exactly when the mutex is free -/

/-- While no thread has ended holding a mutex: `try_lock` returns `true` to the thread that now holds
the mutex, and `false` only when somebody holds it. -/
theorem C93_try_lock_partial {caps : Nat → Option Nat} {w : World} (h : Reach caps w)
    (ho : Orderly w.log) {l₁ l₂ : List Ev} {t m : Nat} {b : Bool}
    (e : w.log = l₁ ++ .ret t (.tryLock m) (.bool b) :: l₂) :
    if b then t ∈ holders l₁ (.user m) else holders l₁ (.user m) ≠ [] := by
  obtain ⟨as, h⟩ := h
  cases b with
  | true => exact (mxs_run h).rets.yes l₁ t _ _ l₂ m e rfl rfl (by simp)
  | false => exact (mxs_run h).rets.no ho l₁ t _ l₂ m e rfl

example : log? (fun _ => none)
    [.call 0 (.tryLock 0) {}, st 0, .call 1 (.tryLock 0) {}, st 1] =
    some [.got 0 (.user 0), .ret 0 (.tryLock 0) (.bool true), .ret 1 (.tryLock 0) (.bool false)] := by
  decide

/-- A thread that ends holding a mutex leaves it so that `try_lock` fails although nobody holds it
(and `locked?` says `false`). -/
theorem C93_dead_owner_fails : ∃ w, Reach (fun _ => none) w ∧ ∃ l₁ l₂,
    w.log = l₁ ++ .ret 1 (.tryLock 0) (.bool false) :: l₂ ∧ holders l₁ (.user 0) = [] := by
  have h : log? (fun _ => none) [.call 0 (.lock 0) {}, st 0, st 0, st 0, .exit 0,
      .call 1 (.tryLock 0) {}, st 1] =
      some [.got 0 (.user 0), .ret 0 (.lock 0) .self, .ended 0,
        .ret 1 (.tryLock 0) (.bool false)] := by decide
  unfold log? at h
  obtain ⟨w, h1, h2⟩ := Option.map_eq_some_iff.1 h
  exact ⟨w, ⟨_, h1⟩, [.got 0 (.user 0), .ret 0 (.lock 0) .self, .ended 0], [], h2, by decide⟩

/-! ## C95: queues are first-in first-out, bounded, and closable -/

/-- What happens to a queue is what happens to a bounded first-in first-out queue that refuses items
when closed: items come out in the order they went in, nothing comes out of an empty queue, nothing
goes into a full or closed one, whatever interrupts, kills and time-outs happen. -/
theorem C95_fifo {caps : Nat → Option Nat} {w : World} (h : Reach caps w) (q : Nat) :
    (replay (caps q) q w.log).isSome := by
  obtain ⟨as, h⟩ := h
  rw [(all_run h).rep q]; rfl

/-- What the calls return: a value comes from `pop` only; `nil` from `pop` means that the time is up or
the queue is closed, and from `push` that the time is up; the errors mean what they say. -/
theorem C95_outcomes {caps : Nat → Option Nat} {w : World} (h : Reach caps w)
    {l₁ l₂ : List Ev} {t q : Nat} {op : QOp} {r : Res}
    (e : w.log = l₁ ++ .ret t (.queue q op) r :: l₂) :
    (r = .ok none → (∃ nb, op = .pop nb true) ∨ (∃ v nb, op = .push v nb true) ∨
      ((∃ nb timed, op = .pop nb timed) ∧ Ev.closed q ∈ l₁)) ∧
    (r = .exc .closed → (∃ v nb timed, op = .push v nb timed) ∧ Ev.closed q ∈ l₁) ∧
    (r = .exc .empty → ∃ timed, op = .pop true timed) ∧
    (r = .exc .full → ∃ v timed, op = .push v true timed) ∧
    (∀ v, r = .ok (some v) → ∃ nb timed, op = .pop nb timed) ∧
    (r = .self → ∀ nb timed, op ≠ .pop nb timed) := by
  obtain ⟨as, h⟩ := h
  have k := (all_run h).said.rets l₁ t q op r l₂ e
  refine ⟨?_, ?_, ?_, ?_, ?_, ?_⟩
  · rintro rfl
    cases op with
    | pop nb timed =>
      obtain rfl | h := k
      · exact .inl ⟨nb, rfl⟩
      · exact .inr (.inr ⟨⟨nb, timed, rfl⟩, h⟩)
    | push v nb timed =>
      obtain rfl : timed = true := k
      exact .inr (.inl ⟨v, nb, rfl⟩)
    | clear => exact k.elim
    | close => exact k.elim
    | setMax n => exact k.elim
  · rintro rfl; exact k
  · rintro rfl; exact k
  · rintro rfl; exact k
  · rintro v rfl; exact k
  · rintro rfl; exact k

/-- No item is made up or given out twice: the values that `pop` has returned to a thread were taken
from the queue by that thread, each as often as it was returned; and every successful `push` has put
its item into the queue. -/
theorem C95_backed {caps : Nat → Option Nat} {w : World} (h : Reach caps w) (pop : Bool) (t q v : Nat) :
    w.log.countP (isRet pop t q v) ≤ w.log.countP (isEff pop t q v) := by
  obtain ⟨as, h⟩ := h
  have := (all_run h).said.cnt pop t q v
  omega

/-- Two items through a queue of capacity one: the second `push` waits until the first item is out. -/
def pipe : List Act :=
  [.call 0 (.queue 0 (.push 5 false false)) {}] ++ List.replicate 11 (st 0) ++
  [.call 0 (.queue 0 (.push 6 false false)) {}] ++ List.replicate 12 (st 0) ++
  [.call 1 (.queue 0 (.pop false false)) {}] ++ List.replicate 12 (st 1) ++ List.replicate 10 (st 0)

set_option maxRecDepth 8000 in
example : (log? (fun _ => some 1) pipe).map
      (·.filter fun | .got .. => false | .gave .. => false | _ => true) =
    some [.ins 0 0 5, .ret 0 (.queue 0 (.push 5 false false)) .self, .took 1 0 (some 5),
      .ret 1 (.queue 0 (.pop false false)) (.ok (some 5)), .ins 0 0 6,
      .ret 0 (.queue 0 (.push 6 false false)) .self] := by decide

/-- An interrupt that arrives when `pop` has taken the item and is at its `unlock` loses the item: it
has left the queue and no call returns it. -/
theorem C95_interrupted_pop_fails : ∃ w, Reach (fun _ => none) w ∧
    Ev.took 0 0 (some 5) ∈ w.log ∧ w.log.countP (isRet true 0 0 5) = 0 ∧
    (replay none 0 w.log).map (·.items) = some [] ∧
    Ev.ret 0 (.queue 0 (.pop false false)) (.exc .interrupt) ∈ w.log := by
  have h : log? (fun _ => none) ([.call 0 (.queue 0 (.push 5 false false)) {}] ++
      List.replicate 10 (st 0) ++ [.call 0 (.queue 0 (.pop false false)) {}] ++
      List.replicate 8 (st 0) ++ [.send 0, .step 0 { intr := true }]) =
    some [.got 0 (.queue 0), .ins 0 0 5, .gave 0 (.queue 0),
      .ret 0 (.queue 0 (.push 5 false false)) .self, .got 0 (.queue 0), .took 0 0 (some 5),
      .ret 0 (.queue 0 (.pop false false)) (.exc .interrupt)] := by decide
  unfold log? at h
  obtain ⟨w, h1, h2⟩ := Option.map_eq_some_iff.1 h
  refine ⟨w, ⟨_, h1⟩, ?_⟩
  rw [h2]
  decide

end Verif.Sync
