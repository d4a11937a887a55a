import Verif.Sync.Outcome

/-!
# A call that is to return with the mutex held does so
-/

namespace Verif.Sync

/-- The mutex that the caller holds when the call succeeds. -/
def Call.umx : Call → Option Nat
  | .lock m => some m
  | .tryLock m => some m
  | .sleep m _ => some m
  | .wait _ m _ => some m
  | _ => none

def MId.um : MId → Option Nat
  | .user m => some m
  | .queue _ => none

def Pc.umx : Pc → Option Nat
  | .tryLock m => m.um
  | .lock m _ _ => m.um
  | .unlock m _ (.sleep _ _) => m.um
  | .sleep m _ _ _ => m.um
  | .wait _ m _ _ => m.um
  | _ => none

/-- `r` is an error, or `false` and somebody has the mutex, or the mutex is held. -/
structure Holds (own : MId → Option Nat) (t : Nat) (c : Call) (r : Res) : Prop where
  yes : r.isExc = false → r ≠ .bool false → ∀ m, c.umx = some m → own (.user m) = some t
  no : r = .bool false → ∀ m, c.umx = some m → own (.user m) ≠ none

def Fin (t : Nat) (c : Call) (log : List Ev) (w' : World) (own : MId → Option Nat) : Prop :=
  (w'.log = log ∧ ((w'.th t).pc ≠ .user ∧ (w'.th t).pc.umx = c.umx)) ∨
  (∃ r, w'.log = log ++ [.ret t c r] ∧ (w'.th t).pc = .user ∧ Holds own t c r)

variable {w : World} {t : Nat} {c : Call} {d : Choice} {own : MId → Option Nat}

theorem holds_isExc {r : Res} (h : r.isExc = true) : Holds own t c r :=
  ⟨fun h' => (by rw [h] at h'; cases h'), fun e => (by subst e; cases h)⟩
theorem holds_exc {e : Exc} : Holds own t c (.exc e) := holds_isExc rfl
theorem holds_none {r : Res} (h : c.umx = none) : Holds own t c r :=
  ⟨fun _ _ m hm => (by rw [h] at hm; cases hm), fun _ m hm => (by rw [h] at hm; cases hm)⟩
theorem holds_own {r : Res} {m : MId} (hm : c.umx = m.um) (h : own m = some t) :
    Holds own t c r := by
  have key : ∀ n, c.umx = some n → own (.user n) = some t := fun n hn => by
    cases m with
    | user x => rw [hn] at hm; cases hm; exact h
    | queue q => rw [hn] at hm; cases hm
  exact ⟨fun _ _ => key, fun _ n hn => by rw [key n hn]; simp⟩

theorem umx_of_queue {q : Nat} {op : QOp} (h : c.qop = some (q, op)) : c.umx = none := by
  rw [Call.of_qop h]; rfl

theorem fin_retUser {r : Res} (hc : (w.th t).call = some c) (h : Holds own t c r) :
    Fin t c w.log (w.retUser t r) own := by
  refine .inr ⟨r, ?_⟩
  simp [World.retUser, hc, h]

theorem fin_setPc {pc : Pc} (h1 : pc ≠ .user) (h2 : pc.umx = c.umx) :
    Fin t c w.log (w.setPc t pc) own := by
  refine .inl ⟨rfl, ?_⟩
  unfold World.setPc
  rw [setTh_self]
  exact ⟨h1, h2⟩

theorem fin_leave {q : Nat} {op : QOp} {r : Res} (hq : c.qop = some (q, op)) :
    Fin t c w.log (w.leave t q op r) own :=
  fin_setPc (by simp) (umx_of_queue hq).symm

theorem fin_post {q : Nat} {op : QOp} {r : Res} (hq : c.qop = some (q, op)) (l : List Post) :
    Fin t c w.log (w.post t q op r l) own := by
  unfold World.post
  split
  · exact fin_leave hq
  · exact fin_setPc (by simp) (umx_of_queue hq).symm
  · exact fin_setPc (by simp) (umx_of_queue hq).symm

theorem fin_retWait {ci : CId} {r : Res} {k : WaitK} (hc : (w.th t).call = some c)
    (hq : k.qop = c.qop) (h : r.isExc = false → ∀ r, Holds own t c r) :
    Fin t c w.log (w.retWait t ci r k) own := by
  unfold World.retWait
  cases k with
  | user =>
    simp only
    split
    · exact fin_retUser (w := w.setCv ci _) hc holds_exc
    · next hr => exact fin_retUser (w := w.setCv ci _) hc (h (by
        cases r with
        | exc e => exact (hr e rfl).elim
        | _ => rfl) _)
  | queue q op =>
    simp only
    split
    · exact fin_leave (w := w.setCv ci _) hq.symm
    · exact fin_setPc (w := w.setCv ci _) (by simp) (umx_of_queue hq.symm).symm

theorem fin_retSleep {r : Res} {k : SleepK} (hc : (w.th t).call = some c)
    (hq : k.qop = c.qop) (h : r.isExc = false → ∀ r, Holds own t c r) :
    Fin t c w.log (w.retSleep t r k) own := by
  unfold World.retSleep
  cases k with
  | user =>
    refine fin_retUser hc ?_
    cases e : r.isExc
    · exact h e _
    · exact holds_isExc e
  | wait ci k => exact fin_retWait hc hq h

theorem fin_retLock {r : Res} {k : LockK} (hc : (w.th t).call = some c)
    (hq : k.qop = c.qop) (h : r.isExc = false → ∀ r, Holds own t c r) :
    Fin t c w.log (w.retLock t d r k) own := by
  unfold World.retLock
  cases k with
  | user =>
    refine fin_retUser hc ?_
    cases e : r.isExc
    · exact h e _
    · exact holds_isExc e
  | queue q op =>
    simp only
    split
    · exact fin_retUser hc holds_exc
    · exact fin_setPc (by simp) (umx_of_queue hq.symm).symm
  | resleep e k =>
    simp only
    split_ifs
    · exact fin_retSleep (w := ((w.setTh t _).takeIntr t)) (by simpa [World.takeIntr] using hc) hq
        (fun h => by simp [Res.isExc] at h)
    · split
      · exact fin_retSleep (w := w.setTh t _) (by simpa using hc) hq
          (fun h => by simp [Res.isExc] at h)
      · next hr =>
        refine fin_retSleep (w := w.setTh t _) (by simpa using hc) hq fun _ => h ?_
        cases r with
        | exc e => exact (hr e rfl).elim
        | _ => rfl

theorem fin_wokeLock {m : MId} {e : Option Exc} {k : LockK} (hc : (w.th t).call = some c)
    (hq : k.qop = c.qop) (hm : m.um = c.umx) : Fin t c w.log (w.wokeLock t m d e k) own := by
  unfold World.wokeLock
  cases e with
  | none => exact fin_setPc (w := w.setMx m _) (by simp) hm
  | some e => exact fin_retLock (w := w.setMx m _) hc hq (fun h => by simp [Res.isExc] at h)

theorem fin_wokeSleep {m : MId} {timed : Bool} {e : Option Exc} {k : SleepK} (hm : m.um = c.umx) :
    Fin t c w.log (w.wokeSleep t m timed e k) own := by
  refine .inl ⟨rfl, ?_⟩
  unfold World.wokeSleep
  rw [setTh_self]
  exact ⟨by simp, hm⟩

theorem fin_parkLock {m : MId} {k : LockK} (hc : (w.th t).call = some c)
    (hq : k.qop = c.qop) (hm : m.um = c.umx) : Fin t c w.log (w.parkLock t m d k) own := by
  unfold World.parkLock
  split_ifs
  · exact fin_wokeLock (w := w.takeIntr t) (by simpa [World.takeIntr] using hc) hq hm
  · exact fin_wokeLock (w := w.setTh t _) (by simpa using hc) hq hm
  · refine .inl ⟨rfl, ?_⟩
    rw [setTh_self]
    exact ⟨by simp, hm⟩

theorem fin_parkSleep {m : MId} {timed : Bool} {k : SleepK} (hm : m.um = c.umx) :
    Fin t c w.log (w.parkSleep t m timed d k) own := by
  unfold World.parkSleep
  split_ifs
  · exact fin_wokeSleep (w := w.takeIntr t) hm
  · exact fin_wokeSleep (w := w.setTh t _) hm
  · refine .inl ⟨rfl, ?_⟩
    rw [setTh_self]
    exact ⟨by simp, hm⟩

theorem fin_parkNap {timed : Bool} (hc : (w.th t).call = some c) (hm : c.umx = none) :
    Fin t c w.log (w.parkNap t timed d) own := by
  unfold World.parkNap
  split_ifs
  · exact fin_retUser (w := w.takeIntr t) (by simpa [World.takeIntr] using hc) (holds_none hm)
  · exact fin_retUser (w := w.setTh t _) (by simpa using hc) (holds_none hm)
  · refine .inl ⟨rfl, ?_⟩
    rw [setTh_self]
    exact ⟨by simp, hm.symm⟩

theorem fin_retUnlock {m : MId} {loop : Bool} {r : Res} {k : UnlockK} (hc : (w.th t).call = some c)
    (hq : k.qop = c.qop) (hm : (Pc.unlock m loop k).umx = c.umx) :
    Fin t c w.log (w.retUnlock t m d r k) own := by
  unfold World.retUnlock
  cases k with
  | user => exact fin_retUser hc (holds_none hm.symm)
  | sleep timed k =>
    simp only
    split
    · exact fin_retSleep hc hq (fun h => by simp [Res.isExc] at h)
    · exact fin_parkSleep hm
  | queue q op r' =>
    simp only
    split
    · exact fin_retUser hc holds_exc
    · exact fin_retUser hc (holds_none hm.symm)

theorem fin_retCast {r : Res} {k : CastK} (hc : (w.th t).call = some c)
    (hq : k.qop = c.qop) (hm : c.umx = none) : Fin t c w.log (w.retCast t r k) own := by
  unfold World.retCast
  cases k with
  | user => exact fin_retUser hc (holds_none hm)
  | queue q op todo r' =>
    simp only
    split
    · exact fin_leave hq.symm
    · exact fin_post hq.symm _

theorem fin_retSignal {r : Res} {k : SigK} (hc : (w.th t).call = some c)
    (hq : k.qop = c.qop) (hm : c.umx = none) : Fin t c w.log (w.retSignal t r k) own := by
  unfold World.retSignal
  cases k with
  | direct k => exact fin_retCast hc hq hm
  | bcast ci k =>
    simp only
    split
    · exact fin_retCast hc hq hm
    · exact fin_setPc (by simp) hm.symm

theorem fin_raiseAt (hc : (w.th t).call = some c) (hp : (w.th t).pc ≠ .user)
    (hq : (w.th t).pc.qop = c.qop) (hm : (w.th t).pc.umx = c.umx) :
    Fin t c w.log (w.raiseAt t d) own := by
  have hi : ∀ r, (Res.exc Exc.interrupt).isExc = false → Holds own t c r := fun _ h => by
    simp [Res.isExc] at h
  unfold World.raiseAt
  split <;> rename_i e
  · exact (hp e).elim
  · exact fin_retUser hc holds_exc
  · exact fin_retUser hc holds_exc
  all_goals
    rw [e] at hq hm
    first
    | exact fin_wokeLock hc hq hm
    | exact fin_retLock hc hq (fun h r => hi r h)
    | exact fin_retUnlock hc hq hm
    | exact fin_wokeSleep hm
    | exact fin_retSleep hc hq (fun h r => hi r h)
    | exact fin_retSignal hc hq hm.symm
    | exact fin_retCast hc hq hm.symm
    | exact fin_leave hq.symm
    | exact fin_retUser hc holds_exc

/-- What `t` records before the return of its call is not a return. -/
def Silent (l : List Ev) : Prop := ∀ x ∈ l, ∀ u c r, x ≠ Ev.ret u c r

def Fins (w : World) (t : Nat) (c : Call) (w' : World) (own : MId → Option Nat) : Prop :=
  ∃ l, Silent l ∧ Fin t c (w.log ++ l) w' own

theorem Fins.quiet {w' : World} (h : Fin t c w.log w' own) : Fins w t c w' own :=
  ⟨[], by simp [Silent], by simpa using h⟩

theorem Fins.ev {w' : World} (e : Ev) (he : ∀ u c r, e ≠ .ret u c r)
    (h : Fin t c (w.log ++ [e]) w' own) : Fins w t c w' own :=
  ⟨[e], by simpa [Silent] using he, h⟩

theorem go_fins (hc : (w.th t).call = some c) (hp : (w.th t).pc ≠ .user)
    (hq : (w.th t).pc.qop = c.qop) (hm : (w.th t).pc.umx = c.umx) :
    Fins w t c (w.go t d) (w.go t d).ow := by
  unfold World.go
  split <;> rename_i e
  · exact (hp e).elim
  · rw [e] at hm; exact .quiet (fin_retUser hc (holds_none hm.symm))
  · next m =>
    rw [e] at hm
    unfold World.tryOwn
    cases eo : (w.mx m).owner with
    | none =>
      refine .ev (.got t m) (by simp) (fin_retUser (w := (w.setMx m _).ev (.got t m)) hc
        (holds_own hm.symm ?_))
      simp only
      rw [(loc_retUser _ t _).own_eq]
      simp [World.ow]
    | some o =>
      refine .quiet (fin_retUser hc ⟨fun _ h => (h rfl).elim, fun _ n hn => ?_⟩)
      simp only
      rw [(loc_retUser _ t _).own_eq]
      cases m with
      | user x =>
        rw [hn] at hm
        obtain rfl := Option.some.inj hm
        show (w.mx (.user x)).owner ≠ none
        rw [eo]; simp
      | queue q => rw [hn] at hm; cases hm
  · next m at_ k =>
    rw [e] at hq hm
    unfold World.stepLock
    split
    · split_ifs
      · exact .quiet (fin_retLock hc hq (fun h => by simp [Res.isExc] at h))
      · exact .quiet (fin_setPc (by simp) hm)
    · exact .quiet (fin_setPc (by simp) hm)
    · unfold World.stepTry World.tryOwn
      cases eo : (w.mx m).owner with
      | none =>
        refine .ev (.got t m) (by simp) (fin_retLock (w := (w.setMx m _).ev (.got t m)) hc hq
          fun _ r => holds_own hm.symm ?_)
        simp only
        rw [(loc_retLock _ t d .self k).own_eq]
        simp [World.ow]
      | some o =>
        simp only
        split_ifs
        · exact .quiet (fin_parkLock (w := w.setMx m _) hc hq hm)
        · exact .quiet (fin_setPc (w := w.setMx m _) (by simp) hm)
    · exact .quiet (fin_wokeLock hc hq hm)
  · next m loop k =>
    rw [e] at hq hm
    unfold World.stepUnlock
    split_ifs
    · split
      · exact .quiet (fin_retUnlock hc hq hm)
      · next x xs ew =>
        simp only
        split_ifs with ha
        · refine .quiet ?_
          have hw : ((w.setMx m fun y => { y with waiters := xs }).wake x).log = w.log := wake_log ..
          rw [← hw]
          refine fin_retUnlock ?_ hq hm
          rw [wake_call]; exact hc
        · exact .quiet (fin_setPc (w := w.setMx m _) (by simp) (by cases k <;> exact hm))
    · split
      · exact .quiet (fin_retUnlock hc hq hm)
      · split_ifs
        · exact .ev (.gave t m) (by simp)
            (fin_setPc (w := (w.setMx m _).ev (.gave t m)) (by simp) (by cases k <;> exact hm))
        · exact .quiet (fin_retUnlock hc hq hm)
  · next m timed at_ k =>
    rw [e] at hq hm
    unfold World.stepSleep
    split
    · exact .quiet (fin_setPc (by simp) hm)
    · split_ifs
      · exact .quiet (fin_setPc (by simp) hm)
      · exact .quiet (fin_retSleep hc hq (fun h => by simp [Res.isExc] at h))
    · exact .quiet (fin_wokeSleep hm)
    · exact .quiet (fin_setPc (by simp) hm)
  · next ci m timed k =>
    rw [e] at hm
    exact .quiet (fin_setPc (w := w.setCv ci _) (by simp) hm)
  · next ci loop k =>
    rw [e] at hq hm
    unfold World.stepSignal
    split_ifs
    · split
      · exact .quiet (fin_retSignal hc hq hm.symm)
      · next x xs ew =>
        simp only
        split_ifs with ha
        · refine .quiet ?_
          have hw : ((w.setCv ci xs).wake x).log = w.log := wake_log ..
          rw [← hw]
          refine fin_retSignal ?_ hq hm.symm
          rw [wake_call]; exact hc
        · exact .quiet (fin_setPc (w := w.setCv ci _) (by simp) hm)
    · exact .quiet (fin_setPc (by simp) hm)
  · next ci loop k =>
    rw [e] at hq hm
    unfold World.stepCast
    split_ifs
    · split
      · exact .quiet (fin_retCast hc hq hm.symm)
      · exact .quiet (fin_setPc (by simp) hm)
    · exact .quiet (fin_setPc (by simp) hm)
  · next q op at_ =>
    rw [e] at hq hm
    have hq' : c.qop = some (q, op) := hq.symm
    unfold World.stepQueue
    split
    · exact .quiet (fin_setPc (by simp) hm)
    · exact .quiet (fin_setPc (by simp) hm)
    · unfold World.stepBody
      split
      · exact .quiet (fin_setPc (by simp) hm)
      · next v _ _ =>
        split
        · exact .quiet (fin_setPc (by simp) hm)
        · split_ifs
          · exact .quiet (fin_leave hq')
          · exact .ev (.ins t q v) (by simp) (fin_post (w := (w.setQu q _).ev (.ins t q v)) hq' _)
      · exact .ev (.cleared q) (by simp) (fin_post (w := (w.setQu q _).ev (.cleared q)) hq' _)
      · unfold World.doClose
        split_ifs
        · exact .quiet (fin_leave hq')
        · exact .ev (.closed q) (by simp) (fin_post (w := (w.setQu q _).ev (.closed q)) hq' _)
        · exact .ev (.closed q) (by simp) (fin_post (w := (w.setQu q _).ev (.closed q)) hq' _)
      · next n =>
        unfold World.doSetMax
        split
        · exact .quiet (fin_leave hq')
        · exact .ev (.resized q n) (by simp)
            (fin_post (w := (w.setQu q _).ev (.resized q n)) hq' _)
    · split
      · unfold World.popLoop
        split_ifs
        · exact .quiet (fin_setPc (by simp) hm)
        · exact .quiet (fin_leave hq')
        · exact .quiet (fin_leave hq')
        · exact .quiet (fin_leave hq')
        · exact .quiet (fin_setPc (by simp) hm)
      · next v _ _ =>
        unfold World.pushLoop
        split_ifs
        · exact .quiet (fin_leave hq')
        · exact .ev (.ins t q v) (by simp) (fin_post (w := (w.setQu q _).ev (.ins t q v)) hq' _)
        · exact .quiet (fin_leave hq')
        · exact .quiet (fin_leave hq')
        · exact .quiet (fin_setPc (by simp) hm)
      · exact .quiet (.inl ⟨rfl, hp, by rw [e]; exact hm⟩)
    · exact .ev (.took t q (w.qu q).items.head?) (by simp)
        (fin_post (w := (w.setQu q _).ev (.took t q (w.qu q).items.head?)) hq' _)

/-- Calls that returned a mutex held it at the return; `try_lock` fails only when somebody has it. -/
structure RetHolds (log : List Ev) : Prop where
  yes : ∀ l₁ t c r l₂ m, log = l₁ ++ Ev.ret t c r :: l₂ → c.umx = some m → r.isExc = false →
    r ≠ .bool false → t ∈ holders l₁ (.user m)
  no : Orderly log → ∀ l₁ t c l₂ m, log = l₁ ++ Ev.ret t c (.bool false) :: l₂ → c.umx = some m →
    holders l₁ (.user m) ≠ []

theorem Orderly.left {l l' : List Ev} (h : Orderly (l ++ l')) : Orderly l := fun l₁ t l₂ e =>
  h l₁ t (l₂ ++ l') (by simp [e])

theorem RetHolds.append {log l : List Ev} (h : RetHolds log) (hl : Silent l) : RetHolds (log ++ l) := by
  induction l generalizing log with
  | nil => simpa using h
  | cons x xs ih =>
    have e1 : log ++ x :: xs = (log ++ [x]) ++ xs := by simp
    rw [e1]
    refine ih ⟨fun l₁ t c r l₂ m e => ?_, fun ho l₁ t c l₂ m e => ?_⟩ fun y hy => hl y (by simp [hy])
    · obtain ⟨l₂', rfl, e2⟩ | ⟨rfl, e3, e2⟩ := snoc_split e
      · exact h.yes _ _ _ _ _ _ e2
      · exact (hl x (by simp) _ _ _ e3).elim
    · obtain ⟨l₂', rfl, e2⟩ | ⟨rfl, e3, e2⟩ := snoc_split e
      · exact h.no ho.left _ _ _ _ _ e2
      · exact (hl x (by simp) _ _ _ e3).elim

/-- The mutex of a thread's position is that of its call; returns are fine. -/
structure Mxs (w : World) : Prop where
  umx : ∀ t c, (w.th t).call = some c → (w.th t).pc ≠ .user → (w.th t).pc.umx = c.umx
  rets : RetHolds w.log

/-- While no thread ends holding a mutex, owners are alive. -/
def OwnAlive (w : World) : Prop :=
  Orderly w.log → ∀ m o, (w.mx m).owner = some o → (w.th o).status ≠ .dead

theorem ownAlive_step {w w' : World} {a : Act} (o : Own w) (s : OwnAlive w)
    (h : w.step a = some w') : OwnAlive w' := by
  intro ho m x hx
  cases step_moves h with
  | by_ t w1 w' ht p l =>
    have hlog : ∃ l, w'.log = w.log ++ l := by
      obtain ⟨l2, e2, -⟩ := l.log
      have : ∃ l1, w1.log = w.log ++ l1 := by
        cases p <;> first
          | exact ⟨[_], rfl⟩
          | exact ⟨[], (List.append_nil _).symm⟩
          | exact ⟨[], (wake_log ..).trans (List.append_nil _).symm⟩
      obtain ⟨l1, e1⟩ := this
      exact ⟨l1 ++ l2, by rw [e2, e1]; simp⟩
    obtain ⟨l', e'⟩ := hlog
    have s' := s (by rw [e'] at ho; exact ho.left)
    rw [Ne, l.dead', p.isDead]
    rw [l.owner] at hx
    have key : ∀ f : Mx → Mx, ∀ m', (∀ y, (f y).owner = y.owner ∨ (f y).owner = some t ∨
        (f y).owner = none) → ((w.setMx m' f).mx m).owner = some x → (w.th x).status ≠ .dead := by
      intro f m' hf hx
      by_cases e : m = m'
      · subst e
        rw [setMx_self] at hx
        obtain h | h | h := hf (w.mx m)
        · rw [h] at hx; exact s' m x hx
        · rw [h] at hx; cases hx; exact ht
        · rw [h] at hx; cases hx
      · rw [setMx_ne _ _ e] at hx; exact s' m x hx
    cases p with
    | none => exact s' m x hx
    | acquire m' h => exact key (fun x => { x with owner := some t }) m' (fun _ => .inr (.inl rfl)) hx
    | reclaim m' y h hd => exact key (fun x => { x with owner := .none }) m' (fun _ => .inr (.inr rfl)) hx
    | release m' h => exact key (fun x => { x with owner := .none }) m' (fun _ => .inr (.inr rfl)) hx
    | enlist m' y h ha =>
      exact key (fun x => { x with waiters := x.waiters ++ [t] }) m' (fun _ => .inl rfl) hx
    | wakeMx m' y ys h => rw [wake_mx] at hx; exact key (fun x => { x with waiters := ys }) m' (fun _ => .inl rfl) hx
    | wakeCv c y ys h => rw [wake_mx] at hx; exact s' m x hx
    | _ => exact s' m x hx
  | ends t hp hs =>
    have s' := s (Orderly.left ho)
    have hx' : (w.mx m).owner = some x := hx
    have h1 := s' m x hx'
    have h2 := ho w.log t [] rfl m
    have h3 := o m
    simp only [World.holder, hx', if_neg h1] at h3
    rw [h3] at h2
    have e : x ≠ t := fun e => h2 (by simp [e])
    rw [ev_th, setTh_ne _ _ e]; exact h1

theorem Mxs.advance {w' : World} (s : Mxs w) (o : Own w') (oa : OwnAlive w') (ht : (w'.th t).status ≠ .dead)
    (h : Fins w t c w' w'.ow) (hcall : ∀ c', (w'.th t).call = some c' → (w'.th t).pc ≠ .user → c' = c)
    (hpc : ∀ u, u ≠ t → (w'.th u).pc = (w.th u).pc)
    (hca : ∀ u, u ≠ t → (w'.th u).call = (w.th u).call) : Mxs w' := by
  obtain ⟨l, hl, h⟩ := h
  refine ⟨fun u c' h1 h2 => ?_, ?_⟩
  · by_cases e : u = t
    · subst e
      obtain ⟨-, -, h⟩ | ⟨r, -, h, -⟩ := h
      · rw [hcall c' h1 h2]; exact h
      · exact (h2 h).elim
    · rw [hpc u e] at h2 ⊢
      rw [hca u e] at h1
      exact s.umx u c' h1 h2
  · obtain ⟨h, -⟩ | ⟨r, h, -, hh⟩ := h
    · rw [h]; exact s.rets.append hl
    · rw [h]
      have key : ∀ m, holders (w.log ++ l) (.user m) = w'.holder (.user m) := fun m => by
        have := o (.user m)
        rw [h, holders_snoc] at this
        exact this
      refine ⟨fun l₁ t' c' r' l₂ m e hm h1 h2 => ?_, fun ho l₁ t' c' l₂ m e hm => ?_⟩
      · obtain ⟨l₂', rfl, e2⟩ | ⟨rfl, e3, e2⟩ := snoc_split e
        · exact (s.rets.append hl).yes _ _ _ _ _ _ e2 hm h1 h2
        · cases e3
          have h3 : (w'.mx (.user m)).owner = some t := hh.yes h1 h2 m hm
          rw [← e2, key]
          simp [World.holder, h3, ht]
      · obtain ⟨l₂', rfl, e2⟩ | ⟨rfl, e3, e2⟩ := snoc_split e
        · exact (s.rets.append hl).no ho.left _ _ _ _ _ e2 hm
        · cases e3
          have h3 : (w'.mx (.user m)).owner ≠ none := hh.no rfl m hm
          rw [← e2, key]
          cases h4 : (w'.mx (.user m)).owner with
          | none => exact (h3 h4).elim
          | some x => simp [World.holder, h4, oa (by rw [h]; exact ho) _ _ h4]

theorem mxs_step {caps : Nat → Option Nat} {w w' : World} {a : Act} (A : All caps w) (s : Mxs w)
    (oa : OwnAlive w) (h : w.step a = some w') : Mxs w' := by
  have oa := ownAlive_step A.own oa h
  have o := (step_moves h).own A.own
  have A' := all_step A h
  have wakes : ∀ {t : Nat} {f : Th → Th}, (∀ x, (f x).pc = x.pc) → (∀ x, (f x).call = x.call) →
      Mxs (w.setTh t f) := by
    intro t f h1 h2
    refine ⟨fun u c => ?_, s.rets⟩
    by_cases e : u = t
    · subst e; rw [setTh_self, h1, h2]; exact s.umx u c
    · rw [setTh_ne _ _ e]; exact s.umx u c
  cases a with
  | call t c d =>
    simp only [World.step] at h
    split_ifs at h with hf
    simp only [World.free, Bool.and_eq_true, beq_iff_eq] at hf
    obtain ⟨hs, hp⟩ := hf
    have hc0 : ((w.setTh t fun x => { x with call := some c }).th t).call = some c := by simp
    have hst : ((w.setTh t fun x => { x with call := some c }).th t).status ≠ .dead := by simp [hs]
    have hne : ∀ u, u ≠ t → (w.setTh t fun x => { x with call := some c }).th u = w.th u :=
      fun u e => setTh_ne _ _ e
    generalize hw0 : (w.setTh t fun x => { x with call := some c }) = w0 at h hc0 hst hne
    have hl0 : w0.log = w.log := by rw [← hw0]; rfl
    split at h
    · next timed =>
      obtain rfl := Option.some.inj h
      have l := loc_parkNap w0 t timed d hst
      have f : Fin t (.nap timed) w.log (w0.parkNap t timed d) (w0.parkNap t timed d).ow := by
        rw [← hl0]; exact fin_parkNap hc0 rfl
      refine s.advance (t := t) o oa (fun e => hst (l.dead.1 e)) (.quiet f) ?_
        (fun u e => by rw [l.th u e, hne u e]) (fun u e => by rw [l.th u e, hne u e])
      intro c' h1 h2
      have f2 : Out t (.nap timed) w0.log (w0.parkNap t timed d) (Idle w0 t (.nap timed)) :=
        out_parkNap hc0 rfl adm_idle
      obtain ⟨-, h, -⟩ | ⟨r, -, h, -⟩ := f2
      · exact Option.some.inj (h1.symm.trans h)
      · rw [h] at h1; cases h1
    · obtain rfl := Option.some.inj h
      have l := Loc.setPc t w0 c.start
      have f : Fin t c w.log (w0.setPc t c.start) (w0.setPc t c.start).ow := by
        rw [← hl0]
        refine fin_setPc ?_ ?_ <;> cases c <;> simp [Call.start, Pc.umx, Call.umx, MId.um]
      refine s.advance (t := t) o oa (fun e => hst (l.dead.1 e)) (.quiet f) ?_
        (fun u e => by rw [l.th u e, hne u e]) (fun u e => by rw [l.th u e, hne u e])
      intro c' h1 _
      simp only [World.setPc, setTh_self, hc0] at h1
      exact (Option.some.inj h1).symm
  | step t d =>
    have hcon := A.consis t
    simp only [World.step] at h
    split_ifs at h with ha hi
    all_goals
      simp only [World.active, Bool.and_eq_true, beq_iff_eq, bne_iff_ne] at ha
      obtain ⟨hs, hp⟩ := ha
      obtain ⟨c, hc, -, hq, hk⟩ : ∃ c, (w.th t).call = some c ∧ (w.th t).pc ≠ .user ∧
          (w.th t).pc.qop = c.qop ∧ (w.th t).pc.calm := by
        obtain ⟨h, _⟩ | h := hcon
        · exact (hp h).elim
        · exact h
      have hm := s.umx t c hc hp
      obtain rfl := Option.some.inj h
    · have l := (loc_takeIntr w t).trans (loc_raiseAt (w.takeIntr t) t d (by simp [World.takeIntr, hs]))
      have e1 : ((w.takeIntr t).th t).pc = (w.th t).pc := by simp [World.takeIntr]
      have hc1 : ((w.takeIntr t).th t).call = some c := by simpa [World.takeIntr] using hc
      have f : Fin t c w.log ((w.takeIntr t).raiseAt t d) ((w.takeIntr t).raiseAt t d).ow :=
        fin_raiseAt (w := w.takeIntr t) hc1 (by rw [e1]; exact hp) (by rw [e1]; exact hq)
          (by rw [e1]; exact hm)
      refine s.advance (t := t) o oa (fun e => by have := l.dead.1 e; rw [hs] at this; cases this) (.quiet f) ?_
        (fun u e => by rw [l.th u e]) (fun u e => by rw [l.th u e])
      intro c' h1 h2
      have f2 : Out t c (w.takeIntr t).log ((w.takeIntr t).raiseAt t d) (fun _ => True) :=
        out_raiseAt hc1 (by rw [e1]; exact hp) (by rw [e1]; exact hq) (by rw [e1]; exact hk)
          ⟨fun _ _ => trivial, fun _ _ => trivial⟩ fun _ _ => trivial
      obtain ⟨-, h, -⟩ | ⟨r, -, h, -⟩ := f2
      · exact Option.some.inj (h1.symm.trans h)
      · rw [h] at h1; cases h1
    · obtain ⟨w1, p, l⟩ := go_prim w t d (by simp [hs])
      have l := l (by rw [Ne, p.isDead]; simp [hs])
      obtain ⟨lo, G, he, ho⟩ := go_going (d := d) (A.good.ok t) hc hp hq hk
      refine s.advance (t := t) o oa ?_ (go_fins hc hp hq hm) ?_ (fun u e => by rw [l.th u e, p.pc])
        (fun u e => by rw [l.th u e, p.call])
      · intro e
        have := (p.isDead t).1 (l.dead.1 e)
        rw [hs] at this; cases this
      · intro c' h1 h2
        obtain ⟨-, h, -⟩ | ⟨r, -, h, -⟩ := ho
        · exact Option.some.inj (h1.symm.trans h)
        · rw [h] at h1; cases h1
  | exit t =>
    simp only [World.step] at h
    split_ifs at h with hf
    obtain rfl := Option.some.inj h
    have s' := wakes (t := t) (f := fun x => { x with status := .dead }) (fun _ => rfl) (fun _ => rfl)
    exact ⟨s'.umx, s'.rets.append (by simp [Silent])⟩
  | wakeup t =>
    simp only [World.step] at h
    split at h
    · obtain rfl := Option.some.inj h; exact wakes (fun _ => rfl) fun _ => rfl
    · cases h
  | timeout t =>
    simp only [World.step] at h
    split at h
    · obtain rfl := Option.some.inj h; exact wakes (fun _ => rfl) fun _ => rfl
    · cases h
  | send t =>
    simp only [World.step] at h
    split at h
    · cases h
    · split_ifs at h
      · obtain rfl := Option.some.inj h; exact wakes (fun _ => rfl) fun _ => rfl
      · obtain rfl := Option.some.inj h; exact wakes (fun _ => rfl) fun _ => rfl
    · obtain rfl := Option.some.inj h; exact wakes (fun _ => rfl) fun _ => rfl

theorem mxs_run {caps : Nat → Option Nat} {as : List Act} {w : World}
    (h : (init caps).run as = some w) : Mxs w :=
  (run_induct (P := fun w => All caps w ∧ OwnAlive w ∧ Mxs w)
    ⟨all_init caps, fun _ _ _ h => by simp [init] at h,
      ⟨fun _ _ h => by simp [init] at h, ⟨fun _ _ _ _ _ _ h => by simp [init] at h,
        fun _ _ _ _ _ _ h => by simp [init] at h⟩⟩⟩
    (fun _ _ _ A hs => ⟨all_step A.1 hs, ownAlive_step A.1.own A.2.1 hs,
      mxs_step A.1 A.2.2 A.2.1 hs⟩) h).2.2

end Verif.Sync
