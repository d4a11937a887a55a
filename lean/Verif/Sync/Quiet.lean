import Verif.Sync.Hold

/-!
# What a step does when there are no interrupts

`T t w w'` lists the changes a step of `t` can make, without the log and the nesting of calls.
-/

namespace Verif.Sync

/-- From `w` to `w'`, only the position of `t` changes, and condition variables of the program. -/
structure To (t : Nat) (w w' : World) (pc : Pc) : Prop where
  th : ∀ u, u ≠ t → w'.th u = w.th u
  mx : w'.mx = w.mx
  cv : ∀ c, c.isUser ∨ w'.cv c = w.cv c
  qu : w'.qu = w.qu
  pc : (w'.th t).pc = pc
  status : (w'.th t).status = (w.th t).status
  permit : (w'.th t).permit = (w.th t).permit
  pending : (w'.th t).pending = (w.th t).pending

def LockK.after : LockK → Pc
  | .queue q op => .queue q op .body
  | .resleep _ (.wait _ (.queue q op)) => .queue q op .loop
  | _ => .user

def LockK.drop : LockK → Option CId
  | .resleep _ (.wait c (.queue _ _)) => some c
  | _ => none

def World.dropCv (w : World) (t : Nat) : Option CId → World
  | none => w
  | some c => w.setCv c ((w.cv c).filter (· ≠ t))

def postPc (q : Nat) (op : QOp) (r : Res) : List Post → Pc
  | [] => .unlock (.queue q) false (.queue q op r)
  | .signal c :: k => .signal c false (.direct (.queue q op k r))
  | .broadcast c :: k => .bcast c false (.queue q op k r)

def CastK.after : CastK → Pc
  | .user => .user
  | .queue q op todo r => postPc q op r todo

def SigK.after : SigK → Pc
  | .direct k => k.after
  | .bcast c k => .bcast c true k

/-- No error is kept for the end of a `Mutex#sleep`. -/
def Pc.calm0 : Pc → Prop
  | .lock _ _ (.resleep e _) => e = none
  | .sleep _ _ (.relock e) _ => e = none
  | _ => True

/-- Positions with the mutex of `q` held. -/
def Has (q : Nat) (pc : Pc) : Prop := Bel q pc ∨ ∃ k, pc = .unlock (.queue q) false k

variable {w : World} {t : Nat} {d : Choice}

theorem To.same_th {w' : World} {pc : Pc} {f : Th → Th} (h : To t (w.setTh t f) w' pc)
    (h1 : ∀ x, (f x).status = x.status) (h2 : ∀ x, (f x).permit = x.permit)
    (h3 : ∀ x, (f x).pending = x.pending) : To t w w' pc where
  th u e := by rw [h.th u e, setTh_ne _ _ e]
  mx := h.mx
  cv := h.cv
  qu := h.qu
  pc := h.pc
  status := by rw [h.status, setTh_self, h1]
  permit := by rw [h.permit, setTh_self, h2]
  pending := by rw [h.pending, setTh_self, h3]

theorem to_setPc (pc : Pc) : To t w (w.setPc t pc) pc where
  th u e := setTh_ne _ _ e
  mx := rfl
  cv _ := .inr rfl
  qu := rfl
  pc := by simp [World.setPc]
  status := by simp [World.setPc]
  permit := by simp [World.setPc]
  pending := by simp [World.setPc]

theorem to_retUser (r : Res) : To t w (w.retUser t r) .user := by
  unfold World.retUser
  split
  · exact ⟨fun u e => setTh_ne _ _ e, rfl, fun _ => .inr rfl, rfl, by simp, by simp, by simp, by simp⟩
  · exact ⟨fun u e => setTh_ne _ _ e, rfl, fun _ => .inr rfl, rfl, by simp, by simp, by simp, by simp⟩

theorem to_leave (q : Nat) (op : QOp) (r : Res) :
    To t w (w.leave t q op r) (.unlock (.queue q) false (.queue q op r)) := to_setPc _

theorem to_post (q : Nat) (op : QOp) (r : Res) (l : List Post) :
    To t w (w.post t q op r l) (postPc q op r l) := by
  unfold World.post
  split
  · exact to_leave q op r
  · exact to_setPc _
  · exact to_setPc _

theorem To.user_cv {w' : World} {pc : Pc} {c : CId} {l : List Nat} (h : To t (w.setCv c l) w' pc)
    (hc : c.isUser) : To t w w' pc where
  th := h.th
  mx := h.mx
  cv c' := by
    by_cases e : c' = c
    · subst e; exact .inl hc
    · have := h.cv c'
      rw [setCv_ne _ _ e] at this
      exact this
  qu := h.qu
  pc := h.pc
  status := h.status
  permit := h.permit
  pending := h.pending

theorem to_retWait_user {c : CId} (r : Res) (hc : c.isUser) :
    To t w (w.retWait t c r .user) .user := by
  unfold World.retWait
  simp only
  split
  · exact (to_retUser (w := w.setCv c _) _).user_cv hc
  · exact (to_retUser (w := w.setCv c _) _).user_cv hc

theorem to_retSleep_user {m : MId} {k : SleepK} (r : Res) (hm : m.isUser) (hk : k.ok m) :
    To t w (w.retSleep t r k) .user := by
  unfold World.retSleep
  cases k with
  | user => exact to_retUser r
  | wait c k =>
    cases k with
    | user => exact to_retWait_user r hk.2
    | queue q op => obtain ⟨rfl, _⟩ := hk; exact hm.elim

theorem not_canIntr (hp : (w.th t).pending = 0) : w.canIntr t = false := by
  simp [World.canIntr, hp]

theorem to_retLock_exc {m : MId} {k : LockK} (e : Exc) (hm : m.isUser) (hk : k.ok m)
    (hp : (w.th t).pending = 0) : To t w (w.retLock t d (.exc e) k) .user := by
  unfold World.retLock
  cases k with
  | user => exact to_retUser _
  | queue q op => obtain rfl := hk; exact hm.elim
  | resleep e' k =>
    simp only
    rw [not_canIntr (by simpa using hp)]
    simp only [Bool.and_false, Bool.false_eq_true, if_false]
    exact (to_retSleep_user _ hm hk).same_th (fun _ => rfl) (fun _ => rfl) fun _ => rfl

theorem to_retLock {m : MId} {k : LockK} (hk : k.ok m) (hc : (Pc.lock m .tryLock k).calm0)
    (hp : (w.th t).pending = 0) : To t (w.dropCv t k.drop) (w.retLock t d .self k) k.after := by
  unfold World.retLock
  cases k with
  | user => exact to_retUser _
  | queue q op => exact to_setPc _
  | resleep e k =>
    obtain rfl : e = none := hc
    simp only
    rw [not_canIntr (by simpa using hp)]
    simp only [Bool.and_false, Bool.false_eq_true, if_false]
    cases k with
    | user =>
      exact (to_retUser _).same_th (fun _ => rfl) (fun _ => rfl) fun _ => rfl
    | wait c k =>
      cases k with
      | user =>
        have := to_retWait_user (w := w.setTh t fun x => { x with unint := x.unint - 1 }) (t := t)
          (resOf none) hk.2
        exact this.same_th (fun _ => rfl) (fun _ => rfl) fun _ => rfl
      | queue q op =>
        exact To.same_th (w := w.setCv c _) (f := fun x => { x with unint := x.unint - 1 })
          (to_setPc (.queue q op .loop)) (fun _ => rfl) (fun _ => rfl) fun _ => rfl

theorem to_retCast (k : CastK) : To t w (w.retCast t .self k) k.after := by
  cases k with
  | user => exact to_retUser _
  | queue q op todo r => exact to_post ..

theorem to_retSignal (k : SigK) : To t w (w.retSignal t .self k) k.after := by
  cases k with
  | direct k => exact to_retCast k
  | bcast c k => exact to_setPc _

/-- Steps that change only the position. -/
inductive Tau (w : World) (t : Nat) : Pc → Pc → Prop
  | nap : Tau w t .nap .user
  | try_ (m : MId) (h : (w.mx m).owner ≠ none) : Tau w t (.tryLock m) .user
  | dead (m : Nat) (k : LockK) : Tau w t (.lock (.user m) .entry k) .user
  | lockEnter (m : MId) (k : LockK) (h : (w.mx m).owner ≠ some t) :
    Tau w t (.lock m .entry k) (.lock m .loop k)
  | lockTry (m : MId) (k : LockK) : Tau w t (.lock m .loop k) (.lock m .tryLock k)
  | unlFail (m : Nat) (k : UnlockK) : Tau w t (.unlock (.user m) false k) .user
  | unlDone (m : MId) (k : UnlockK) (hk : ∀ timed k', k ≠ .sleep timed k') (h : (w.mx m).waiters = []) :
    Tau w t (.unlock m true k) .user
  | slEnter (m : MId) (timed : Bool) (k : SleepK) :
    Tau w t (.sleep m timed .entry k) (.sleep m timed .owned k)
  | slOwned (m : MId) (timed : Bool) (k : SleepK) (h : (w.mx m).owner = some t) :
    Tau w t (.sleep m timed .owned k) (.unlock m false (.sleep timed k))
  | slFail (m : Nat) (timed : Bool) (k : SleepK) : Tau w t (.sleep (.user m) timed .owned k) .user
  | slWoke (m : MId) (timed : Bool) (k : SleepK) :
    Tau w t (.sleep m timed .stop k) (.sleep m timed (.relock none) k)
  | relock (m : MId) (timed : Bool) (k : SleepK) :
    Tau w t (.sleep m timed (.relock none) k) (.lock m .entry (.resleep none k))
  | sigEnter (c : CId) (k : SigK) : Tau w t (.signal c false k) (.signal c true k)
  | sigNone (c : CId) (k : SigK) (h : w.cv c = []) : Tau w t (.signal c true k) k.after
  | castEnter (c : CId) (k : CastK) : Tau w t (.bcast c false k) (.bcast c true k)
  | castNone (c : CId) (k : CastK) (h : w.cv c = []) : Tau w t (.bcast c true k) k.after
  | castSome (c : CId) (k : CastK) (h : w.cv c ≠ []) :
    Tau w t (.bcast c true k) (.signal c false (.bcast c k))
  | qEntry (q : Nat) (op : QOp) : Tau w t (.queue q op .entry) (.queue q op .sync)
  | qSync (q : Nat) (op : QOp) : Tau w t (.queue q op .sync) (.lock (.queue q) .entry (.queue q op))
  | qLoop (q : Nat) (op : QOp) (h : op.cv q ≠ none) (hm : op.cv q = some (.push q) → (w.qu q).max ≠ none) :
    Tau w t (.queue q op .body) (.queue q op .loop)
  | qLeave (q : Nat) (op : QOp) (r : Res) :
    Tau w t (.queue q op .body) (.unlock (.queue q) false (.queue q op r))
  | popTake (q : Nat) (nb timed : Bool) (h : (w.qu q).items ≠ []) :
    Tau w t (.queue q (.pop nb timed) .loop) (.queue q (.pop nb timed) .take)
  | popLeave (q : Nat) (nb timed : Bool) (r : Res) (h : (w.qu q).items = []) :
    Tau w t (.queue q (.pop nb timed) .loop) (.unlock (.queue q) false (.queue q (.pop nb timed) r))
  | popWait (q : Nat) (nb timed : Bool) (h : (w.qu q).items = []) (hc : (w.qu q).closed = false) :
    Tau w t (.queue q (.pop nb timed) .loop)
      (.wait (.pop q) (.queue q) timed (.queue q (.pop nb timed)))
  | pushLeave (q v : Nat) (nb timed : Bool) (r : Res)
    (h : (w.qu q).closed = true ∨ (w.qu q).room = false) :
    Tau w t (.queue q (.push v nb timed) .loop)
      (.unlock (.queue q) false (.queue q (.push v nb timed) r))
  | pushWait (q v : Nat) (nb timed : Bool) (h : (w.qu q).room = false) (hc : (w.qu q).closed = false) :
    Tau w t (.queue q (.push v nb timed) .loop)
      (.wait (.push q) (.queue q) timed (.queue q (.push v nb timed)))

/-- `Mutex#sleep` parks, or finds the permit. -/
inductive Park (t : Nat) (w : World) (m : MId) (timed : Bool) (k : SleepK) : World → Prop
  | skip (hp : (w.th t).permit = true) (w' : World)
    (hto : To t (w.setTh t fun x => { x with permit := false }) w' (.sleep m timed (.relock none) k)) :
    Park t w m timed k w'
  | stop (hp : (w.th t).permit = false) (w' : World)
    (hto : To t (w.setTh t fun x => { x with status := .parked timed }) w' (.sleep m timed .stop k)) :
    Park t w m timed k w'

/-- The end of `unlock`. -/
inductive Done (t : Nat) (w : World) (m : MId) : UnlockK → World → Prop
  | over (k : UnlockK) (hk : ∀ timed k', k ≠ .sleep timed k') (w' : World) (hto : To t w w' .user) :
    Done t w m k w'
  | park (timed : Bool) (k : SleepK) (w' : World) (p : Park t w m timed k w') :
    Done t w m (.sleep timed k) w'

inductive T (t : Nat) (w : World) : World → Prop
  | tau (pc' : Pc) (h : Tau w t (w.th t).pc pc') (w' : World) (hto : To t w w' pc') : T t w w'
  | acqTry (m : MId) (h : (w.th t).pc = .tryLock m) (h0 : (w.mx m).owner = none) (w' : World)
    (hto : To t (w.setMx m fun x => { x with owner := some t }) w' .user) : T t w w'
  | acq (m : MId) (k : LockK) (h : (w.th t).pc = .lock m .tryLock k) (h0 : (w.mx m).owner = none)
    (w' : World)
    (hto : To t ((w.setMx m fun x => { x with owner := some t }).dropCv t k.drop) w' k.after) : T t w w'
  | reclaim (m : MId) (k : LockK) (o : Nat) (h : (w.th t).pc = .lock m .tryLock k)
    (h0 : (w.mx m).owner = some o) (hd : w.alive o = false) (w' : World)
    (hto : To t (w.setMx m fun x => { x with owner := none }) w' (.lock m .loop k)) : T t w w'
  | enlist (m : MId) (k : LockK) (o : Nat) (h : (w.th t).pc = .lock m .tryLock k)
    (h0 : (w.mx m).owner = some o) (hd : w.alive o = true) (w' : World)
    (hto : To t ((w.setMx m fun x => { x with waiters := x.waiters ++ [t] }).setTh t fun x =>
      { x with status := .parked false }) w' (.lock m .stop k)) : T t w w'
  | enskip (m : MId) (k : LockK) (o : Nat) (h : (w.th t).pc = .lock m .tryLock k)
    (h0 : (w.mx m).owner = some o) (w' : World)
    (hto : To t ((w.setMx m fun x => { x with waiters := x.waiters.filter (· ≠ t) }).setTh t fun x =>
      { x with permit := false }) w' (.lock m .loop k)) : T t w w'
  | unlist (m : MId) (k : LockK) (h : (w.th t).pc = .lock m .stop k) (w' : World)
    (hto : To t (w.setMx m fun x => { x with waiters := x.waiters.filter (· ≠ t) }) w' (.lock m .loop k)) :
    T t w w'
  | release (m : MId) (k : UnlockK) (h : (w.th t).pc = .unlock m false k)
    (h0 : (w.mx m).owner = some t) (w' : World)
    (hto : To t (w.setMx m fun x => { x with owner := none }) w' (.unlock m true k)) : T t w w'
  | unlPark (m : MId) (timed : Bool) (k : SleepK) (h : (w.th t).pc = .unlock m true (.sleep timed k))
    (h0 : (w.mx m).waiters = []) (w' : World) (p : Park t w m timed k w') : T t w w'
  | wakeMx (m : MId) (k : UnlockK) (x : Nat) (xs : List Nat) (h : (w.th t).pc = .unlock m true k)
    (h0 : (w.mx m).waiters = x :: xs) (ha : w.alive x = true) (w' : World)
    (p : Done t ((w.setMx m fun y => { y with waiters := xs }).wake x) m k w') : T t w w'
  | dropMx (m : MId) (k : UnlockK) (x : Nat) (xs : List Nat) (h : (w.th t).pc = .unlock m true k)
    (h0 : (w.mx m).waiters = x :: xs) (ha : w.alive x = false) (w' : World)
    (hto : To t (w.setMx m fun y => { y with waiters := xs }) w' (.unlock m true k)) : T t w w'
  | cvAdd (c : CId) (m : MId) (timed : Bool) (k : WaitK) (h : (w.th t).pc = .wait c m timed k) (w' : World)
    (hto : To t (w.setCv c (w.cv c ++ [t])) w' (.sleep m timed .entry (.wait c k))) : T t w w'
  | wakeCv (c : CId) (k : SigK) (x : Nat) (xs : List Nat) (h : (w.th t).pc = .signal c true k)
    (h0 : w.cv c = x :: xs) (ha : w.alive x = true) (w' : World)
    (hto : To t ((w.setCv c xs).wake x) w' k.after) : T t w w'
  | dropCv (c : CId) (k : SigK) (x : Nat) (xs : List Nat) (h : (w.th t).pc = .signal c true k)
    (h0 : w.cv c = x :: xs) (ha : w.alive x = false) (w' : World)
    (hto : To t (w.setCv c xs) w' (.signal c true k)) : T t w w'
  | insBody (q v : Nat) (nb timed : Bool) (h : (w.th t).pc = .queue q (.push v nb timed) .body)
    (hc : (w.qu q).closed = false) (hm : (w.qu q).max = none) (w' : World)
    (hto : To t (w.setQu q fun x => { x with items := x.items ++ [v] }) w'
      (postPc q (.push v nb timed) .self [.signal (.pop q)])) : T t w w'
  | insLoop (q v : Nat) (nb timed : Bool) (h : (w.th t).pc = .queue q (.push v nb timed) .loop)
    (hc : (w.qu q).closed = false) (hr : (w.qu q).room = true) (w' : World)
    (hto : To t (w.setQu q fun x => { x with items := x.items ++ [v] }) w'
      (postPc q (.push v nb timed) .self [.signal (.pop q)])) : T t w w'
  | took (q : Nat) (nb timed : Bool) (h : (w.th t).pc = .queue q (.pop nb timed) .take) (r : Res)
    (w' : World)
    (hto : To t (w.setQu q fun x => { x with items := x.items.tail }) w'
      (postPc q (.pop nb timed) r (if (w.qu q).max = none then [] else [.signal (.push q)]))) : T t w w'
  | clear (q : Nat) (h : (w.th t).pc = .queue q .clear .body) (w' : World)
    (hto : To t (w.setQu q fun x => { x with items := [] }) w'
      (postPc q .clear .self (if (w.qu q).max = none then [] else [.broadcast (.push q)]))) : T t w w'
  | close (q : Nat) (h : (w.th t).pc = .queue q .close .body) (w' : World)
    (hto : To t (w.setQu q fun x => { x with closed := true }) w'
      (postPc q .close .self (.broadcast (.pop q) ::
        if (w.qu q).max = none then [] else [.broadcast (.push q)]))) : T t w w'
  | resize (q n old : Nat) (h : (w.th t).pc = .queue q (.setMax n) .body)
    (hm : (w.qu q).max = some old) (w' : World)
    (hto : To t (w.setQu q fun x => { x with max := some n }) w'
      (postPc q (.setMax n) .self (if old < n then [.broadcast (.push q)] else []))) : T t w w'

theorem park_sleep {m : MId} {timed : Bool} {k : SleepK} (hp : (w.th t).pending = 0) :
    Park t w m timed k (w.parkSleep t m timed d k) := by
  unfold World.parkSleep
  rw [not_canIntr hp]
  simp only [Bool.and_false, Bool.false_eq_true, if_false]
  split_ifs with h
  · refine .skip h _ ?_
    exact ⟨fun u e => setTh_ne _ _ e, rfl, fun _ => .inr rfl, rfl, by simp [World.wokeSleep],
      by simp [World.wokeSleep], by simp [World.wokeSleep], by simp [World.wokeSleep]⟩
  · refine .stop (by simpa using h) _ ?_
    exact ⟨fun u e => by rw [setTh_ne _ _ e, setTh_ne _ _ e], rfl, fun _ => .inr rfl, rfl, by simp,
      by simp, by simp, by simp⟩

theorem done_unlock {m : MId} {k : UnlockK} (hp : (w.th t).pending = 0) :
    Done t w m k (w.retUnlock t m d .self k) := by
  cases k with
  | user => exact .over _ (by simp) _ (to_retUser _)
  | sleep timed k => exact .park timed k _ (park_sleep hp)
  | queue q op r => exact .over _ (by simp) _ (to_retUser _)

theorem wake_pending (w : World) (x u : Nat) : ((w.wake x).th u).pending = (w.th u).pending := by
  unfold World.wake
  split
  · rfl
  · by_cases e : u = x
    · subst e; simp
    · rw [setTh_ne _ _ e]
  · by_cases e : u = x
    · subst e; simp
    · rw [setTh_ne _ _ e]

theorem go_T (hp : (w.th t).pending = 0) (hu : (w.th t).pc ≠ .user) (hw : (w.th t).pc.Wf)
    (hc : (w.th t).pc.calm0) (hh : ∀ q, Has q (w.th t).pc ↔ (w.mx (.queue q)).owner = some t) :
    T t w (w.go t d) := by
  unfold World.go
  split <;> rename_i e
  · exact (hu e).elim
  · exact .tau .user (by rw [e]; exact .nap) _ (to_retUser _)
  · next m =>
    unfold World.tryOwn
    cases eo : (w.mx m).owner with
    | none =>
      have := to_retUser (w := (w.setMx m fun x => { x with owner := some t }).ev (.got t m)) (t := t)
        (.bool true)
      exact .acqTry m e eo _ ⟨this.th, this.mx, this.cv, this.qu, this.pc, this.status, this.permit,
        this.pending⟩
    | some o => exact .tau .user (by rw [e]; exact .try_ m (by simp [eo])) _ (to_retUser _)
  · next m at_ k =>
    rw [e] at hw hc
    unfold World.stepLock
    split
    · split_ifs with ho
      · cases m with
        | user m => exact .tau .user (by rw [e]; exact .dead m k) _ (to_retLock_exc (m := .user m) _ trivial hw hp)
        | queue q =>
          have := (hh q).2 ho
          rw [e] at this
          obtain h | ⟨k', h⟩ := this
          · exact h.elim
          · cases h
      · exact .tau _ (by rw [e]; exact .lockEnter m k ho) _ (to_setPc _)
    · exact .tau _ (by rw [e]; exact .lockTry m k) _ (to_setPc _)
    · unfold World.stepTry World.tryOwn
      cases eo : (w.mx m).owner with
      | none =>
        have := to_retLock (w := (w.setMx m fun x => { x with owner := some t }).ev (.got t m)) (t := t)
          (d := d) hw hc hp
        refine .acq m k e eo _ ?_
        cases hk : k.drop with
        | none =>
          rw [hk] at this
          exact ⟨this.th, this.mx, this.cv, this.qu, this.pc, this.status, this.permit, this.pending⟩
        | some c =>
          rw [hk] at this
          exact ⟨this.th, this.mx, this.cv, this.qu, this.pc, this.status, this.permit, this.pending⟩
      | some o =>
        simp only
        split_ifs with ha
        · unfold World.parkLock
          rw [not_canIntr (by exact hp)]
          simp only [Bool.and_false, Bool.false_eq_true, if_false]
          split_ifs with hpm
          · refine .enskip m k o e eo _ ?_
            refine ⟨fun u e => ?_, ?_, fun _ => .inr rfl, rfl, by simp [World.wokeLock, World.setPc],
              by simp [World.wokeLock, World.setPc], by simp [World.wokeLock, World.setPc],
              by simp [World.wokeLock, World.setPc]⟩
            · rw [setTh_ne _ _ e]
              unfold World.wokeLock
              simp only [World.setPc]
              rw [setTh_ne _ _ e, setMx_th, setTh_ne _ _ e]; rfl
            · funext m'
              unfold World.wokeLock
              simp only [World.setPc, setTh_mx]
              by_cases em : m' = m
              · subst em; simp [setMx_self]
              · rw [setMx_ne _ _ em, setMx_ne _ _ em, setTh_mx, setMx_ne _ _ em]
          · refine .enlist m k o e eo ha _ ?_
            exact ⟨fun u e => by rw [setTh_ne _ _ e, setTh_ne _ _ e], rfl, fun _ => .inr rfl, rfl,
              by simp, by simp, by simp, by simp⟩
        · exact .reclaim m k o e eo (by simpa using ha) _ (to_setPc _)
    · exact .unlist m k e _ (to_setPc _)
  · next m loop k =>
    rw [e] at hw
    unfold World.stepUnlock
    split_ifs with hl
    · subst hl
      split
      · next hn =>
        have := done_unlock (w := w) (t := t) (d := d) (m := m) (k := k) hp
        cases this with
        | over k hk w' hto => exact .tau _ (by rw [e]; exact .unlDone m k hk hn) _ hto
        | park timed k w' p => exact .unlPark m timed k e hn _ p
      · next x xs hx =>
        simp only
        split_ifs with ha
        · exact .wakeMx m k x xs e hx ha _ (done_unlock (by rw [wake_pending]; exact hp))
        · exact .dropMx m k x xs e hx (by simpa using ha) _ (to_setPc _)
    · obtain rfl : loop = false := by simpa using hl
      have huser : (w.mx m).owner ≠ some t → m.isUser := by
        intro hne
        cases m with
        | user m => trivial
        | queue q => exact (hne ((hh q).1 (.inr ⟨k, e⟩))).elim
      have fail : ∀ x, (w.mx m).owner ≠ some t →
          T t w (w.retUnlock t m d (.exc x) k) := by
        intro x hne
        have hm := huser hne
        cases m with
        | queue q => exact hm.elim
        | user m =>
          refine .tau .user (by rw [e]; exact .unlFail m k) _ ?_
          cases k with
          | user => exact to_retUser _
          | sleep timed k => exact to_retSleep_user (m := .user m) _ trivial hw
          | queue q op r => exact to_retUser _
      split
      · next hn => exact fail _ (by simp [hn])
      · next o ho =>
        split_ifs with hot
        · subst hot
          have := to_setPc (w := (w.setMx m fun x => { x with owner := none }).ev (.gave o m)) (t := o)
            (.unlock m true k)
          exact .release m k e ho _ ⟨this.th, this.mx, this.cv, this.qu, this.pc, this.status,
            this.permit, this.pending⟩
        · exact fail _ (by rw [ho]; simpa using hot)
  · next m timed at_ k =>
    rw [e] at hw hc
    unfold World.stepSleep
    split
    · exact .tau _ (by rw [e]; exact .slEnter m timed k) _ (to_setPc _)
    · split_ifs with ho
      · exact .tau _ (by rw [e]; exact .slOwned m timed k ho) _ (to_setPc _)
      · cases m with
        | user m =>
          exact .tau _ (by rw [e]; exact .slFail m timed k) _ (to_retSleep_user (m := .user m) _ trivial hw)
        | queue q => exact (ho ((hh q).1 (.inl (by rw [e]; rfl)))).elim
    · refine .tau _ (by rw [e]; exact .slWoke m timed k) _ ?_
      exact ⟨fun u e => setTh_ne _ _ e, rfl, fun _ => .inr rfl, rfl, by simp [World.wokeSleep],
        by simp [World.wokeSleep], by simp [World.wokeSleep], by simp [World.wokeSleep]⟩
    · next ex =>
      obtain rfl : ex = none := hc
      exact .tau _ (by rw [e]; exact .relock m timed k) _ (to_setPc _)
  · next c m timed k => exact .cvAdd c m timed k e _ (to_setPc _)
  · next c loop k =>
    unfold World.stepSignal
    split_ifs with hl
    · subst hl
      split
      · next hn => exact .tau _ (by rw [e]; exact .sigNone c k hn) _ (to_retSignal k)
      · next x xs hx =>
        simp only
        split_ifs with ha
        · exact .wakeCv c k x xs e hx ha _ (to_retSignal k)
        · exact .dropCv c k x xs e hx (by simpa using ha) _ (to_setPc _)
    · obtain rfl : loop = false := by simpa using hl
      exact .tau _ (by rw [e]; exact .sigEnter c k) _ (to_setPc _)
  · next c loop k =>
    unfold World.stepCast
    split_ifs with hl
    · subst hl
      split
      · next hn => exact .tau _ (by rw [e]; exact .castNone c k hn) _ (to_retCast k)
      · next x xs hx => exact .tau _ (by rw [e]; exact .castSome c k (by simp [hx])) _ (to_setPc _)
    · obtain rfl : loop = false := by simpa using hl
      exact .tau _ (by rw [e]; exact .castEnter c k) _ (to_setPc _)
  · next q op at_ =>
    rw [e] at hw
    have post : ∀ {f : Qu → Qu} {x : Ev} {op : QOp} {r : Res} {l : List Post},
        To t (w.setQu q f) ((((w.setQu q f).ev x)).post t q op r l) (postPc q op r l) := by
      intro f x op r l
      have := to_post (w := (w.setQu q f).ev x) (t := t) q op r l
      exact ⟨this.th, this.mx, this.cv, this.qu, this.pc, this.status, this.permit, this.pending⟩
    have leave : ∀ r, at_ = .body → T t w (w.leave t q op r) := by
      rintro r rfl
      exact .tau _ (by rw [e]; exact .qLeave q op r) _ (to_leave ..)
    unfold World.stepQueue
    split
    · exact .tau _ (by rw [e]; exact .qEntry q op) _ (to_setPc _)
    · exact .tau _ (by rw [e]; exact .qSync q op) _ (to_setPc _)
    · unfold World.stepBody
      split
      · exact .tau _ (by rw [e]; exact .qLoop q _ (by simp [QOp.cv]) (by simp [QOp.cv])) _ (to_setPc _)
      · next v nb timed =>
        split
        · next n hn =>
          exact .tau _ (by rw [e]; exact .qLoop q _ (by simp [QOp.cv]) (by simp [hn])) _ (to_setPc _)
        · next hn =>
          split_ifs with hcl
          · exact leave _ rfl
          · exact .insBody q v nb timed e (by simpa using hcl) hn _ post
      · exact .clear q e _ post
      · unfold World.doClose
        by_cases hcl : (w.qu q).closed = true
        · rw [if_pos hcl]; exact leave _ rfl
        · rw [if_neg hcl]; exact .close q e _ post
      · next n =>
        unfold World.doSetMax
        split
        · exact leave _ rfl
        · next old ho => exact .resize q n old e ho _ post
    · split
      · next nb timed =>
        unfold World.popLoop
        split_ifs with h1 h2 h3 h4
        · exact .tau _ (by rw [e]; exact .popTake q nb timed h1) _ (to_setPc _)
        · exact .tau _ (by rw [e]; exact .popLeave q nb timed _ (by simpa using h1)) _ (to_leave ..)
        · exact .tau _ (by rw [e]; exact .popLeave q nb timed _ (by simpa using h1)) _ (to_leave ..)
        · exact .tau _ (by rw [e]; exact .popLeave q nb timed _ (by simpa using h1)) _ (to_leave ..)
        · exact .tau _ (by rw [e]; exact .popWait q nb timed (by simpa using h1) (by simpa using h3)) _
            (to_setPc _)
      · next v nb timed =>
        unfold World.pushLoop
        split_ifs with h1 h2 h3 h4
        · exact .tau _ (by rw [e]; exact .pushLeave q v nb timed _ (.inl h1)) _ (to_leave ..)
        · exact .insLoop q v nb timed e (by simpa using h1) h2 _ post
        · exact .tau _ (by rw [e]; exact .pushLeave q v nb timed _ (.inr (by simpa using h2))) _ (to_leave ..)
        · exact .tau _ (by rw [e]; exact .pushLeave q v nb timed _ (.inr (by simpa using h2))) _ (to_leave ..)
        · exact .tau _ (by rw [e]; exact .pushWait q v nb timed (by simpa using h2) (by simpa using h1)) _
            (to_setPc _)
      · next h1 h2 =>
        obtain ⟨q', hw⟩ := hw
        cases op with
        | pop nb timed => exact (h1 _ _ rfl).elim
        | push v nb timed => exact (h2 _ _ _ rfl).elim
        | clear => exact (hw rfl).elim
        | close => exact (hw rfl).elim
        | setMax n => exact (hw rfl).elim
    · obtain ⟨nb, timed, rfl⟩ := hw
      exact .took q nb timed e _ _ post

end Verif.Sync
