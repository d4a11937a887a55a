import Verif.Sync.Own

/-!
# The code of a queue method holds the mutex of its queue where it relies on it
-/

namespace Verif.Sync

def MId.isUser : MId → Prop
  | .user _ => True
  | .queue _ => False

def CId.isUser : CId → Prop
  | .user _ => True
  | _ => False

/-- The condition variable a queue method waits on. -/
def QOp.cv (q : Nat) : QOp → Option CId
  | .pop _ _ => some (.pop q)
  | .push _ _ _ => some (.push q)
  | _ => none

def CId.isQ (q : Nat) : CId → Prop
  | .pop q' => q' = q
  | .push q' => q' = q
  | _ => False

def Post.cv : Post → CId
  | .signal c => c
  | .broadcast c => c

def WaitK.ok (c : CId) (m : MId) : WaitK → Prop
  | .user => m.isUser ∧ c.isUser
  | .queue q op => m = .queue q ∧ op.cv q = some c

def SleepK.ok (m : MId) : SleepK → Prop
  | .user => m.isUser
  | .wait c k => k.ok c m

def LockK.ok (m : MId) : LockK → Prop
  | .user => m.isUser
  | .resleep _ k => k.ok m
  | .queue q _ => m = .queue q

def UnlockK.ok (m : MId) : UnlockK → Prop
  | .user => m.isUser
  | .sleep _ k => k.ok m
  | .queue q _ _ => m = .queue q

def CastK.ok (c : CId) : CastK → Prop
  | .user => c.isUser
  | .queue q _ todo _ => c.isQ q ∧ ∀ p ∈ todo, p.cv.isQ q

def SigK.ok (c : CId) : SigK → Prop
  | .direct k => k.ok c
  | .bcast c' k => c' = c ∧ k.ok c

/-- The position is one the code can be at: the mutex and the condition variables are those of the
caller. -/
def Pc.Wf : Pc → Prop
  | .user => True
  | .nap => True
  | .tryLock m => m.isUser
  | .lock m _ k => k.ok m
  | .unlock m _ k => k.ok m
  | .sleep m _ _ k => k.ok m
  | .wait c m _ k => k.ok c m
  | .signal c _ k => k.ok c
  | .bcast c _ k => k.ok c
  | .queue _ op .loop => ∃ q, op.cv q ≠ none
  | .queue _ op .take => ∃ nb timed, op = .pop nb timed
  | .queue _ _ _ => True

structure PcOk (own : MId → Option Nat) (qu : Nat → Qu) (t : Nat) (pc : Pc) : Prop where
  wf : pc.Wf
  bel : ∀ q, Bel q pc → own (.queue q) = some t
  take : ∀ q op, pc = .queue q op .take → (qu q).items ≠ []

def Res.isExc : Res → Bool
  | .exc _ => true
  | _ => false

variable {own : MId → Option Nat} {qu : Nat → Qu} {t : Nat}

theorem ok_user : PcOk own qu t .user := ⟨trivial, fun _ h => h.elim, fun _ _ h => by cases h⟩

theorem ok_retUser (w : World) (r : Res) : PcOk own qu t ((w.retUser t r).th t).pc := by
  unfold World.retUser
  split <;> (simp only [setTh_self]; exact ok_user)

theorem ok_leave (w : World) (q : Nat) (op : QOp) (r : Res) :
    PcOk own qu t ((w.leave t q op r).th t).pc := by
  simp only [World.leave, World.setPc, setTh_self]
  exact ⟨rfl, fun _ h => h.elim, fun _ _ h => by cases h⟩

theorem ok_post (w : World) (q : Nat) (op : QOp) (r : Res) (k : List Post)
    (h : own (.queue q) = some t) (hk : ∀ p ∈ k, p.cv.isQ q) :
    PcOk own qu t ((w.post t q op r k).th t).pc := by
  unfold World.post
  split
  · exact ok_leave ..
  · next c k =>
    simp only [World.setPc, setTh_self]
    exact ⟨⟨hk (.signal c) (by simp), fun p hp => hk p (by simp [hp])⟩, fun q' e => by obtain rfl : q = q' := e; exact h,
      fun _ _ h => by cases h⟩
  · next c k =>
    simp only [World.setPc, setTh_self]
    exact ⟨⟨hk (.broadcast c) (by simp), fun p hp => hk p (by simp [hp])⟩, fun q' e => by obtain rfl : q = q' := e; exact h,
      fun _ _ h => by cases h⟩

theorem ok_loop {q : Nat} {op : QOp} (h : own (.queue q) = some t) (ho : ∃ q, op.cv q ≠ none) :
    PcOk own qu t (.queue q op .loop) :=
  ⟨ho, fun q' e => by obtain rfl : q = q' := e; exact h, fun _ _ h => by cases h⟩

theorem ok_retWait (w : World) (c : CId) (m : MId) (r : Res) (k : WaitK) (hk : k.ok c m)
    (h : r.isExc = false → own m = some t) : PcOk own qu t ((w.retWait t c r k).th t).pc := by
  unfold World.retWait
  split
  · split <;> exact ok_retUser ..
  · next q op =>
    split
    · exact ok_leave ..
    · next hr =>
      simp only [World.setPc, setTh_self]
      refine ok_loop ?_ ⟨q, by simp [hk.2]⟩
      rw [← hk.1]
      exact h (by cases r <;> simp_all [Res.isExc])

theorem ok_retSleep (w : World) (m : MId) (r : Res) (k : SleepK) (hk : k.ok m)
    (h : r.isExc = false → own m = some t) : PcOk own qu t ((w.retSleep t r k).th t).pc := by
  unfold World.retSleep
  split
  · exact ok_retUser ..
  · exact ok_retWait w _ m r _ hk h

theorem ok_retLock (w : World) (m : MId) (d : Choice) (r : Res) (k : LockK) (hk : k.ok m)
    (h : r.isExc = false → own m = some t) : PcOk own qu t ((w.retLock t d r k).th t).pc := by
  unfold World.retLock
  split
  · exact ok_retUser ..
  · next q op =>
    split
    · exact ok_retUser ..
    · next hr =>
      simp only [World.setPc, setTh_self]
      refine ⟨trivial, fun q' e => ?_, fun _ _ h => by cases h⟩
      obtain rfl : q = q' := e
      rw [← (hk : m = .queue q)]
      exact h (by cases r <;> simp_all [Res.isExc])
  · next e k =>
    simp only
    split
    · exact ok_retSleep _ m _ _ hk (by simp [Res.isExc])
    · split
      · exact ok_retSleep _ m _ _ hk (by simp [Res.isExc])
      · exact ok_retSleep _ m _ _ hk fun _ => h (by cases r <;> simp_all [Res.isExc])

theorem ok_wokeLock (w : World) (m : MId) (d : Choice) (e : Option Exc) (k : LockK) (hk : k.ok m) :
    PcOk own qu t ((w.wokeLock t m d e k).th t).pc := by
  unfold World.wokeLock
  split
  · exact ok_retLock _ m _ _ _ hk (by simp [Res.isExc])
  · simp only [World.setPc, setTh_self]
    exact ⟨hk, fun _ h => h.elim, fun _ _ h => by cases h⟩

theorem bel_relock {q : Nat} {m : MId} {timed : Bool} {e : Option Exc} {k : SleepK} :
    ¬ Bel q (.sleep m timed (.relock e) k) := by cases m <;> simp [Bel]

theorem bel_stop {q : Nat} {m : MId} {timed : Bool} {k : SleepK} :
    ¬ Bel q (.sleep m timed .stop k) := by cases m <;> simp [Bel]

theorem bel_lock {q : Nat} {m : MId} {a : LockAt} {k : LockK} : ¬ Bel q (.lock m a k) := by
  cases m <;> simp [Bel]

theorem bel_unlockLoop {q : Nat} {m : MId} {k : UnlockK} : ¬ Bel q (.unlock m true k) := by
  cases m <;> simp [Bel]

theorem ok_wokeSleep (w : World) (m : MId) (timed : Bool) (e : Option Exc) (k : SleepK)
    (hk : k.ok m) : PcOk own qu t ((w.wokeSleep t m timed e k).th t).pc := by
  simp only [World.wokeSleep, setTh_self]
  exact ⟨hk, fun _ h => (bel_relock h).elim, fun _ _ h => by cases h⟩

theorem ok_parkLock (w : World) (m : MId) (d : Choice) (k : LockK) (hk : k.ok m) :
    PcOk own qu t ((w.parkLock t m d k).th t).pc := by
  unfold World.parkLock
  split_ifs
  · exact ok_wokeLock _ _ _ _ _ hk
  · exact ok_wokeLock _ _ _ _ _ hk
  · simp only [setTh_self]
    exact ⟨hk, fun _ h => (bel_lock h).elim, fun _ _ h => by cases h⟩

theorem ok_parkSleep (w : World) (m : MId) (timed : Bool) (d : Choice) (k : SleepK) (hk : k.ok m) :
    PcOk own qu t ((w.parkSleep t m timed d k).th t).pc := by
  unfold World.parkSleep
  split_ifs
  · exact ok_wokeSleep _ _ _ _ _ hk
  · exact ok_wokeSleep _ _ _ _ _ hk
  · simp only [setTh_self]
    exact ⟨hk, fun _ h => (bel_stop h).elim, fun _ _ h => by cases h⟩

theorem ok_parkNap (w : World) (timed : Bool) (d : Choice) :
    PcOk own qu t ((w.parkNap t timed d).th t).pc := by
  unfold World.parkNap
  split_ifs
  · exact ok_retUser ..
  · exact ok_retUser ..
  · simp only [setTh_self]
    exact ⟨trivial, fun _ h => h.elim, fun _ _ h => by cases h⟩

theorem ok_retUnlock (w : World) (m : MId) (d : Choice) (r : Res) (k : UnlockK) (hk : k.ok m) :
    PcOk own qu t ((w.retUnlock t m d r k).th t).pc := by
  unfold World.retUnlock
  split
  · exact ok_retUser ..
  · split
    · exact ok_retSleep _ m _ _ hk (by simp [Res.isExc])
    · exact ok_parkSleep _ _ _ _ _ hk
  · split <;> exact ok_retUser ..

theorem ok_retCast (w : World) (c : CId) (r : Res) (k : CastK) (hk : k.ok c)
    (h : ∀ q, k.isQ q → own (.queue q) = some t) : PcOk own qu t ((w.retCast t r k).th t).pc := by
  unfold World.retCast
  split
  · exact ok_retUser ..
  · next q op todo r' =>
    split
    · exact ok_leave ..
    · exact ok_post _ _ _ _ _ (h q rfl) hk.2

theorem ok_retSignal (w : World) (c : CId) (r : Res) (k : SigK) (hk : k.ok c)
    (h : ∀ q, k.isQ q → own (.queue q) = some t) : PcOk own qu t ((w.retSignal t r k).th t).pc := by
  unfold World.retSignal
  split
  · exact ok_retCast _ c _ _ hk h
  · next c' k =>
    split
    · exact ok_retCast _ c _ _ hk.2 h
    · simp only [World.setPc, setTh_self]
      exact ⟨hk.1 ▸ hk.2, h, fun _ _ h => by cases h⟩

theorem ok_raiseAt (w : World) (d : Choice) (h : PcOk own qu t (w.th t).pc) :
    PcOk own qu t ((w.raiseAt t d).th t).pc := by
  have hw := h.wf
  unfold World.raiseAt
  split <;> rename_i e
  all_goals first
    | exact ok_retUser ..
    | exact ok_leave ..
    | (rw [e] at hw; exact ok_wokeLock _ _ _ _ _ hw)
    | (rw [e] at hw; exact ok_wokeSleep _ _ _ _ _ hw)
    | (rw [e] at hw; exact ok_retUnlock _ _ _ _ _ hw)
    | (rw [e] at hw; exact ok_retSleep _ _ _ _ hw (by simp [Res.isExc]))
    | (rw [e] at hw; exact ok_retSignal _ _ _ _ hw fun q hq => h.bel q (by rw [e]; exact hq))
    | (rw [e] at hw; exact ok_retCast _ _ _ _ hw fun q hq => h.bel q (by rw [e]; exact hq))
    | (rw [e]; exact ok_user)
    | (rw [e] at hw; exact ok_retLock _ _ _ _ _ hw (by simp [Res.isExc]))

def World.ow (w : World) (m : MId) : Option Nat := (w.mx m).owner

theorem Loc.own_eq {t : Nat} {w w' : World} (h : Loc t w w') : w'.ow = w.ow := funext h.owner

theorem ok_setPc {w : World} {pc : Pc} (h : PcOk own qu t pc) :
    PcOk own qu t ((w.setPc t pc).th t).pc := by simpa [World.setPc] using h

theorem ok_plain {pc : Pc} (hw : pc.Wf) (hb : ∀ q, ¬ Bel q pc)
    (ht : ∀ q op, pc ≠ .queue q op .take) : PcOk own qu t pc :=
  ⟨hw, fun q h => (hb q h).elim, fun q op h => (ht q op h).elim⟩

theorem ok_go (w : World) (t : Nat) (d : Choice) (hs : (w.th t).status ≠ .dead)
    (h : PcOk w.ow w.qu t (w.th t).pc) :
    PcOk (w.go t d).ow (w.go t d).qu t ((w.go t d).th t).pc := by
  have hw := h.wf
  unfold World.go
  split
  · next e => rw [e]; exact ok_user
  · exact ok_retUser ..
  · next m _ =>
    split <;> exact ok_retUser ..
  · next m at_ k e =>
    rw [e] at hw
    unfold World.stepLock
    split
    · split_ifs
      · exact ok_retLock _ m _ _ _ hw (by simp [Res.isExc])
      · exact ok_setPc (ok_plain hw (fun q => bel_lock) (fun _ _ h => by cases h))
    · exact ok_setPc (ok_plain hw (fun q => bel_lock) (fun _ _ h => by cases h))
    · unfold World.stepTry World.tryOwn
      cases eo : (w.mx m).owner with
      | none =>
        refine ok_retLock _ m _ _ _ hw fun _ => ?_
        simp only
        rw [(loc_retLock _ t d .self k).own_eq]
        simp [World.ow]
      | some o =>
        simp only
        split_ifs with ha
        · exact ok_parkLock _ _ _ _ hw
        · exact ok_setPc (ok_plain hw (fun q => bel_lock) (fun _ _ h => by cases h))
    · exact ok_wokeLock _ _ _ _ _ hw
  · next m loop k e =>
    rw [e] at hw
    unfold World.stepUnlock
    split_ifs
    · split
      · exact ok_retUnlock _ _ _ _ _ hw
      · simp only
        split_ifs with ha
        · exact ok_retUnlock _ _ _ _ _ hw
        · exact ok_setPc (ok_plain hw (fun q => bel_unlockLoop) (fun _ _ h => by cases h))
    · split
      · exact ok_retUnlock _ _ _ _ _ hw
      · split_ifs with ho
        · exact ok_setPc (ok_plain hw (fun q => bel_unlockLoop) (fun _ _ h => by cases h))
        · exact ok_retUnlock _ _ _ _ _ hw
  · next m timed at_ k e =>
    have hb := h.bel
    rw [e] at hw hb
    unfold World.stepSleep
    split
    · refine ok_setPc ⟨hw, fun q hq => ?_, fun _ _ h => by cases h⟩
      rw [(Loc.setPc t w _).own_eq]
      exact hb q (by cases m <;> exact hq)
    · split_ifs with ho
      · refine ok_setPc ⟨hw, fun q hq => ?_, fun _ _ h => by cases h⟩
        rw [(Loc.setPc t w _).own_eq]
        exact hb q (by cases m <;> exact hq)
      · exact ok_retSleep _ m _ _ hw (by simp [Res.isExc])
    · exact ok_wokeSleep _ _ _ _ _ hw
    · exact ok_setPc (ok_plain hw (fun q => bel_lock) (fun _ _ h => by cases h))
  · next c m timed k e =>
    have hb := h.bel
    rw [e] at hw hb
    refine ok_setPc ⟨hw, fun q hq => ?_, fun _ _ h => by cases h⟩
    rw [(Loc.setPc t _ _).own_eq]
    exact hb q (by cases m <;> exact hq)
  · next c loop k e =>
    have hb := h.bel
    rw [e] at hw hb
    unfold World.stepSignal
    split_ifs
    · split
      · refine ok_retSignal _ c _ _ hw fun q hq => ?_
        rw [(loc_retSignal _ t _ k).own_eq]; exact hb q hq
      · next x xs ec =>
        simp only
        split_ifs with ha
        · refine ok_retSignal _ c _ _ hw fun q hq => ?_
          rw [(loc_retSignal _ t _ k).own_eq]
          simp only [World.ow, wake_mx]; exact hb q hq
        · refine ok_setPc ⟨hw, fun q hq => ?_, fun _ _ h => by cases h⟩
          rw [(Loc.setPc t _ _).own_eq]; exact hb q hq
    · refine ok_setPc ⟨hw, fun q hq => ?_, fun _ _ h => by cases h⟩
      rw [(Loc.setPc t _ _).own_eq]; exact hb q hq
  · next c loop k e =>
    have hb := h.bel
    rw [e] at hw hb
    unfold World.stepCast
    split_ifs
    · split
      · refine ok_retCast _ c _ _ hw fun q hq => ?_
        rw [(loc_retCast _ t _ k).own_eq]; exact hb q hq
      · refine ok_setPc ⟨⟨rfl, hw⟩, fun q hq => ?_, fun _ _ h => by cases h⟩
        rw [(Loc.setPc t _ _).own_eq]; exact hb q hq
    · refine ok_setPc ⟨hw, fun q hq => ?_, fun _ _ h => by cases h⟩
      rw [(Loc.setPc t _ _).own_eq]; exact hb q hq
  · next q op at_ e =>
    have hb := h.bel
    rw [e] at hw hb
    unfold World.stepQueue
    split
    · exact ok_setPc (ok_plain trivial (fun q h => h) (fun _ _ h => by cases h))
    · exact ok_setPc (ok_plain rfl (fun q => bel_lock) (fun _ _ h => by cases h))
    · have ho := hb q rfl
      unfold World.stepBody
      split
      · refine ok_setPc (ok_loop ?_ ⟨q, by simp [QOp.cv]⟩)
        rw [(Loc.setPc t _ _).own_eq]; exact ho
      · split
        · refine ok_setPc (ok_loop ?_ ⟨q, by simp [QOp.cv]⟩)
          rw [(Loc.setPc t _ _).own_eq]; exact ho
        · split_ifs
          · exact ok_leave ..
          · refine ok_post _ _ _ _ _ ?_ (by simp [Post.cv, CId.isQ])
            rw [World.insert, (loc_post _ t _ _ _ _).own_eq]; exact ho
      · refine ok_post _ _ _ _ _ ?_ (by split_ifs <;> simp [Post.cv, CId.isQ])
        rw [World.doClear, (loc_post _ t _ _ _ _).own_eq]; exact ho
      · unfold World.doClose
        split_ifs
        · exact ok_leave ..
        · refine ok_post _ _ _ _ _ ?_ (by simp [Post.cv, CId.isQ])
          rw [(loc_post _ t _ _ _ _).own_eq]; exact ho
        · refine ok_post _ _ _ _ _ ?_ (by simp [Post.cv, CId.isQ])
          rw [(loc_post _ t _ _ _ _).own_eq]; exact ho
      · unfold World.doSetMax
        split
        · exact ok_leave ..
        · refine ok_post _ _ _ _ _ ?_ (by split_ifs <;> simp [Post.cv, CId.isQ])
          rw [(loc_post _ t _ _ _ _).own_eq]; exact ho
    · have ho := hb q rfl
      split
      · next nb timed =>
        unfold World.popLoop
        split_ifs with h1
        · refine ok_setPc ⟨⟨nb, timed, rfl⟩, fun q' hq => ?_, fun q' op' hp => ?_⟩
          · obtain rfl : q = q' := hq
            rw [(Loc.setPc t _ _).own_eq]; exact ho
          · injection hp with h2
            subst h2
            exact h1
        · exact ok_leave ..
        · exact ok_leave ..
        · exact ok_leave ..
        · refine ok_setPc ⟨⟨rfl, rfl⟩, fun q' hq => ?_, fun _ _ h => by cases h⟩
          obtain rfl : q = q' := hq
          rw [(Loc.setPc t _ _).own_eq]; exact ho
      · unfold World.pushLoop
        split_ifs with h1 h2
        · exact ok_leave ..
        · refine ok_post _ _ _ _ _ ?_ (by simp [Post.cv, CId.isQ])
          rw [World.insert, (loc_post _ t _ _ _ _).own_eq]; exact ho
        · exact ok_leave ..
        · exact ok_leave ..
        · refine ok_setPc ⟨⟨rfl, rfl⟩, fun q' hq => ?_, fun _ _ h => by cases h⟩
          obtain rfl : q = q' := hq
          rw [(Loc.setPc t _ _).own_eq]; exact ho
      · rw [e]
        exact ⟨hw, hb, fun _ _ h => by cases h⟩
    · have ho := hb q rfl
      refine ok_post _ _ _ _ _ ?_ (by split_ifs <;> simp [Post.cv, CId.isQ])
      rw [World.stepTake, (loc_post _ t _ _ _ _).own_eq]; exact ho

/-! ## The other threads -/

theorem Prim.pc {t : Nat} {w w1 : World} (p : Prim t w w1) (u : Nat) :
    (w1.th u).pc = (w.th u).pc := by
  cases p <;> first | rfl | (rw [wake_pc]; rfl)

theorem Prim.other {t u : Nat} {w w1 : World} (p : Prim t w w1) (hu : u ≠ t)
    (hd : (w.th u).status = .dead → (w.th u).pc = .user)
    (ht : PcOk w.ow w.qu t (w.th t).pc)
    (h : PcOk w.ow w.qu u (w.th u).pc) : PcOk w1.ow w1.qu u (w.th u).pc := by
  have hne : ∀ q, Bel q (w.th u).pc → ∀ q', Bel q' (w.th t).pc → q ≠ q' := by
    rintro q h1 _ h2 rfl
    exact hu (Option.some.inj ((h.bel q h1).symm.trans (ht.bel q h2)))
  have hqu : ∀ q', Bel q' (w.th t).pc → ∀ f q op, (w.th u).pc = .queue q op .take →
      ∀ e, (((w.setQu q' f).ev e).qu q).items ≠ [] := by
    intro q' hb f q op hp e
    show ((w.setQu q' f).qu q).items ≠ []
    rw [setQu_ne w f (hne q (by rw [hp]; rfl) q' hb)]
    exact h.take q op hp
  refine ⟨h.wf, fun q hb => ?_, fun q op hp => ?_⟩
  · have := h.bel q hb
    have hal : (w.th u).status ≠ .dead := fun e => by rw [hd e] at hb; exact hb
    cases p with
    | acquire m h0 =>
      by_cases e : MId.queue q = m
      · subst e
        have h0' : w.ow (.queue q) = Option.none := h0
        rw [h0'] at this; cases this
      · simpa [World.ow, setMx_ne w _ e] using this
    | reclaim m o h0 ho =>
      by_cases e : MId.queue q = m
      · subst e
        have h0' : w.ow (.queue q) = some o := h0
        rw [h0'] at this
        obtain rfl := Option.some.inj this
        simp [World.alive, hal] at ho
      · simpa [World.ow, setMx_ne w _ e] using this
    | release m h0 =>
      by_cases e : MId.queue q = m
      · subst e
        have h0' : w.ow (.queue q) = some t := h0
        rw [h0'] at this
        exact (hu (Option.some.inj this).symm).elim
      · simpa [World.ow, setMx_ne w _ e] using this
    | enlist m o h0 ha =>
      by_cases e : MId.queue q = m
      · subst e; simpa [World.ow] using this
      · simpa [World.ow, setMx_ne w _ e] using this
    | wakeMx m x xs h0 =>
      simp only [World.ow, wake_mx]
      by_cases e : MId.queue q = m
      · subst e; simpa [World.ow] using this
      · simpa [World.ow, setMx_ne w _ e] using this
    | wakeCv c x xs h0 => simp only [World.ow, wake_mx]; exact this
    | _ => exact this
  · cases p with
    | wakeMx m x xs h0 => rw [wake_qu]; exact h.take q op hp
    | wakeCv c x xs h0 => rw [wake_qu]; exact h.take q op hp
    | ins q' v hb _ _ => exact hqu q' hb _ q op hp _
    | took q' op' hb => exact hqu q' (by rw [hb]; rfl) _ q op hp _
    | cleared q' op' hb => exact hqu q' (by rw [hb]; rfl) _ q op hp _
    | closed q' hb => exact hqu q' hb _ q op hp _
    | resized q' n old hb _ => exact hqu q' hb _ q op hp _
    | _ => exact h.take q op hp

/-- Every thread is where the code can be and holds what it relies on. -/
structure Good (w : World) : Prop where
  ok : ∀ t, PcOk w.ow w.qu t (w.th t).pc
  dead : ∀ t, (w.th t).status = .dead → (w.th t).pc = .user

theorem Loc.good_other {t u : Nat} {w w' : World} (l : Loc t w w') (hu : u ≠ t)
    (h : PcOk w.ow w.qu u (w.th u).pc) : PcOk w'.ow w'.qu u (w'.th u).pc := by
  rw [l.own_eq, l.qu, l.th u hu]; exact h

theorem init_good (caps : Nat → Option Nat) : Good (init caps) :=
  ⟨fun _ => ok_user, fun _ _ => rfl⟩

/-- `t` does something by itself. -/
theorem Good.loc {t : Nat} {w w' : World} (g : Good w) (l : Loc t w w')
    (hs : (w.th t).status ≠ .dead) (ht : PcOk w.ow w.qu t (w'.th t).pc) : Good w' where
  ok u := by
    by_cases e : u = t
    · subst e; rw [l.own_eq, l.qu]; exact ht
    · exact l.good_other e (g.ok u)
  dead u hu := by
    by_cases e : u = t
    · subst e; exact (hs (l.dead.1 hu)).elim
    · rw [l.th u e] at hu ⊢; exact g.dead u hu

theorem ok_start (c : Call) : PcOk own qu t c.start := by
  cases c <;> first
    | exact ok_plain trivial (fun q h => by simp [Bel, Call.start, SigK.isQ, CastK.isQ] at h)
        (fun _ _ h => by simp [Call.start] at h)
    | exact ok_plain ⟨trivial, trivial⟩
        (fun q h => by simp [Bel, Call.start, SigK.isQ, CastK.isQ] at h)
        (fun _ _ h => by simp [Call.start] at h)

theorem step_good {w w' : World} {a : Act} (g : Good w) (h : w.step a = some w') : Good w' := by
  cases a with
  | call t c d =>
    simp only [World.step] at h
    split_ifs at h with hf
    have hs : (w.th t).status = .run := by
      simp only [World.free, Bool.and_eq_true, beq_iff_eq] at hf; exact hf.1
    have hp : (w.th t).pc = .user := by
      simp only [World.free, Bool.and_eq_true, beq_iff_eq] at hf; exact hf.2
    have l0 : Loc t w (w.setTh t fun x => { x with call := some c }) := Loc.setTh .rfl
    split at h
    · obtain rfl := Option.some.inj h
      exact g.loc (l0.trans (loc_parkNap _ _ _ _ (by simp [hs]))) (by simp [hs]) (ok_parkNap ..)
    · obtain rfl := Option.some.inj h
      exact g.loc (l0.trans (Loc.setPc ..)) (by simp [hs]) (ok_setPc (ok_start c))
  | step t d =>
    simp only [World.step] at h
    split_ifs at h with ha hi
    · have hs : (w.th t).status = .run := by
        simp only [World.active, Bool.and_eq_true, beq_iff_eq] at ha; exact ha.1
      obtain rfl := Option.some.inj h
      refine g.loc ((loc_takeIntr w t).trans (loc_raiseAt _ _ _ (by simp [World.takeIntr, hs])))
        (by simp [hs]) (ok_raiseAt _ _ ?_)
      simpa [World.takeIntr] using g.ok t
    · have hs : (w.th t).status = .run := by
        simp only [World.active, Bool.and_eq_true, beq_iff_eq] at ha; exact ha.1
      obtain rfl := Option.some.inj h
      obtain ⟨w1, p, l⟩ := go_prim w t d (by simp [hs])
      have l := l (by rw [Ne, p.isDead]; simp [hs])
      refine ⟨fun u => ?_, fun u hu => ?_⟩
      · by_cases e : u = t
        · subst e; exact ok_go w u d (by simp [hs]) (g.ok u)
        · refine l.good_other e ?_
          rw [p.pc]
          exact p.other e (g.dead u) (g.ok t) (g.ok u)
      · by_cases e : u = t
        · subst e
          have := (p.isDead u).1 (l.dead.1 hu)
          rw [hs] at this; cases this
        · rw [l.th u e] at hu ⊢
          rw [p.pc]
          exact g.dead u ((p.isDead u).1 hu)
  | exit t =>
    simp only [World.step] at h
    split_ifs at h with hf
    obtain rfl := Option.some.inj h
    simp only [World.free, Bool.and_eq_true, beq_iff_eq] at hf
    have hpc : ∀ u, ((w.setTh t fun x => { x with status := .dead }).th u).pc = (w.th u).pc := by
      intro u
      by_cases e : u = t
      · subst e; simp
      · rw [setTh_ne _ _ e]
    refine ⟨fun u => ?_, fun u hu => ?_⟩
    · rw [ev_th, hpc]; exact g.ok u
    · rw [ev_th, hpc]
      by_cases e : u = t
      · subst e; exact hf.2
      · rw [ev_th, setTh_ne _ _ e] at hu; exact g.dead u hu
  | wakeup t =>
    simp only [World.step] at h
    split at h
    · next b hs =>
      obtain rfl := Option.some.inj h
      exact g.loc (Loc.setTh (by simp [hs])) (by simp [hs]) (by simpa using g.ok t)
    · cases h
  | timeout t =>
    simp only [World.step] at h
    split at h
    · next hs =>
      obtain rfl := Option.some.inj h
      exact g.loc (Loc.setTh (by simp [hs])) (by simp [hs]) (by simpa using g.ok t)
    · cases h
  | send t =>
    simp only [World.step] at h
    split at h
    · cases h
    · next b hs =>
      split_ifs at h
      · obtain rfl := Option.some.inj h
        exact g.loc (Loc.setTh (by simp [hs])) (by simp [hs]) (by simpa using g.ok t)
      · obtain rfl := Option.some.inj h
        exact g.loc (Loc.setTh (by simp)) (by simp [hs]) (by simpa using g.ok t)
    · next hs =>
      obtain rfl := Option.some.inj h
      exact g.loc (Loc.setTh (by simp)) (by simp [hs]) (by simpa using g.ok t)

end Verif.Sync
