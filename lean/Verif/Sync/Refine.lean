import Verif.Sync.Bel

/-!
# Queues do what a bounded first-in first-out queue does
-/

namespace Verif.Sync

def Qu.abs (x : Qu) : Abs := ⟨x.items, x.closed, x.max⟩

def Rep (caps : Nat → Option Nat) (w : World) : Prop :=
  ∀ q, replay (caps q) q w.log = some (w.qu q).abs

theorem replay_rets {t : Nat} {l : List Ev} (h : ∀ e ∈ l, IsRet t e) (cap : Option Nat) (q : Nat)
    (log : List Ev) : replay cap q (log ++ l) = replay cap q log := by
  induction l generalizing log with
  | nil => simp
  | cons e l ih =>
    have e1 : log ++ e :: l = log ++ [e] ++ l := by simp
    rw [e1, ih (fun x hx => h x (by simp [hx])), replay_snoc]
    obtain ⟨c, r, rfl⟩ := h e (by simp)
    cases replay cap q log <;> rfl

theorem Loc.rep {caps : Nat → Option Nat} {t : Nat} {w w' : World} (h : Loc t w w')
    (o : Rep caps w) : Rep caps w' := by
  intro q
  obtain ⟨l, e, hl⟩ := h.log
  rw [e, replay_rets hl, o q, h.qu]

/-- A change of `q` that the specification allows. -/
theorem Rep.change {caps : Nat → Option Nat} {w : World} {q : Nat} {f : Qu → Qu} {e : Ev}
    (o : Rep caps w) (h : (w.qu q).abs.step q e = some (f (w.qu q)).abs)
    (hne : ∀ q', q' ≠ q → ∀ a : Abs, a.step q' e = some a) : Rep caps ((w.setQu q f).ev e) := by
  intro q'
  rw [ev_log, setQu_log, replay_snoc, o q', Option.bind_some]
  by_cases e' : q' = q
  · subst e'; rw [h, ev_qu, setQu_self]
  · rw [hne q' e', ev_qu, setQu_ne _ _ e']

theorem Rep.other {caps : Nat → Option Nat} {w w' : World} (o : Rep caps w) (hq : w'.qu = w.qu)
    {e : Ev} (hl : w'.log = w.log ++ [e]) (he : ∀ q a, Abs.step q a e = some a) : Rep caps w' := by
  intro q
  rw [hl, replay_snoc, o q, hq, Option.bind_some, he]

theorem Prim.rep {caps : Nat → Option Nat} {t : Nat} {w w1 : World} (p : Prim t w w1)
    (g : PcOk w.ow w.qu t (w.th t).pc) (o : Rep caps w) : Rep caps w1 := by
  cases p with
  | none => exact o
  | acquire m h => exact o.other rfl rfl fun _ _ => rfl
  | reclaim m x h hx => exact o
  | release m h => exact o.other rfl rfl fun _ _ => rfl
  | enlist m x h hx => exact o
  | wakeMx m x xs h => intro q; rw [wake_log, wake_qu]; exact o q
  | cvAdd c => exact o
  | wakeCv c x xs h => intro q; rw [wake_log, wake_qu]; exact o q
  | ins q v hb hc hr =>
    refine o.change ?_ fun q' h a => ?_
    · have : (w.qu q).abs.fits = true := by
        unfold Qu.room at hr; unfold Abs.fits Qu.abs
        cases e : (w.qu q).max <;> simp [e] at hr ⊢; exact hr
      simp only [Abs.step, if_true, this]
      simp [Qu.abs, hc]
    · simp [Abs.step, Ne.symm h]
  | took q op hp =>
    refine o.change ?_ fun q' h a => ?_
    · have := g.take q op hp
      simp only [Abs.step, if_true]
      cases e : (w.qu q).items with
      | nil => exact (this e).elim
      | cons x xs => simp [Qu.abs, e]
    · simp [Abs.step, Ne.symm h]
  | cleared q op _ => exact o.change (by simp [Abs.step, Qu.abs]) fun q' h a => by simp [Abs.step, Ne.symm h]
  | closed q _ => exact o.change (by simp [Abs.step, Qu.abs]) fun q' h a => by simp [Abs.step, Ne.symm h]
  | resized q n old _ _ =>
    exact o.change (by simp [Abs.step, Qu.abs]) fun q' h a => by simp [Abs.step, Ne.symm h]

theorem step_rep {caps : Nat → Option Nat} {w w' : World} {a : Act} (g : Good w)
    (o : Rep caps w) (h : w.step a = some w') : Rep caps w' := by
  cases step_moves h with
  | by_ t w1 w' ht p l => exact l.rep (p.rep (g.ok t) o)
  | ends t hp hs => exact o.other rfl rfl fun _ _ => rfl

theorem init_rep (caps : Nat → Option Nat) : Rep caps (init caps) := fun _ => rfl

/-! ## What a call returns -/

def WaitK.qop : WaitK → Option (Nat × QOp)
  | .user => none
  | .queue q op => some (q, op)

def SleepK.qop : SleepK → Option (Nat × QOp)
  | .user => none
  | .wait _ k => k.qop

def LockK.qop : LockK → Option (Nat × QOp)
  | .user => none
  | .resleep _ k => k.qop
  | .queue q op => some (q, op)

def UnlockK.qop : UnlockK → Option (Nat × QOp)
  | .user => none
  | .sleep _ k => k.qop
  | .queue q op _ => some (q, op)

def CastK.qop : CastK → Option (Nat × QOp)
  | .user => none
  | .queue q op _ _ => some (q, op)

def SigK.qop : SigK → Option (Nat × QOp)
  | .direct k => k.qop
  | .bcast _ k => k.qop

/-- The method of a queue that is being executed. -/
def Pc.qop : Pc → Option (Nat × QOp)
  | .lock _ _ k => k.qop
  | .unlock _ _ k => k.qop
  | .sleep _ _ _ k => k.qop
  | .wait _ _ _ k => k.qop
  | .signal _ _ k => k.qop
  | .bcast _ _ k => k.qop
  | .queue q op _ => some (q, op)
  | _ => none

def Call.qop : Call → Option (Nat × QOp)
  | .queue q op => some (q, op)
  | _ => none

def CastK.carry : CastK → Option Res
  | .user => none
  | .queue _ _ _ r => some r

def SigK.carry : SigK → Option Res
  | .direct k => k.carry
  | .bcast _ k => k.carry

def UnlockK.carry : UnlockK → Option Res
  | .queue _ _ r => some r
  | _ => none

/-- The outcome of the method that is being executed, once it is settled. -/
def Pc.carry : Pc → Option Res
  | .unlock _ _ k => k.carry
  | .signal _ _ k => k.carry
  | .bcast _ _ k => k.carry
  | _ => none

/-- Errors raised by queues themselves. -/
def Exc.isQ : Exc → Bool
  | .closed | .empty | .full => true
  | _ => false

def calmE : Option Exc → Prop
  | none => True
  | some e => e.isQ = false

def LockK.calm : LockK → Prop
  | .resleep e _ => calmE e
  | _ => True

def Pc.calm : Pc → Prop
  | .lock _ _ k => k.calm
  | .sleep _ _ (.relock e) _ => calmE e
  | _ => True

/-- Everything is possible for other calls than those of queues, and errors from outside are possible. -/
structure Adm (c : Call) (G : Res → Prop) : Prop where
  user : c.qop = none → ∀ r, G r
  exc : ∀ e, e.isQ = false → G (.exc e)

/-- `t` goes on with its call `c`, or the call has ended, with an outcome in `G`. -/
def Out (t : Nat) (c : Call) (log : List Ev) (w' : World) (G : Res → Prop) : Prop :=
  (w'.log = log ∧ (w'.th t).call = some c ∧ (w'.th t).pc ≠ .user ∧ (w'.th t).pc.qop = c.qop ∧
    (w'.th t).pc.calm ∧ ∀ r, (w'.th t).pc.carry = some r → G r) ∨
  (∃ r, w'.log = log ++ [.ret t c r] ∧ (w'.th t).call = none ∧ (w'.th t).pc = .user ∧ G r)

variable {w : World} {t : Nat} {c : Call} {G : Res → Prop} {d : Choice}

theorem out_retUser {r : Res} (hc : (w.th t).call = some c) (h : G r) :
    Out t c w.log (w.retUser t r) G := by
  refine .inr ⟨r, ?_⟩
  simp [World.retUser, hc, h]

theorem out_setPc {pc : Pc} (hc : (w.th t).call = some c) (h1 : pc ≠ .user) (h2 : pc.qop = c.qop)
    (h3 : pc.calm) (h4 : ∀ r, pc.carry = some r → G r) : Out t c w.log (w.setPc t pc) G := by
  refine .inl ?_
  unfold World.setPc
  rw [setTh_self]
  exact ⟨rfl, hc, h1, h2, h3, h4⟩

theorem out_leave {q : Nat} {op : QOp} {r : Res} (hc : (w.th t).call = some c)
    (hq : c.qop = some (q, op)) (h : G r) : Out t c w.log (w.leave t q op r) G :=
  out_setPc hc (by simp) hq.symm trivial (by rintro _ ⟨⟩; exact h)

theorem out_post {q : Nat} {op : QOp} {r : Res} (hc : (w.th t).call = some c)
    (hq : c.qop = some (q, op)) (h : G r) (l : List Post) : Out t c w.log (w.post t q op r l) G := by
  unfold World.post
  split
  · exact out_leave hc hq h
  · exact out_setPc hc (by simp) hq.symm trivial (by rintro _ ⟨⟩; exact h)
  · exact out_setPc hc (by simp) hq.symm trivial (by rintro _ ⟨⟩; exact h)

theorem out_retWait {ci : CId} {r : Res} {k : WaitK} (hc : (w.th t).call = some c)
    (hq : k.qop = c.qop) (a : Adm c G) (he : ∀ e, r = .exc e → e.isQ = false) :
    Out t c w.log (w.retWait t ci r k) G := by
  unfold World.retWait
  cases k with
  | user =>
    simp only
    split
    · exact out_retUser (w := w.setCv ci _) hc (a.user hq.symm _)
    · exact out_retUser (w := w.setCv ci _) hc (a.user hq.symm _)
  | queue q op =>
    simp only
    split
    · exact out_leave (w := w.setCv ci _) hc hq.symm (a.exc _ (he _ rfl))
    · exact out_setPc (w := w.setCv ci _) hc (by simp) hq trivial (by rintro _ ⟨⟩)

theorem out_retSleep {r : Res} {k : SleepK} (hc : (w.th t).call = some c)
    (hq : k.qop = c.qop) (a : Adm c G) (he : ∀ e, r = .exc e → e.isQ = false) :
    Out t c w.log (w.retSleep t r k) G := by
  unfold World.retSleep
  cases k with
  | user => exact out_retUser hc (a.user hq.symm _)
  | wait ci k => exact out_retWait hc hq a he

theorem out_retLock {r : Res} {k : LockK} (hc : (w.th t).call = some c)
    (hq : k.qop = c.qop) (hk : k.calm) (a : Adm c G) (he : ∀ e, r = .exc e → e.isQ = false) :
    Out t c w.log (w.retLock t d r k) G := by
  unfold World.retLock
  cases k with
  | user => exact out_retUser hc (a.user hq.symm _)
  | queue q op =>
    simp only
    split
    · exact out_retUser hc (a.exc _ (he _ rfl))
    · exact out_setPc hc (by simp) hq trivial (by rintro _ ⟨⟩)
  | resleep e k =>
    simp only
    have hc' : ∀ f : Th → Th, (∀ x, (f x).call = x.call) → ((w.setTh t f).th t).call = some c := by
      intro f hf; simp [hf, hc]
    split_ifs
    · refine out_retSleep (w := ((w.setTh t _).takeIntr t)) (by simpa [World.takeIntr] using hc) hq a ?_
      rintro _ ⟨⟩; rfl
    · split
      · exact out_retSleep (w := w.setTh t _) (by simpa using hc) hq a (by rintro _ ⟨⟩; exact he _ rfl)
      · refine out_retSleep (w := w.setTh t _) (by simpa using hc) hq a ?_
        intro e' h'
        cases e with
        | none => cases h'
        | some e => cases h'; exact hk

theorem out_wokeLock {m : MId} {e : Option Exc} {k : LockK} (hc : (w.th t).call = some c)
    (hq : k.qop = c.qop) (hk : k.calm) (a : Adm c G) (he : calmE e) :
    Out t c w.log (w.wokeLock t m d e k) G := by
  unfold World.wokeLock
  cases e with
  | none => exact out_setPc (w := w.setMx m _) hc (by simp) hq hk (by rintro _ ⟨⟩)
  | some e => exact out_retLock (w := w.setMx m _) hc hq hk a (by rintro _ ⟨⟩; exact he)

theorem out_wokeSleep {m : MId} {timed : Bool} {e : Option Exc} {k : SleepK}
    (hc : (w.th t).call = some c) (hq : k.qop = c.qop) (he : calmE e) :
    Out t c w.log (w.wokeSleep t m timed e k) G := by
  refine .inl ?_
  unfold World.wokeSleep
  rw [setTh_self]
  exact ⟨rfl, hc, by simp, hq, he, by rintro _ ⟨⟩⟩

theorem out_parkLock {m : MId} {k : LockK} (hc : (w.th t).call = some c)
    (hq : k.qop = c.qop) (hk : k.calm) (a : Adm c G) :
    Out t c w.log (w.parkLock t m d k) G := by
  unfold World.parkLock
  split_ifs
  · exact out_wokeLock (w := w.takeIntr t) (by simpa [World.takeIntr] using hc) hq hk a rfl
  · exact out_wokeLock (w := w.setTh t _) (by simpa using hc) hq hk a trivial
  · refine .inl ?_
    rw [setTh_self]
    exact ⟨rfl, hc, by simp, hq, hk, by rintro _ ⟨⟩⟩

theorem out_parkSleep {m : MId} {timed : Bool} {k : SleepK} (hc : (w.th t).call = some c)
    (hq : k.qop = c.qop) : Out t c w.log (w.parkSleep t m timed d k) G := by
  unfold World.parkSleep
  split_ifs
  · exact out_wokeSleep (w := w.takeIntr t) (by simpa [World.takeIntr] using hc) hq rfl
  · exact out_wokeSleep (w := w.setTh t _) (by simpa using hc) hq trivial
  · refine .inl ?_
    rw [setTh_self]
    exact ⟨rfl, hc, by simp, hq, trivial, by rintro _ ⟨⟩⟩

theorem out_parkNap {timed : Bool} (hc : (w.th t).call = some c) (hq : c.qop = none) (a : Adm c G) :
    Out t c w.log (w.parkNap t timed d) G := by
  unfold World.parkNap
  split_ifs
  · exact out_retUser (w := w.takeIntr t) (by simpa [World.takeIntr] using hc) (a.user hq _)
  · exact out_retUser (w := w.setTh t _) (by simpa using hc) (a.user hq _)
  · refine .inl ?_
    rw [setTh_self]
    exact ⟨rfl, hc, by simp, hq.symm, trivial, by rintro _ ⟨⟩⟩

theorem out_retUnlock {m : MId} {r : Res} {k : UnlockK} (hc : (w.th t).call = some c)
    (hq : k.qop = c.qop) (a : Adm c G) (he : ∀ e, r = .exc e → e.isQ = false)
    (hk : ∀ r, k.carry = some r → G r) : Out t c w.log (w.retUnlock t m d r k) G := by
  unfold World.retUnlock
  cases k with
  | user => exact out_retUser hc (a.user hq.symm _)
  | sleep timed k =>
    simp only
    split
    · exact out_retSleep hc hq a (by rintro _ ⟨⟩; exact he _ rfl)
    · exact out_parkSleep hc hq
  | queue q op r' =>
    simp only
    split
    · exact out_retUser hc (a.exc _ (he _ rfl))
    · exact out_retUser hc (hk _ rfl)

theorem out_retCast {r : Res} {k : CastK} (hc : (w.th t).call = some c)
    (hq : k.qop = c.qop) (a : Adm c G) (he : ∀ e, r = .exc e → e.isQ = false)
    (hk : ∀ r, k.carry = some r → G r) : Out t c w.log (w.retCast t r k) G := by
  unfold World.retCast
  cases k with
  | user => exact out_retUser hc (a.user hq.symm _)
  | queue q op todo r' =>
    simp only
    split
    · exact out_leave hc hq.symm (a.exc _ (he _ rfl))
    · exact out_post hc hq.symm (hk _ rfl) _

theorem out_retSignal {r : Res} {k : SigK} (hc : (w.th t).call = some c)
    (hq : k.qop = c.qop) (a : Adm c G) (he : ∀ e, r = .exc e → e.isQ = false)
    (hk : ∀ r, k.carry = some r → G r) : Out t c w.log (w.retSignal t r k) G := by
  unfold World.retSignal
  cases k with
  | direct k => exact out_retCast hc hq a he hk
  | bcast ci k =>
    simp only
    split
    · exact out_retCast hc hq a (by rintro _ ⟨⟩; exact he _ rfl) hk
    · exact out_setPc hc (by simp) hq trivial hk

theorem out_raiseAt (hc : (w.th t).call = some c) (hp : (w.th t).pc ≠ .user)
    (hq : (w.th t).pc.qop = c.qop) (hk : (w.th t).pc.calm) (a : Adm c G)
    (hG : ∀ r, (w.th t).pc.carry = some r → G r) : Out t c w.log (w.raiseAt t d) G := by
  have hi : ∀ e, Res.exc Exc.interrupt = .exc e → e.isQ = false := by rintro _ ⟨⟩; rfl
  unfold World.raiseAt
  split <;> rename_i e
  · exact (hp e).elim
  · exact out_retUser hc (a.exc _ rfl)
  · exact out_retUser hc (a.exc _ rfl)
  all_goals
    rw [e] at hq hk hG
    first
    | exact out_wokeLock hc hq hk a rfl
    | exact out_retLock hc hq hk a hi
    | exact out_retUnlock hc hq a hi hG
    | exact out_wokeSleep hc hq rfl
    | exact out_retSleep hc hq a hi
    | exact out_retSignal hc hq a hi hG
    | exact out_retCast hc hq a hi hG
    | exact out_leave hc hq.symm (a.exc _ rfl)
    | exact out_retUser hc (a.exc _ rfl)

/-- The outcomes a method of a queue may have, in view of whether the queue is closed. -/
def Told (closed : Prop) (op : QOp) : Res → Prop
  | .ok none => match op with
    | .pop _ timed => timed = true ∨ closed
    | .push _ _ timed => timed = true
    | _ => False
  | .ok (some _) => ∃ nb timed, op = .pop nb timed
  | .self => ∀ nb timed, op ≠ .pop nb timed
  | .bool _ => False
  | .exc .closed => (∃ v nb timed, op = .push v nb timed) ∧ closed
  | .exc .empty => ∃ timed, op = .pop true timed
  | .exc .full => ∃ v timed, op = .push v true timed
  | .exc _ => True

/-- An outcome that can be settled in a step of `c` without a change of the queue. -/
def Idle (w : World) (t : Nat) (c : Call) (r : Res) : Prop :=
  c.qop = none ∨ (∃ e, r = .exc e ∧ e.isQ = false) ∨ (w.th t).pc.carry = some r ∨
  ∃ q op, c = .queue q op ∧ Told ((w.qu q).closed = true) op r ∧ (∀ v, r ≠ .ok (some v)) ∧
    (r = .self → ∀ v nb timed, op ≠ .push v nb timed)

/-- What a step of `c` adds to the log before the return of the call, and the outcomes it can settle. -/
inductive Eff (w : World) (t : Nat) (c : Call) : List Ev → (Res → Prop) → Prop
  | idle (l : List Ev) (h : ∀ e ∈ l, (∃ m, e = .got t m) ∨ (∃ m, e = .gave t m)) :
    Eff w t c l (Idle w t c)
  | took (q v : Nat) (nb timed : Bool) (hc : c = .queue q (.pop nb timed)) :
    Eff w t c [.took t q (some v)] (fun r => (∃ e, r = .exc e ∧ e.isQ = false) ∨ r = .ok (some v))
  | ins (q v : Nat) (nb timed : Bool) (hc : c = .queue q (.push v nb timed)) :
    Eff w t c [.ins t q v] (fun r => (∃ e, r = .exc e ∧ e.isQ = false) ∨ r = .self)
  | change (q : Nat) (op : QOp) (e : Ev) (hc : c = .queue q op)
    (he : e = .cleared q ∨ e = .closed q ∨ ∃ n, e = .resized q n)
    (h1 : ∀ nb timed, op ≠ .pop nb timed) (h2 : ∀ v nb timed, op ≠ .push v nb timed) :
    Eff w t c [e] (fun r => (∃ e, r = .exc e ∧ e.isQ = false) ∨ r = .self)

theorem adm_idle : Adm c (Idle w t c) where
  user h r := .inl h
  exc e h := .inr (.inl ⟨e, rfl, h⟩)

theorem Call.of_qop {c : Call} {q : Nat} {op : QOp} (h : c.qop = some (q, op)) : c = .queue q op := by
  cases c <;> simp [Call.qop] at h
  obtain ⟨rfl, rfl⟩ := h; rfl

def Going (w : World) (t : Nat) (c : Call) (w' : World) : Prop :=
  ∃ l G, Eff w t c l G ∧ Out t c (w.log ++ l) w' G

theorem Going.quiet {w' : World} (h : Out t c w.log w' (Idle w t c)) : Going w t c w' :=
  ⟨[], _, .idle [] (by simp), by simpa using h⟩

theorem going_insert {q v : Nat} {nb timed : Bool} (hc : (w.th t).call = some c)
    (hq : c.qop = some (q, .push v nb timed)) :
    Going w t c (w.insert t q (.push v nb timed) v) :=
  ⟨_, _, .ins q v nb timed (Call.of_qop hq),
    out_post (w := (w.setQu q _).ev (.ins t q v)) hc hq (.inr rfl) _⟩

theorem going_loop {q : Nat} {op : QOp} {r : Res} (hc : (w.th t).call = some c)
    (hq : c.qop = some (q, op)) (h : Told ((w.qu q).closed = true) op r) (h1 : ∀ v, r ≠ .ok (some v))
    (h2 : r = .self → ∀ v nb timed, op ≠ .push v nb timed) : Going w t c (w.leave t q op r) :=
  .quiet (out_leave hc hq (.inr (.inr (.inr ⟨q, op, Call.of_qop hq, h, h1, h2⟩))))

theorem go_going (g : PcOk w.ow w.qu t (w.th t).pc) (hc : (w.th t).call = some c)
    (hp : (w.th t).pc ≠ .user) (hq : (w.th t).pc.qop = c.qop) (hk : (w.th t).pc.calm) :
    Going w t c (w.go t d) := by
  have a : Adm c (Idle w t c) := adm_idle
  have hG : ∀ r, (w.th t).pc.carry = some r → Idle w t c r := fun r h => .inr (.inr (.inl h))
  have hi : ∀ e, Res.self = .exc e → e.isQ = false := by rintro _ ⟨⟩
  unfold World.go
  split <;> rename_i e
  · exact (hp e).elim
  · rw [e] at hq; exact .quiet (out_retUser hc (a.user hq.symm _))
  · next m =>
    rw [e] at hq
    unfold World.tryOwn
    cases (w.mx m).owner with
    | none =>
      exact ⟨[.got t m], _, .idle _ (by simp),
        out_retUser (w := (w.setMx m _).ev (.got t m)) hc (a.user hq.symm _)⟩
    | some o => exact .quiet (out_retUser hc (a.user hq.symm _))
  · next m at_ k =>
    rw [e] at hq hk
    unfold World.stepLock
    split
    · split_ifs
      · exact .quiet (out_retLock hc hq hk a (by rintro _ ⟨⟩; rfl))
      · exact .quiet (out_setPc hc (by simp) hq hk (by rintro _ ⟨⟩))
    · exact .quiet (out_setPc hc (by simp) hq hk (by rintro _ ⟨⟩))
    · unfold World.stepTry World.tryOwn
      cases eo : (w.mx m).owner with
      | none =>
        exact ⟨[.got t m], _, .idle _ (by simp),
          out_retLock (w := (w.setMx m _).ev (.got t m)) hc hq hk a hi⟩
      | some o =>
        simp only
        split_ifs
        · exact .quiet (out_parkLock (w := w.setMx m _) hc hq hk a)
        · exact .quiet (out_setPc (w := w.setMx m _) hc (by simp) hq hk (by rintro _ ⟨⟩))
    · exact .quiet (out_wokeLock hc hq hk a trivial)
  · next m loop k =>
    rw [e] at hq hG
    unfold World.stepUnlock
    split_ifs
    · split
      · exact .quiet (out_retUnlock hc hq a hi hG)
      · next x xs ew =>
        simp only
        split_ifs with ha
        · refine .quiet ?_
          have hw : ((w.setMx m fun y => { y with waiters := xs }).wake x).log = w.log := wake_log ..
          rw [← hw]
          refine out_retUnlock ?_ hq a hi hG
          rw [wake_call]; exact hc
        · exact .quiet (out_setPc (w := w.setMx m _) hc (by simp) hq trivial hG)
    · split
      · exact .quiet (out_retUnlock hc hq a (by rintro _ ⟨⟩; rfl) hG)
      · split_ifs
        · exact ⟨[.gave t m], _, .idle _ (by simp),
            out_setPc (w := (w.setMx m _).ev (.gave t m)) hc (by simp) hq trivial hG⟩
        · exact .quiet (out_retUnlock hc hq a (by rintro _ ⟨⟩; rfl) hG)
  · next m timed at_ k =>
    rw [e] at hq hk
    unfold World.stepSleep
    split
    · exact .quiet (out_setPc hc (by simp) hq trivial (by rintro _ ⟨⟩))
    · split_ifs
      · exact .quiet (out_setPc hc (by simp) hq trivial (by rintro _ ⟨⟩))
      · exact .quiet (out_retSleep hc hq a (by rintro _ ⟨⟩; rfl))
    · exact .quiet (out_wokeSleep hc hq trivial)
    · exact .quiet (out_setPc hc (by simp) hq hk (by rintro _ ⟨⟩))
  · next ci m timed k =>
    rw [e] at hq
    exact .quiet (out_setPc (w := w.setCv ci _) hc (by simp) hq trivial (by rintro _ ⟨⟩))
  · next ci loop k =>
    rw [e] at hq hG
    unfold World.stepSignal
    split_ifs
    · split
      · exact .quiet (out_retSignal hc hq a hi hG)
      · next x xs ew =>
        simp only
        split_ifs with ha
        · refine .quiet ?_
          have hw : ((w.setCv ci xs).wake x).log = w.log := wake_log ..
          rw [← hw]
          refine out_retSignal ?_ hq a hi hG
          rw [wake_call]; exact hc
        · exact .quiet (out_setPc (w := w.setCv ci _) hc (by simp) hq trivial hG)
    · exact .quiet (out_setPc hc (by simp) hq trivial hG)
  · next ci loop k =>
    rw [e] at hq hG
    unfold World.stepCast
    split_ifs
    · split
      · exact .quiet (out_retCast hc hq a hi hG)
      · exact .quiet (out_setPc hc (by simp) hq trivial hG)
    · exact .quiet (out_setPc hc (by simp) hq trivial hG)
  · next q op at_ =>
    have hw := g.wf
    rw [e] at hq hw
    have hq' : c.qop = some (q, op) := hq.symm
    have ec : c = .queue q op := Call.of_qop hq'
    unfold World.stepQueue
    split
    · exact .quiet (out_setPc hc (by simp) hq trivial (by rintro _ ⟨⟩))
    · exact .quiet (out_setPc hc (by simp) hq trivial (by rintro _ ⟨⟩))
    · unfold World.stepBody
      split
      · exact .quiet (out_setPc hc (by simp) hq trivial (by rintro _ ⟨⟩))
      · split
        · exact .quiet (out_setPc hc (by simp) hq trivial (by rintro _ ⟨⟩))
        · split_ifs with hcl
          · exact going_loop hc hq' ⟨⟨_, _, _, rfl⟩, hcl⟩ (by simp) (by simp)
          · exact going_insert hc hq'
      · exact ⟨_, _, .change q .clear (.cleared q) ec (by simp) (by simp) (by simp),
          out_post (w := (w.setQu q _).ev (.cleared q)) hc hq' (.inr rfl) _⟩
      · unfold World.doClose
        split_ifs
        · exact going_loop hc hq' (by simp [Told]) (by simp) (by simp)
        · exact ⟨_, _, .change q .close (.closed q) ec (by simp) (by simp) (by simp),
            out_post (w := (w.setQu q _).ev (.closed q)) hc hq' (.inr rfl) _⟩
        · exact ⟨_, _, .change q .close (.closed q) ec (by simp) (by simp) (by simp),
            out_post (w := (w.setQu q _).ev (.closed q)) hc hq' (.inr rfl) _⟩
      · next n =>
        unfold World.doSetMax
        split
        · exact going_loop hc hq' (by simp [Told]) (by simp) (by simp)
        · exact ⟨_, _, .change q (.setMax n) (.resized q n) ec (by simp) (by simp) (by simp),
            out_post (w := (w.setQu q _).ev (.resized q n)) hc hq' (.inr rfl) _⟩
    · split
      · next nb timed =>
        unfold World.popLoop
        split_ifs with h1 h2 h3 h4
        · exact .quiet (out_setPc hc (by simp) hq trivial (by rintro _ ⟨⟩))
        · subst h2
          exact going_loop hc hq' ⟨timed, rfl⟩ (by simp) (by simp)
        · exact going_loop hc hq' (.inr h3) (by simp) (by simp)
        · simp only [Bool.and_eq_true] at h4
          exact going_loop hc hq' (.inl h4.1) (by simp) (by simp)
        · exact .quiet (out_setPc hc (by simp) hq trivial (by rintro _ ⟨⟩))
      · next v nb timed =>
        unfold World.pushLoop
        split_ifs with h1 h2 h3 h4
        · exact going_loop hc hq' ⟨⟨v, nb, timed, rfl⟩, h1⟩ (by simp) (by simp)
        · exact going_insert hc hq'
        · subst h3
          exact going_loop hc hq' ⟨v, timed, rfl⟩ (by simp) (by simp)
        · simp only [Bool.and_eq_true] at h4
          exact going_loop hc hq' (by exact h4.1) (by simp) (by simp)
        · exact .quiet (out_setPc hc (by simp) hq trivial (by rintro _ ⟨⟩))
      · exact .quiet (.inl ⟨rfl, hc, hp, by rw [e]; exact hq, hk, hG⟩)
    · obtain ⟨nb, timed, rfl⟩ := hw
      have ht := g.take q _ e
      cases ei : (w.qu q).items with
      | nil => exact (ht ei).elim
      | cons v xs =>
        refine ⟨_, _, .took q v nb timed ec, ?_⟩
        unfold World.stepTake
        rw [ei]
        exact out_post (w := (w.setQu q _).ev (.took t q (some v))) hc hq' (.inr rfl) _

end Verif.Sync
