import Verif.Sync.Quiet
import Mathlib.Tactic.Common

/-!
# Runs without interrupts: positions, holders and waiters of mutexes
-/

namespace Verif.Sync

variable {w w' : World} {t : Nat}

/-- What a step of another thread can do to `u`. -/
structure Fr (x y : Th) : Prop where
  pc : y.pc = x.pc
  pending : y.pending = x.pending
  status : y.status = x.status ∨ ((∃ b, x.status = .parked b) ∧ y.status = .run)
  permit : x.permit = true → y.permit = true

theorem Fr.refl (x : Th) : Fr x x := ⟨rfl, rfl, .inl rfl, id⟩

theorem wake_fr (w : World) (x u : Nat) : Fr (w.th u) ((w.wake x).th u) := by
  by_cases e : u = x
  · subst e
    unfold World.wake
    split
    · exact .refl _
    · next b h => simp only [setTh_self]; exact ⟨rfl, rfl, .inr ⟨⟨b, h⟩, rfl⟩, id⟩
    · next h => simp only [setTh_self]; exact ⟨rfl, rfl, .inl rfl, fun _ => rfl⟩
  · rw [wake_ne w e]; exact .refl _

theorem Park.fr {m : MId} {timed : Bool} {k : SleepK} (p : Park t w m timed k w') {u : Nat} (e : u ≠ t) :
    w'.th u = w.th u := by
  cases p with
  | skip _ _ hto => rw [hto.th u e, setTh_ne _ _ e]
  | stop _ _ hto => rw [hto.th u e, setTh_ne _ _ e]

theorem Done.fr {m : MId} {k : UnlockK} (p : Done t w m k w') {u : Nat} (e : u ≠ t) :
    w'.th u = w.th u := by
  cases p with
  | over _ _ _ hto => rw [hto.th u e]
  | park _ _ _ p => exact p.fr e

theorem T.fr (h : T t w w') {u : Nat} (e : u ≠ t) : Fr (w.th u) (w'.th u) := by
  cases h with
  | unlPark m timed k h h0 w' p => rw [p.fr e]; exact .refl _
  | wakeMx m k x xs h h0 ha w' p => rw [p.fr e]; exact wake_fr (w.setMx m _) x u
  | wakeCv c k x xs h h0 ha w' hto => rw [hto.th u e]; exact wake_fr (w.setCv c xs) x u
  | enlist m k o h h0 hd w' hto => rw [hto.th u e, setTh_ne _ _ e]; exact .refl _
  | enskip m k o h h0 w' hto => rw [hto.th u e, setTh_ne _ _ e]; exact .refl _
  | acq m k h h0 w' hto =>
    rw [hto.th u e]
    cases k.drop <;> exact .refl _
  | tau _ _ _ hto => rw [hto.th u e]; exact .refl _
  | acqTry _ _ _ _ hto => rw [hto.th u e]; exact .refl _
  | reclaim _ _ _ _ _ _ _ hto => rw [hto.th u e]; exact .refl _
  | unlist _ _ _ _ hto => rw [hto.th u e]; exact .refl _
  | release _ _ _ _ _ hto => rw [hto.th u e]; exact .refl _
  | dropMx _ _ _ _ _ _ _ _ hto => rw [hto.th u e]; exact .refl _
  | cvAdd _ _ _ _ _ _ hto => rw [hto.th u e]; exact .refl _
  | dropCv _ _ _ _ _ _ _ _ hto => rw [hto.th u e]; exact .refl _
  | insBody _ _ _ _ _ _ _ _ hto => rw [hto.th u e]; exact .refl _
  | insLoop _ _ _ _ _ _ _ _ hto => rw [hto.th u e]; exact .refl _
  | took _ _ _ _ _ _ hto => rw [hto.th u e]; exact .refl _
  | clear _ _ _ hto => rw [hto.th u e]; exact .refl _
  | close _ _ _ hto => rw [hto.th u e]; exact .refl _
  | resize _ _ _ _ _ _ hto => rw [hto.th u e]; exact .refl _

/-! ## Positions -/

/-- A parked thread is inside `Thread.stop` or `sleep`. -/
def Stopped : Pc → Prop
  | .nap => True
  | .lock _ .stop _ => True
  | .sleep _ _ .stop _ => True
  | _ => False

structure Loc0 (x : Th) : Prop where
  pend : x.pending = 0
  parked : ∀ b, x.status = .parked b → Stopped x.pc
  calm : x.pc.calm0

theorem Fr.loc0 {x y : Th} (f : Fr x y) (h : Loc0 x) : Loc0 y where
  pend := f.pending.trans h.pend
  parked b hb := by
    rw [f.pc]
    obtain e | ⟨_, e⟩ := f.status
    · exact h.parked b (e ▸ hb)
    · rw [e] at hb; cases hb
  calm := f.pc ▸ h.calm

theorem calm_after (k : LockK) : k.after.calm0 := by
  unfold LockK.after; split <;> trivial

theorem calm_lock {m : MId} {k : LockK} {a b : LockAt} (h : (Pc.lock m a k).calm0) :
    (Pc.lock m b k).calm0 := by
  cases k <;> exact h

theorem calm_postPc (q : Nat) (op : QOp) (r : Res) (l : List Post) : (postPc q op r l).calm0 := by
  unfold postPc; split <;> trivial

theorem calm_cast (k : CastK) : k.after.calm0 := by
  cases k with
  | user => trivial
  | queue q op todo r => exact calm_postPc ..

theorem calm_sig (k : SigK) : k.after.calm0 := by
  cases k with
  | direct k => exact calm_cast k
  | bcast c k => trivial

theorem To.loc0 {pc : Pc} (h : To t w w' pc) (hp : (w.th t).pending = 0)
    (hs : (w.th t).status = .run ∨ Stopped pc) (hc : pc.calm0) : Loc0 (w'.th t) where
  pend := h.pending.trans hp
  parked b hb := by
    rw [h.status] at hb; rw [h.pc]
    obtain h1 | h1 := hs
    · rw [h1] at hb; cases hb
    · exact h1
  calm := by rw [h.pc]; exact hc

theorem Tau.calm {pc pc' : Pc} (h : Tau w t pc pc') (hc : pc.calm0) : pc'.calm0 := by
  cases h <;> first
    | trivial
    | exact calm_lock hc
    | exact calm_sig _
    | exact calm_cast _

theorem Park.loc0 {m : MId} {timed : Bool} {k : SleepK} (p : Park t w m timed k w')
    (hp : (w.th t).pending = 0) (hs : (w.th t).status = .run) : Loc0 (w'.th t) := by
  cases p with
  | skip _ _ hto => exact hto.loc0 (by simpa using hp) (.inl (by simpa using hs)) rfl
  | stop _ _ hto => exact hto.loc0 (by simpa using hp) (.inr trivial) trivial

theorem T.loc0 (h : T t w w') (l : Loc0 (w.th t)) (hs : (w.th t).status = .run) : Loc0 (w'.th t) := by
  have hp := l.pend
  have hc := l.calm
  cases h with
  | tau pc' h w' hto => exact hto.loc0 hp (.inl hs) (h.calm hc)
  | acqTry m h h0 w' hto => exact hto.loc0 hp (.inl hs) trivial
  | acq m k h h0 w' hto =>
    refine hto.loc0 ?_ (.inl ?_) (calm_after k)
    · cases k.drop <;> exact hp
    · cases k.drop <;> exact hs
  | reclaim m k o h h0 hd w' hto => rw [h] at hc; exact hto.loc0 hp (.inl hs) (calm_lock hc)
  | enlist m k o h h0 hd w' hto => rw [h] at hc; exact hto.loc0 (by simpa using hp) (.inr trivial) (calm_lock hc)
  | enskip m k o h h0 w' hto =>
    rw [h] at hc; exact hto.loc0 (by simpa using hp) (.inl (by simpa using hs)) (calm_lock hc)
  | unlist m k h w' hto => rw [h] at hc; exact hto.loc0 hp (.inl hs) (calm_lock hc)
  | release m k h h0 w' hto => exact hto.loc0 hp (.inl hs) trivial
  | unlPark m timed k h h0 w' p => exact p.loc0 hp hs
  | wakeMx m k x xs h h0 ha w' p =>
    have f := wake_fr (w.setMx m fun y => { y with waiters := xs }) x t
    have hp' := f.pending.trans hp
    have hs' : (((w.setMx m fun y => { y with waiters := xs }).wake x).th t).status = .run := by
      obtain e | ⟨⟨b, e⟩, _⟩ := f.status
      · exact e.trans hs
      · have e' : (w.th t).status = .parked b := e
        rw [hs] at e'; cases e'
    cases p with
    | over k hk w' hto => exact hto.loc0 hp' (.inl hs') trivial
    | park timed k w' p => exact p.loc0 hp' hs'
  | dropMx m k x xs h h0 ha w' hto => exact hto.loc0 hp (.inl hs) trivial
  | cvAdd c m timed k h w' hto => exact hto.loc0 hp (.inl hs) trivial
  | wakeCv c k x xs h h0 ha w' hto =>
    have f := wake_fr (w.setCv c xs) x t
    refine hto.loc0 (f.pending.trans hp) (.inl ?_) (calm_sig k)
    obtain e | ⟨⟨b, e⟩, _⟩ := f.status
    · exact e.trans hs
    · have e' : (w.th t).status = .parked b := e
      rw [hs] at e'; cases e'
  | dropCv c k x xs h h0 ha w' hto => exact hto.loc0 hp (.inl hs) trivial
  | insBody _ _ _ _ _ _ _ _ hto => exact hto.loc0 hp (.inl hs) (calm_postPc ..)
  | insLoop _ _ _ _ _ _ _ _ hto => exact hto.loc0 hp (.inl hs) (calm_postPc ..)
  | took _ _ _ _ _ _ hto => exact hto.loc0 hp (.inl hs) (calm_postPc ..)
  | clear _ _ _ hto => exact hto.loc0 hp (.inl hs) (calm_postPc ..)
  | close _ _ _ hto => exact hto.loc0 hp (.inl hs) (calm_postPc ..)
  | resize _ _ _ _ _ _ hto => exact hto.loc0 hp (.inl hs) (calm_postPc ..)

/-! ## Who holds the mutex of a queue -/

/-- What a step of `t` does to owners. -/
inductive OwnS (t : Nat) (w w' : World) : Prop
  | same (h : ∀ m, (w'.mx m).owner = (w.mx m).owner) (hh : ∀ q, Has q (w'.th t).pc ↔ Has q (w.th t).pc)
  | acq (m : MId) (h0 : (w.mx m).owner = none) (h1 : (w'.mx m).owner = some t)
    (h : ∀ m', m' ≠ m → (w'.mx m').owner = (w.mx m').owner) (hh : ∀ q, ¬ Has q (w.th t).pc)
    (hh' : ∀ q, Has q (w'.th t).pc ↔ m = .queue q)
  | rel (m : MId) (h0 : (w.mx m).owner = some t) (h1 : (w'.mx m).owner = none)
    (h : ∀ m', m' ≠ m → (w'.mx m').owner = (w.mx m').owner)
    (hh : ∀ q, Has q (w.th t).pc → m = .queue q) (hh' : ∀ q, ¬ Has q (w'.th t).pc)
  | reclaim (m : MId) (o : Nat) (h0 : (w.mx m).owner = some o) (hd : (w.th o).status = .dead)
    (h1 : (w'.mx m).owner = none) (h : ∀ m', m' ≠ m → (w'.mx m').owner = (w.mx m').owner)
    (hh : ∀ q, ¬ Has q (w.th t).pc) (hh' : ∀ q, ¬ Has q (w'.th t).pc)

theorem has_lock {q : Nat} {m : MId} {a : LockAt} {k : LockK} : ¬ Has q (.lock m a k) := by
  rintro (h | ⟨k', h⟩)
  · exact h.elim
  · cases h

theorem has_unlockLoop {q : Nat} {m : MId} {k : UnlockK} : ¬ Has q (.unlock m true k) := by
  rintro (h | ⟨k', h⟩)
  · cases m <;> cases k <;> exact h.elim
  · cases h

theorem has_unlock {q : Nat} {m : MId} {k : UnlockK} : Has q (.unlock m false k) ↔ m = .queue q := by
  constructor
  · rintro (h | ⟨k', h⟩)
    · cases m with
      | user m => cases k <;> exact h.elim
      | queue q' => cases k with
        | sleep timed k => exact congrArg _ h
        | _ => exact h.elim
    · cases h; rfl
  · rintro rfl; exact .inr ⟨k, rfl⟩

theorem has_other {q : Nat} {pc : Pc} (h : ∀ m k, pc ≠ .unlock m false k) : Has q pc ↔ Bel q pc := by
  constructor
  · rintro (h' | ⟨k, h'⟩)
    · exact h'
    · exact (h _ _ h').elim
  · exact .inl

theorem has_user {q : Nat} : ¬ Has q .user := by
  rw [has_other (by simp)]; exact id

theorem has_postPc {q q' : Nat} {op : QOp} {r : Res} {l : List Post} :
    Has q' (postPc q op r l) ↔ q = q' := by
  unfold postPc
  split
  · rw [has_unlock]; simp
  · rw [has_other (by simp)]; rfl
  · rw [has_other (by simp)]; rfl

theorem has_cast {q : Nat} {k : CastK} : Has q k.after ↔ k.isQ q := by
  cases k with
  | user => exact ⟨fun h => (has_user h).elim, fun h => h.elim⟩
  | queue q' op todo r => exact has_postPc

theorem has_sig {q : Nat} {k : SigK} : Has q k.after ↔ k.isQ q := by
  cases k with
  | direct k => exact has_cast
  | bcast c k => exact has_other (by simp [SigK.after])

theorem has_after {q : Nat} {m : MId} {k : LockK} (hk : k.ok m) : Has q k.after ↔ m = .queue q := by
  cases k with
  | user =>
    refine ⟨fun h => (has_user h).elim, ?_⟩
    rintro rfl; exact hk.elim
  | queue q' op =>
    obtain rfl := hk
    rw [LockK.after, has_other (by simp)]
    simp [Bel]
  | resleep e k => cases k with
    | user =>
      refine ⟨fun h => (has_user h).elim, ?_⟩
      rintro rfl; exact hk.elim
    | wait c k => cases k with
      | user =>
        refine ⟨fun h => (has_user h).elim, ?_⟩
        rintro rfl; exact hk.1.elim
      | queue q' op =>
        obtain ⟨rfl, _⟩ := hk
        rw [LockK.after, has_other (by simp)]
        simp [Bel]

theorem Tau.has {pc pc' : Pc} (h : Tau w t pc pc') (q : Nat) : Has q pc' ↔ Has q pc := by
  cases h with
  | nap => simp [has_user, has_other, Bel]
  | try_ m h => simp [has_user, has_other, Bel]
  | dead m k => simp [has_user, has_lock]
  | lockEnter m k h => simp [has_lock]
  | lockTry m k => simp [has_lock]
  | unlFail m k => simp [has_user, has_unlock]
  | unlDone m k hk h => simp [has_user, has_unlockLoop]
  | slEnter m timed k =>
    rw [has_other (by simp), has_other (by simp)]; cases m <;> rfl
  | slOwned m timed k h =>
    rw [has_unlock, has_other (by simp)]
    cases m <;> simp [Bel]
  | slFail m timed k => simp [has_user, has_other, Bel]
  | slWoke m timed k =>
    rw [has_other (by simp), has_other (by simp)]; cases m <;> rfl
  | relock m timed k =>
    simp only [has_lock]
    rw [has_other (by simp)]
    cases m <;> simp [Bel]
  | sigEnter c k => rw [has_other (by simp), has_other (by simp)]; rfl
  | sigNone c k h => rw [has_sig, has_other (by simp)]; rfl
  | castEnter c k => rw [has_other (by simp), has_other (by simp)]; rfl
  | castNone c k h => rw [has_cast, has_other (by simp)]; rfl
  | castSome c k h => rw [has_other (by simp), has_other (by simp)]; rfl
  | qEntry q op => rw [has_other (by simp), has_other (by simp)]; rfl
  | qSync q op => simp [has_lock, has_other, Bel]
  | qLoop q op h hm => rw [has_other (by simp), has_other (by simp)]; rfl
  | qLeave q' op r => rw [has_unlock, has_other (by simp)]; simp [Bel]
  | popTake q nb timed h => rw [has_other (by simp), has_other (by simp)]; rfl
  | popLeave q nb timed r h => rw [has_unlock, has_other (by simp)]; simp [Bel]
  | popWait q nb timed h hc => rw [has_other (by simp), has_other (by simp)]; rfl
  | pushLeave q v nb timed r h => rw [has_unlock, has_other (by simp)]; simp [Bel]
  | pushWait q v nb timed h hc => rw [has_other (by simp), has_other (by simp)]; rfl

theorem Park.not_has {m : MId} {timed : Bool} {k : SleepK} (p : Park t w m timed k w') (q : Nat) :
    ¬ Has q (w'.th t).pc := by
  cases p with
  | skip _ _ hto => rw [hto.pc, has_other (by simp)]; cases m <;> exact id
  | stop _ _ hto => rw [hto.pc, has_other (by simp)]; cases m <;> exact id

theorem Park.mx {m : MId} {timed : Bool} {k : SleepK} (p : Park t w m timed k w') : w'.mx = w.mx := by
  cases p with
  | skip _ _ hto => exact hto.mx
  | stop _ _ hto => exact hto.mx

theorem Done.not_has {m : MId} {k : UnlockK} (p : Done t w m k w') (q : Nat) : ¬ Has q (w'.th t).pc := by
  cases p with
  | over _ _ _ hto => rw [hto.pc]; exact has_user
  | park _ _ _ p => exact p.not_has q

theorem Done.mx {m : MId} {k : UnlockK} (p : Done t w m k w') : w'.mx = w.mx := by
  cases p with
  | over _ _ _ hto => exact hto.mx
  | park _ _ _ p => exact p.mx

theorem setMx_owner (w : World) {m m' : MId} (f : Mx → Mx) (hf : ∀ x, (f x).owner = x.owner) :
    ((w.setMx m f).mx m').owner = (w.mx m').owner := by
  by_cases e : m' = m
  · subst e; rw [setMx_self, hf]
  · rw [setMx_ne _ _ e]

theorem setMx_waiters (w : World) {m m' : MId} (f : Mx → Mx) (hf : ∀ x, (f x).waiters = x.waiters) :
    ((w.setMx m f).mx m').waiters = (w.mx m').waiters := by
  by_cases e : m' = m
  · subst e; rw [setMx_self, hf]
  · rw [setMx_ne _ _ e]

theorem dropCv_mx (w : World) (t : Nat) (o : Option CId) : (w.dropCv t o).mx = w.mx := by cases o <;> rfl
theorem dropCv_th (w : World) (t : Nat) (o : Option CId) : (w.dropCv t o).th = w.th := by cases o <;> rfl
theorem dropCv_qu (w : World) (t : Nat) (o : Option CId) : (w.dropCv t o).qu = w.qu := by cases o <;> rfl

theorem T.ownS (h : T t w w') (hw : (w.th t).pc.Wf) : OwnS t w w' := by
  cases h with
  | tau pc' h w' hto =>
    exact .same (fun m => by rw [hto.mx]) fun q => by rw [hto.pc]; exact h.has q
  | acqTry m h h0 w' hto =>
    rw [h] at hw
    refine .acq m h0 (by rw [hto.mx, setMx_self]) (fun m' e => by rw [hto.mx, setMx_ne _ _ e])
      (fun q => by rw [h, has_other (by simp)]; exact id) fun q => ?_
    rw [hto.pc]
    refine ⟨fun h => (has_user h).elim, ?_⟩
    rintro rfl; exact hw.elim
  | acq m k h h0 w' hto =>
    rw [h] at hw
    refine .acq m h0 (by rw [hto.mx, dropCv_mx, setMx_self])
      (fun m' e => by rw [hto.mx, dropCv_mx, setMx_ne _ _ e])
      (fun q => by rw [h]; exact has_lock) fun q => ?_
    rw [hto.pc]; exact has_after hw
  | reclaim m k o h h0 hd w' hto =>
    exact .reclaim m o h0 (by simpa [World.alive] using hd) (by rw [hto.mx, setMx_self])
      (fun m' e => by rw [hto.mx, setMx_ne _ _ e]) (fun q => by rw [h]; exact has_lock)
      (fun q => by rw [hto.pc]; exact has_lock)
  | enlist m k o h h0 hd w' hto =>
    exact .same (fun m' => by rw [hto.mx, setTh_mx, setMx_owner w (m := m) _ (by intro x; rfl)])
      fun q => by rw [hto.pc, h]; simp [has_lock]
  | enskip m k o h h0 w' hto =>
    exact .same (fun m' => by rw [hto.mx, setTh_mx, setMx_owner w (m := m) _ (by intro x; rfl)])
      fun q => by rw [hto.pc, h]; simp [has_lock]
  | unlist m k h w' hto =>
    exact .same (fun m' => by rw [hto.mx, setMx_owner w (m := m) _ (by intro x; rfl)])
      fun q => by rw [hto.pc, h]; simp [has_lock]
  | release m k h h0 w' hto =>
    exact .rel m h0 (by rw [hto.mx, setMx_self]) (fun m' e => by rw [hto.mx, setMx_ne _ _ e])
      (fun q => by rw [h, has_unlock]; exact id) (fun q => by rw [hto.pc]; exact has_unlockLoop)
  | unlPark m timed k h h0 w' p =>
    exact .same (fun m' => by rw [p.mx]) fun q => by
      rw [h]; exact ⟨fun h => (p.not_has q h).elim, fun h => (has_unlockLoop h).elim⟩
  | wakeMx m k x xs h h0 ha w' p =>
    exact .same (fun m' => by rw [p.mx, wake_mx, setMx_owner w (m := m) _ (by intro x; rfl)]) fun q => by
      rw [h]; exact ⟨fun h => (p.not_has q h).elim, fun h => (has_unlockLoop h).elim⟩
  | dropMx m k x xs h h0 ha w' hto =>
    exact .same (fun m' => by rw [hto.mx, setMx_owner w (m := m) _ (by intro x; rfl)]) fun q => by rw [h, hto.pc]
  | cvAdd c m timed k h w' hto =>
    refine .same (fun m' => by rw [hto.mx]; rfl) fun q => ?_
    rw [h, hto.pc, has_other (by simp), has_other (by simp)]; cases m <;> rfl
  | wakeCv c k x xs h h0 ha w' hto =>
    refine .same (fun m' => by rw [hto.mx, wake_mx]; rfl) fun q => ?_
    rw [h, hto.pc, has_sig, has_other (by simp)]; rfl
  | dropCv c k x xs h h0 ha w' hto =>
    exact .same (fun m' => by rw [hto.mx]; rfl) fun q => by rw [h, hto.pc]
  | insBody q v nb timed h _ _ w' hto =>
    refine .same (fun m' => by rw [hto.mx]; rfl) fun q' => ?_
    rw [h, hto.pc, has_postPc, has_other (by simp)]; rfl
  | insLoop q v nb timed h _ _ w' hto =>
    refine .same (fun m' => by rw [hto.mx]; rfl) fun q' => ?_
    rw [h, hto.pc, has_postPc, has_other (by simp)]; rfl
  | took q nb timed h _ w' hto =>
    refine .same (fun m' => by rw [hto.mx]; rfl) fun q' => ?_
    rw [h, hto.pc, has_postPc, has_other (by simp)]; rfl
  | clear q h w' hto =>
    refine .same (fun m' => by rw [hto.mx]; rfl) fun q' => ?_
    rw [h, hto.pc, has_postPc, has_other (by simp)]; rfl
  | close q h w' hto =>
    refine .same (fun m' => by rw [hto.mx]; rfl) fun q' => ?_
    rw [h, hto.pc, has_postPc, has_other (by simp)]; rfl
  | resize q n old h _ w' hto =>
    refine .same (fun m' => by rw [hto.mx]; rfl) fun q' => ?_
    rw [h, hto.pc, has_postPc, has_other (by simp)]; rfl

/-- The holder of a queue's mutex is where it is held. -/
def HasI (w : World) : Prop := ∀ q t, Has q (w.th t).pc ↔ (w.mx (.queue q)).owner = some t

theorem OwnS.hasI (o : OwnS t w w') (hd : ∀ u, (w.th u).status = .dead → (w.th u).pc = .user)
    (hpc : ∀ u, u ≠ t → (w'.th u).pc = (w.th u).pc) (h : HasI w) : HasI w' := by
  have ne : ∀ {m : MId} {q u : Nat}, u ≠ t →
      (∀ m', m' ≠ m → (w'.mx m').owner = (w.mx m').owner) → MId.queue q ≠ m →
      (Has q (w'.th u).pc ↔ (w'.mx (.queue q)).owner = some u) := by
    intro m q u e hm em
    rw [hpc u e, hm _ em]; exact h q u
  intro q u
  by_cases e : u = t
  · subst e
    cases o with
    | same ho hh => rw [hh, ho]; exact h q u
    | acq m h0 h1 ho hh hh' =>
      rw [hh']
      by_cases em : m = .queue q
      · subst em; simp [h1]
      · rw [ho _ (Ne.symm em), ← h q u]; simp [em, hh q]
    | rel m h0 h1 ho hh hh' =>
      by_cases em : m = .queue q
      · subst em; simp [h1, hh']
      · rw [ho _ (Ne.symm em), ← h q u]
        exact ⟨fun h => (hh' q h).elim, fun h => (em (hh q h)).elim⟩
    | reclaim m o h0 hdd h1 ho hh hh' =>
      by_cases em : m = .queue q
      · subst em; simp [h1, hh']
      · rw [ho _ (Ne.symm em), ← h q u]; simp [hh, hh']
  · cases o with
    | same ho hh => rw [hpc u e, ho]; exact h q u
    | acq m h0 h1 ho hh hh' =>
      by_cases em : m = .queue q
      · subst em
        rw [hpc u e, h1, h q u, h0]
        simp [Ne.symm e]
      · exact ne e ho (Ne.symm em)
    | rel m h0 h1 ho hh hh' =>
      by_cases em : m = .queue q
      · subst em
        rw [hpc u e, h1, h q u, h0]
        simp [Ne.symm e]
      · exact ne e ho (Ne.symm em)
    | reclaim m o h0 hdd h1 ho hh hh' =>
      by_cases em : m = .queue q
      · subst em
        rw [hpc u e, h1, h q u, h0]
        have : o ≠ u := by
          rintro rfl
          have := (h q o).2 h0
          rw [hd o hdd] at this
          exact has_user this
        simp [this]
      · exact ne e ho (Ne.symm em)

end Verif.Sync
