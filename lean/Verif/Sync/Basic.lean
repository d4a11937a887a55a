import Verif.Sync.Model
import Mathlib.Tactic.SplitIfs

/-!
# What the code after a return changes

`Loc t w w'`: from `w` to `w'` only thread `t` itself has changed, it may have been taken off lists of
waiters, and calls of `t` may have returned to the program.
-/

namespace Verif.Sync

@[simp] theorem setTh_self (w : World) (t : Nat) (f : Th → Th) : (w.setTh t f).th t = f (w.th t) := by
  simp [World.setTh]
theorem setTh_ne (w : World) {t u : Nat} (f : Th → Th) (h : u ≠ t) : (w.setTh t f).th u = w.th u := by
  simp [World.setTh, h]
@[simp] theorem setTh_mx (w : World) (t : Nat) (f : Th → Th) : (w.setTh t f).mx = w.mx := rfl
@[simp] theorem setTh_cv (w : World) (t : Nat) (f : Th → Th) : (w.setTh t f).cv = w.cv := rfl
@[simp] theorem setTh_qu (w : World) (t : Nat) (f : Th → Th) : (w.setTh t f).qu = w.qu := rfl
@[simp] theorem setTh_log (w : World) (t : Nat) (f : Th → Th) : (w.setTh t f).log = w.log := rfl
@[simp] theorem setMx_self (w : World) (m : MId) (f : Mx → Mx) : (w.setMx m f).mx m = f (w.mx m) := by
  simp [World.setMx]
theorem setMx_ne (w : World) {m m' : MId} (f : Mx → Mx) (h : m' ≠ m) :
    (w.setMx m f).mx m' = w.mx m' := by simp [World.setMx, h]
@[simp] theorem setMx_th (w : World) (m : MId) (f : Mx → Mx) : (w.setMx m f).th = w.th := rfl
@[simp] theorem setMx_cv (w : World) (m : MId) (f : Mx → Mx) : (w.setMx m f).cv = w.cv := rfl
@[simp] theorem setMx_qu (w : World) (m : MId) (f : Mx → Mx) : (w.setMx m f).qu = w.qu := rfl
@[simp] theorem setMx_log (w : World) (m : MId) (f : Mx → Mx) : (w.setMx m f).log = w.log := rfl
@[simp] theorem setCv_self (w : World) (c : CId) (l : List Nat) : (w.setCv c l).cv c = l := by
  simp [World.setCv]
theorem setCv_ne (w : World) {c c' : CId} (l : List Nat) (h : c' ≠ c) :
    (w.setCv c l).cv c' = w.cv c' := by simp [World.setCv, h]
@[simp] theorem setCv_th (w : World) (c : CId) (l : List Nat) : (w.setCv c l).th = w.th := rfl
@[simp] theorem setCv_mx (w : World) (c : CId) (l : List Nat) : (w.setCv c l).mx = w.mx := rfl
@[simp] theorem setCv_qu (w : World) (c : CId) (l : List Nat) : (w.setCv c l).qu = w.qu := rfl
@[simp] theorem setCv_log (w : World) (c : CId) (l : List Nat) : (w.setCv c l).log = w.log := rfl
@[simp] theorem setQu_self (w : World) (q : Nat) (f : Qu → Qu) : (w.setQu q f).qu q = f (w.qu q) := by
  simp [World.setQu]
theorem setQu_ne (w : World) {q q' : Nat} (f : Qu → Qu) (h : q' ≠ q) :
    (w.setQu q f).qu q' = w.qu q' := by simp [World.setQu, h]
@[simp] theorem setQu_th (w : World) (q : Nat) (f : Qu → Qu) : (w.setQu q f).th = w.th := rfl
@[simp] theorem setQu_mx (w : World) (q : Nat) (f : Qu → Qu) : (w.setQu q f).mx = w.mx := rfl
@[simp] theorem setQu_cv (w : World) (q : Nat) (f : Qu → Qu) : (w.setQu q f).cv = w.cv := rfl
@[simp] theorem setQu_log (w : World) (q : Nat) (f : Qu → Qu) : (w.setQu q f).log = w.log := rfl
@[simp] theorem ev_th (w : World) (e : Ev) : (w.ev e).th = w.th := rfl
@[simp] theorem ev_mx (w : World) (e : Ev) : (w.ev e).mx = w.mx := rfl
@[simp] theorem ev_cv (w : World) (e : Ev) : (w.ev e).cv = w.cv := rfl
@[simp] theorem ev_qu (w : World) (e : Ev) : (w.ev e).qu = w.qu := rfl
@[simp] theorem ev_log (w : World) (e : Ev) : (w.ev e).log = w.log ++ [e] := rfl

/-- `e` is a return of a call of `t`. -/
def IsRet (t : Nat) (e : Ev) : Prop := ∃ c r, e = .ret t c r

structure Loc (t : Nat) (w w' : World) : Prop where
  th : ∀ u, u ≠ t → w'.th u = w.th u
  owner : ∀ m, (w'.mx m).owner = (w.mx m).owner
  waiters : ∀ m, (w'.mx m).waiters = (w.mx m).waiters ∨
    (w'.mx m).waiters = (w.mx m).waiters.filter (· ≠ t)
  cv : ∀ c, w'.cv c = w.cv c ∨ w'.cv c = (w.cv c).filter (· ≠ t)
  qu : w'.qu = w.qu
  log : ∃ l, w'.log = w.log ++ l ∧ ∀ e ∈ l, IsRet t e
  dead : (w'.th t).status = .dead ↔ (w.th t).status = .dead

theorem Loc.refl (t : Nat) (w : World) : Loc t w w :=
  ⟨fun _ _ => rfl, fun _ => rfl, fun _ => .inl rfl, fun _ => .inl rfl, rfl,
    ⟨[], by simp, by simp⟩, .rfl⟩

theorem Loc.trans {t : Nat} {a b c : World} (h1 : Loc t a b) (h2 : Loc t b c) : Loc t a c where
  th u hu := (h2.th u hu).trans (h1.th u hu)
  owner m := (h2.owner m).trans (h1.owner m)
  waiters m := by
    rcases h1.waiters m with e | e <;> rcases h2.waiters m with e' | e' <;> rw [e', e] <;> simp
  cv m := by
    rcases h1.cv m with e | e <;> rcases h2.cv m with e' | e' <;> rw [e', e] <;> simp
  qu := h2.qu.trans h1.qu
  log := by
    obtain ⟨l, e, h⟩ := h1.log
    obtain ⟨l', e', h'⟩ := h2.log
    refine ⟨l ++ l', by rw [e', e, List.append_assoc], fun x hx => ?_⟩
    rcases List.mem_append.1 hx with hx | hx
    · exact h x hx
    · exact h' x hx
  dead := h2.dead.trans h1.dead

theorem Loc.setTh {t : Nat} {w : World} {f : Th → Th}
    (h : (f (w.th t)).status = .dead ↔ (w.th t).status = .dead) : Loc t w (w.setTh t f) :=
  ⟨fun u hu => setTh_ne w f hu, fun _ => rfl, fun _ => .inl rfl, fun _ => .inl rfl, rfl,
    ⟨[], by simp, by simp⟩, by simpa using h⟩

theorem Loc.setPc (t : Nat) (w : World) (pc : Pc) : Loc t w (w.setPc t pc) := Loc.setTh .rfl

theorem Loc.ret (t : Nat) (w : World) (c : Call) (r : Res) : Loc t w (w.ev (.ret t c r)) :=
  ⟨fun _ _ => rfl, fun _ => rfl, fun _ => .inl rfl, fun _ => .inl rfl, rfl,
    ⟨[.ret t c r], rfl, by simp [IsRet]⟩, .rfl⟩

theorem Loc.unwait (t : Nat) (w : World) (m : MId) :
    Loc t w (w.setMx m fun x => { x with waiters := x.waiters.filter (· ≠ t) }) :=
  ⟨fun _ _ => rfl, fun m' => by by_cases e : m' = m <;> simp [World.setMx, e],
    fun m' => by by_cases e : m' = m <;> simp [World.setMx, e],
    fun _ => .inl rfl, rfl, ⟨[], by simp, by simp⟩, .rfl⟩

theorem Loc.uncv (t : Nat) (w : World) (c : CId) :
    Loc t w (w.setCv c ((w.cv c).filter (· ≠ t))) :=
  ⟨fun _ _ => rfl, fun _ => rfl, fun _ => .inl rfl,
    fun c' => by by_cases e : c' = c <;> simp [World.setCv, e], rfl, ⟨[], by simp, by simp⟩, .rfl⟩

theorem loc_retUser (w : World) (t : Nat) (r : Res) : Loc t w (w.retUser t r) := by
  unfold World.retUser
  split
  · exact (Loc.ret t w _ r).trans (Loc.setTh .rfl)
  · exact Loc.setTh .rfl

theorem loc_leave (w : World) (t q : Nat) (op : QOp) (r : Res) : Loc t w (w.leave t q op r) :=
  Loc.setPc ..

theorem loc_post (w : World) (t q : Nat) (op : QOp) (r : Res) (k : List Post) :
    Loc t w (w.post t q op r k) := by
  unfold World.post
  split <;> first | exact loc_leave .. | exact Loc.setPc ..

theorem loc_retWait (w : World) (t : Nat) (c : CId) (r : Res) (k : WaitK) :
    Loc t w (w.retWait t c r k) := by
  refine (Loc.uncv t w c).trans ?_
  unfold World.retWait
  split <;> split <;> first | exact loc_retUser .. | exact loc_leave .. | exact Loc.setPc ..

theorem loc_retSleep (w : World) (t : Nat) (r : Res) (k : SleepK) :
    Loc t w (w.retSleep t r k) := by
  unfold World.retSleep
  split
  · exact loc_retUser ..
  · exact loc_retWait ..

theorem loc_takeIntr (w : World) (t : Nat) : Loc t w (w.takeIntr t) := Loc.setTh .rfl

theorem loc_retLock (w : World) (t : Nat) (d : Choice) (r : Res) (k : LockK) :
    Loc t w (w.retLock t d r k) := by
  unfold World.retLock
  split
  · exact loc_retUser ..
  · split
    · exact loc_retUser ..
    · exact Loc.setPc ..
  · refine Loc.trans (b := w.setTh t fun x => { x with unint := x.unint - 1 }) (Loc.setTh .rfl) ?_
    simp only
    split
    · exact (loc_takeIntr _ t).trans (loc_retSleep ..)
    · split <;> exact loc_retSleep ..

theorem loc_wokeLock (w : World) (t : Nat) (m : MId) (d : Choice) (e : Option Exc) (k : LockK) :
    Loc t w (w.wokeLock t m d e k) := by
  refine (Loc.unwait t w m).trans ?_
  unfold World.wokeLock
  split
  · exact loc_retLock ..
  · exact Loc.setPc ..

theorem loc_wokeSleep (w : World) (t : Nat) (m : MId) (timed : Bool) (e : Option Exc) (k : SleepK) :
    Loc t w (w.wokeSleep t m timed e k) := Loc.setTh .rfl

theorem loc_parkLock (w : World) (t : Nat) (m : MId) (d : Choice) (k : LockK)
    (h : (w.th t).status ≠ .dead) : Loc t w (w.parkLock t m d k) := by
  unfold World.parkLock
  split_ifs
  · exact (loc_takeIntr w t).trans (loc_wokeLock ..)
  · exact Loc.trans (Loc.setTh .rfl) (loc_wokeLock ..)
  · exact Loc.setTh (by simp [h])

theorem loc_parkSleep (w : World) (t : Nat) (m : MId) (timed : Bool) (d : Choice) (k : SleepK)
    (h : (w.th t).status ≠ .dead) : Loc t w (w.parkSleep t m timed d k) := by
  unfold World.parkSleep
  split_ifs
  · exact (loc_takeIntr w t).trans (loc_wokeSleep ..)
  · exact Loc.trans (Loc.setTh .rfl) (loc_wokeSleep ..)
  · exact Loc.setTh (by simp [h])

theorem loc_parkNap (w : World) (t : Nat) (timed : Bool) (d : Choice)
    (h : (w.th t).status ≠ .dead) : Loc t w (w.parkNap t timed d) := by
  unfold World.parkNap
  split_ifs
  · exact (loc_takeIntr w t).trans (loc_retUser ..)
  · exact Loc.trans (Loc.setTh .rfl) (loc_retUser ..)
  · exact Loc.setTh (by simp [h])

theorem loc_retUnlock (w : World) (t : Nat) (m : MId) (d : Choice) (r : Res) (k : UnlockK)
    (h : (w.th t).status ≠ .dead) : Loc t w (w.retUnlock t m d r k) := by
  unfold World.retUnlock
  split
  · exact loc_retUser ..
  · split
    · exact loc_retSleep ..
    · exact loc_parkSleep _ _ _ _ _ _ h
  · split <;> exact loc_retUser ..

theorem loc_retCast (w : World) (t : Nat) (r : Res) (k : CastK) : Loc t w (w.retCast t r k) := by
  unfold World.retCast
  split
  · exact loc_retUser ..
  · split
    · exact loc_leave ..
    · exact loc_post ..

theorem loc_retSignal (w : World) (t : Nat) (r : Res) (k : SigK) : Loc t w (w.retSignal t r k) := by
  unfold World.retSignal
  split
  · exact loc_retCast ..
  · split
    · exact loc_retCast ..
    · exact Loc.setPc ..

theorem loc_raiseAt (w : World) (t : Nat) (d : Choice) (h : (w.th t).status ≠ .dead) :
    Loc t w (w.raiseAt t d) := by
  unfold World.raiseAt
  split <;> first
    | exact Loc.refl ..
    | exact loc_retUser .. | exact loc_wokeLock .. | exact loc_retLock ..
    | exact loc_retUnlock _ _ _ _ _ _ h | exact loc_wokeSleep .. | exact loc_retSleep ..
    | exact loc_leave .. | exact loc_retSignal .. | exact loc_retCast ..

/-! ## The changes of shared state in a step -/

/-- The caller of `broadcast` or `signal` is a method of queue `q`. -/
def CastK.isQ (q : Nat) : CastK → Prop
  | .user => False
  | .queue q' _ _ _ => q' = q

def SigK.isQ (q : Nat) : SigK → Prop
  | .direct k => k.isQ q
  | .bcast _ k => k.isQ q

/-- At this position the code of a method of queue `q` relies on holding the mutex of `q`. -/
def Bel (q : Nat) : Pc → Prop
  | .unlock (.queue q') false (.sleep _ _) => q' = q
  | .sleep (.queue q') _ .entry _ => q' = q
  | .sleep (.queue q') _ .owned _ => q' = q
  | .wait _ (.queue q') _ _ => q' = q
  | .signal _ _ k => k.isQ q
  | .bcast _ _ k => k.isQ q
  | .queue q' _ .body => q' = q
  | .queue q' _ .loop => q' = q
  | .queue q' _ .take => q' = q
  | _ => False

/-- `t` changes at most one thing that others see, apart from its place on lists of waiters. -/
inductive Prim (t : Nat) (w : World) : World → Prop
  | none : Prim t w w
  | acquire (m : MId) (h : (w.mx m).owner = .none) :
    Prim t w ((w.setMx m fun x => { x with owner := some t }).ev (.got t m))
  | reclaim (m : MId) (o : Nat) (h : (w.mx m).owner = some o) (hd : w.alive o = false) :
    Prim t w (w.setMx m fun x => { x with owner := .none })
  | release (m : MId) (h : (w.mx m).owner = some t) :
    Prim t w ((w.setMx m fun x => { x with owner := .none }).ev (.gave t m))
  | enlist (m : MId) (o : Nat) (h : (w.mx m).owner = some o) (ha : w.alive o = true) :
    Prim t w (w.setMx m fun x => { x with waiters := x.waiters ++ [t] })
  | wakeMx (m : MId) (x : Nat) (xs : List Nat) (h : (w.mx m).waiters = x :: xs) :
    Prim t w ((w.setMx m fun y => { y with waiters := xs }).wake x)
  | cvAdd (c : CId) : Prim t w (w.setCv c (w.cv c ++ [t]))
  | wakeCv (c : CId) (x : Nat) (xs : List Nat) (h : w.cv c = x :: xs) :
    Prim t w ((w.setCv c xs).wake x)
  | ins (q v : Nat) (hb : Bel q (w.th t).pc) (h : (w.qu q).closed = false) (hr : (w.qu q).room = true) :
    Prim t w ((w.setQu q fun x => { x with items := x.items ++ [v] }).ev (.ins t q v))
  | took (q : Nat) (op : QOp) (h : (w.th t).pc = .queue q op .take) :
    Prim t w ((w.setQu q fun x => { x with items := x.items.tail }).ev
      (.took t q (w.qu q).items.head?))
  | cleared (q : Nat) (op : QOp) (h : (w.th t).pc = .queue q op .body) :
    Prim t w ((w.setQu q fun x => { x with items := [] }).ev (.cleared q))
  | closed (q : Nat) (hb : Bel q (w.th t).pc) :
    Prim t w ((w.setQu q fun x => { x with closed := true }).ev (.closed q))
  | resized (q n old : Nat) (hb : Bel q (w.th t).pc) (h : (w.qu q).max = some old) :
    Prim t w ((w.setQu q fun x => { x with max := some n }).ev (.resized q n))

theorem wake_dead {w : World} {x : Nat} (h : w.alive x = false) : w.wake x = w := by
  have : (w.th x).status = .dead := by simpa [World.alive] using h
  simp [World.wake, this]

theorem Loc.of_eq {t : Nat} {w w' : World} (h : w = w') : Loc t w w' := h ▸ Loc.refl t w

theorem go_prim (w : World) (t : Nat) (d : Choice) (h : (w.th t).status ≠ .dead) :
    ∃ w1, Prim t w w1 ∧ ((w1.th t).status ≠ .dead → Loc t w1 (w.go t d)) := by
  unfold World.go
  split
  · exact ⟨w, .none, fun _ => Loc.refl ..⟩
  · exact ⟨w, .none, fun _ => loc_retUser ..⟩
  · next m _ =>
    unfold World.tryOwn
    cases e : (w.mx m).owner with
    | none => exact ⟨_, .acquire m e, fun _ => loc_retUser ..⟩
    | some o => exact ⟨w, .none, fun _ => loc_retUser ..⟩
  · next m at_ k _ =>
    unfold World.stepLock
    split
    · split_ifs
      · exact ⟨w, .none, fun _ => loc_retLock ..⟩
      · exact ⟨w, .none, fun _ => Loc.setPc ..⟩
    · exact ⟨w, .none, fun _ => Loc.setPc ..⟩
    · unfold World.stepTry World.tryOwn
      cases e : (w.mx m).owner with
      | none => exact ⟨_, .acquire m e, fun _ => loc_retLock ..⟩
      | some o =>
        simp only
        split_ifs with ha
        · exact ⟨_, .enlist m o e ha, fun h' => loc_parkLock _ _ _ _ _ h'⟩
        · exact ⟨_, .reclaim m o e (by simpa using ha), fun _ => Loc.setPc ..⟩
    · exact ⟨w, .none, fun _ => loc_wokeLock ..⟩
  · next m loop k _ =>
    unfold World.stepUnlock
    split_ifs
    · split
      · exact ⟨w, .none, fun _ => loc_retUnlock _ _ _ _ _ _ h⟩
      · next x xs e =>
        simp only
        split_ifs with ha
        · exact ⟨_, .wakeMx m x xs e, fun h' => loc_retUnlock _ _ _ _ _ _ h'⟩
        · refine ⟨_, .wakeMx m x xs e, fun _ => ?_⟩
          rw [wake_dead (by simpa [World.alive] using ha)]
          exact Loc.setPc ..
    · split
      · exact ⟨w, .none, fun _ => loc_retUnlock _ _ _ _ _ _ h⟩
      · next o e =>
        split_ifs with ho
        · exact ⟨_, .release m (ho ▸ e), fun _ => Loc.setPc ..⟩
        · exact ⟨w, .none, fun _ => loc_retUnlock _ _ _ _ _ _ h⟩
  · next m timed at_ k _ =>
    unfold World.stepSleep
    split
    · exact ⟨w, .none, fun _ => Loc.setPc ..⟩
    · split_ifs
      · exact ⟨w, .none, fun _ => Loc.setPc ..⟩
      · exact ⟨w, .none, fun _ => loc_retSleep ..⟩
    · exact ⟨w, .none, fun _ => loc_wokeSleep ..⟩
    · exact ⟨w, .none, fun _ => Loc.setPc ..⟩
  · next c m timed k _ => exact ⟨_, .cvAdd c, fun _ => Loc.setPc ..⟩
  · next c loop k _ =>
    unfold World.stepSignal
    split_ifs
    · split
      · exact ⟨w, .none, fun _ => loc_retSignal ..⟩
      · next x xs e =>
        simp only
        split_ifs with ha
        · exact ⟨_, .wakeCv c x xs e, fun h' => loc_retSignal ..⟩
        · refine ⟨_, .wakeCv c x xs e, fun _ => ?_⟩
          rw [wake_dead (by simpa [World.alive] using ha)]
          exact Loc.setPc ..
    · exact ⟨w, .none, fun _ => Loc.setPc ..⟩
  · next c loop k _ =>
    unfold World.stepCast
    split_ifs
    · split
      · exact ⟨w, .none, fun _ => loc_retCast ..⟩
      · exact ⟨w, .none, fun _ => Loc.setPc ..⟩
    · exact ⟨w, .none, fun _ => Loc.setPc ..⟩
  · next q op at_ hpc =>
    unfold World.stepQueue
    split
    · exact ⟨w, .none, fun _ => Loc.setPc ..⟩
    · exact ⟨w, .none, fun _ => Loc.setPc ..⟩
    · unfold World.stepBody
      split
      · exact ⟨w, .none, fun _ => Loc.setPc ..⟩
      · split
        · exact ⟨w, .none, fun _ => Loc.setPc ..⟩
        · next hm =>
          split_ifs with hc
          · exact ⟨w, .none, fun _ => Loc.setPc ..⟩
          · exact ⟨_, .ins q _ (by rw [hpc]; rfl) (by simpa using hc) (by simp [Qu.room, hm]),
              fun _ => loc_post ..⟩
      · exact ⟨_, .cleared q _ hpc, fun _ => loc_post ..⟩
      · unfold World.doClose
        split_ifs
        · exact ⟨w, .none, fun _ => Loc.setPc ..⟩
        · exact ⟨_, .closed q (by rw [hpc]; rfl), fun _ => loc_post ..⟩
        · exact ⟨_, .closed q (by rw [hpc]; rfl), fun _ => loc_post ..⟩
      · unfold World.doSetMax
        split
        · exact ⟨w, .none, fun _ => Loc.setPc ..⟩
        · next hm => exact ⟨_, .resized q _ _ (by rw [hpc]; rfl) hm, fun _ => loc_post ..⟩
    · split
      · unfold World.popLoop
        split_ifs <;> exact ⟨w, .none, fun _ => Loc.setPc ..⟩
      · unfold World.pushLoop
        split_ifs with h1 h2
        · exact ⟨w, .none, fun _ => Loc.setPc ..⟩
        · exact ⟨_, .ins q _ (by rw [hpc]; rfl) (by simpa using h1) h2, fun _ => loc_post ..⟩
        · exact ⟨w, .none, fun _ => Loc.setPc ..⟩
        · exact ⟨w, .none, fun _ => Loc.setPc ..⟩
        · exact ⟨w, .none, fun _ => Loc.setPc ..⟩
      · exact ⟨w, .none, fun _ => Loc.refl ..⟩
    · exact ⟨_, .took q op hpc, fun _ => loc_post ..⟩

end Verif.Sync
