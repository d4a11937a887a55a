import Verif.Sync.Base

/-!
# Runs without interrupts: nobody is left waiting for a free mutex
-/

namespace Verif.Sync

variable {w w' : World} {t : Nat}

/-- A thread here will look at the waiters of `m`, or at `m` itself. -/
def Resp (m : MId) : Pc → Prop
  | .unlock m' true _ => m' = m
  | .lock m' .loop _ => m' = m
  | .lock m' .tryLock _ => m' = m
  | .lock m' .stop _ => m' = m
  | _ => False

def AtStop (m : MId) : Pc → Prop
  | .lock m' .stop _ => m' = m
  | _ => False

theorem AtStop.resp {m : MId} {pc : Pc} (h : AtStop m pc) : Resp m pc := by
  unfold AtStop at h
  split at h
  · exact h
  · exact h.elim

structure J (w : World) : Prop where
  j1 : ∀ t b m, (w.th t).status = .parked b → AtStop m (w.th t).pc → t ∈ (w.mx m).waiters
  j2 : ∀ x m, x ∈ (w.mx m).waiters → AtStop m (w.th x).pc
  j3 : ∀ m, (w.mx m).owner = none → (w.mx m).waiters ≠ [] →
    ∃ u, (w.th u).status = .run ∧ Resp m (w.th u).pc

/-- Steps that leave the waiters alone. -/
structure Plain (t : Nat) (w w' : World) : Prop where
  wt : ∀ m, (w'.mx m).waiters = (w.mx m).waiters
  own : ∀ m, (w'.mx m).owner = none → (w.mx m).owner = none ∨ Resp m (w'.th t).pc
  resp : ∀ m, Resp m (w.th t).pc →
    Resp m (w'.th t).pc ∨ (w'.mx m).owner ≠ none ∨ (w.mx m).waiters = []
  stop : ∀ m, ¬ AtStop m (w.th t).pc
  stop' : ∀ m, ¬ AtStop m (w'.th t).pc
  run' : ∀ m, Resp m (w'.th t).pc → (w'.th t).status = .run

theorem Plain.j (p : Plain t w w') (hf : ∀ u, u ≠ t → Fr (w.th u) (w'.th u)) (j : J w) : J w' where
  j1 u b m hs ha := by
    rw [p.wt]
    by_cases e : u = t
    · subst e; exact (p.stop' m ha).elim
    · have f := hf u e
      rw [f.pc] at ha
      obtain e | ⟨_, e⟩ := f.status
      · exact j.j1 u b m (e ▸ hs) ha
      · rw [e] at hs; cases hs
  j2 x m hx := by
    rw [p.wt] at hx
    by_cases e : x = t
    · subst e; exact (p.stop m (j.j2 x m hx)).elim
    · rw [(hf x e).pc]; exact j.j2 x m hx
  j3 m ho hw := by
    rw [p.wt] at hw
    obtain h | h := p.own m ho
    · obtain ⟨u, h1, h2⟩ := j.j3 m h hw
      by_cases e : u = t
      · subst e
        obtain h | h | h := p.resp m h2
        · exact ⟨u, p.run' m h, h⟩
        · exact (h ho).elim
        · exact (hw h).elim
      · refine ⟨u, ?_, by rw [(hf u e).pc]; exact h2⟩
        obtain h | ⟨⟨b, h⟩, _⟩ := (hf u e).status
        · rw [h]; exact h1
        · rw [h1] at h; cases h
    · exact ⟨t, p.run' m h, h⟩

theorem resp_postPc {m : MId} {q : Nat} {op : QOp} {r : Res} {l : List Post} : ¬ Resp m (postPc q op r l) := by
  unfold postPc; split <;> exact id

theorem resp_cast {m : MId} {k : CastK} : ¬ Resp m k.after := by
  cases k with
  | user => exact id
  | queue q op todo r => exact resp_postPc

theorem resp_sig {m : MId} {k : SigK} : ¬ Resp m k.after := by
  cases k with
  | direct k => exact resp_cast
  | bcast c k => exact id

theorem resp_after {m : MId} {k : LockK} : ¬ Resp m k.after := by
  unfold LockK.after; split <;> exact id

/-- Mutexes unchanged, and `t` neither was nor is in charge of one. -/
theorem Plain.of {pc' : Pc} (hmx : w'.mx = w.mx) (hpc : (w'.th t).pc = pc')
    (h : ∀ m, ¬ Resp m (w.th t).pc) (h' : ∀ m, ¬ Resp m pc') : Plain t w w' where
  wt m := by rw [hmx]
  own m h := .inl (by rw [hmx] at h; exact h)
  resp m hm := (h m hm).elim
  stop m hm := h m hm.resp
  stop' m hm := h' m (by rw [← hpc]; exact hm.resp)
  run' m hm := (h' m (by rw [← hpc]; exact hm)).elim

theorem Tau.plain {pc' : Pc} (h : Tau w t (w.th t).pc pc') (hto : To t w w' pc')
    (hs : (w.th t).status = .run) : Plain t w w' := by
  have hmx := hto.mx
  have hpc := hto.pc
  generalize hp : (w.th t).pc = pc at h
  have key : (∀ m, Resp m pc → Resp m pc' ∨ (w.mx m).waiters = []) ∧ (∀ m, ¬ AtStop m pc) ∧
      (∀ m, ¬ AtStop m pc') := by
    cases h with
    | unlDone m k hk h =>
      refine ⟨fun m' hm => .inr ?_, fun _ => id, fun _ => id⟩
      obtain rfl : m = m' := hm
      exact h
    | lockTry m k => exact ⟨fun m' hm => .inl hm, fun _ => id, fun _ => id⟩
    | sigNone c k h => exact ⟨fun _ hm => hm.elim, fun _ => id, fun m hm => resp_sig hm.resp⟩
    | castNone c k h => exact ⟨fun _ hm => hm.elim, fun _ => id, fun m hm => resp_cast hm.resp⟩
    | _ => exact ⟨fun _ hm => hm.elim, fun _ => id, fun _ => id⟩
  exact {
    wt := fun m => by rw [hmx]
    own := fun m h => .inl (by rw [hmx] at h; exact h)
    resp := fun m hm => by
      rw [hp] at hm; rw [hpc]
      obtain h | h := key.1 m hm
      · exact .inl h
      · exact .inr (.inr h)
    stop := by rw [hp]; exact key.2.1
    stop' := by rw [hpc]; exact key.2.2
    run' := fun _ _ => by rw [hto.status]; exact hs }

theorem Park.pcs {m : MId} {timed : Bool} {k : SleepK} (p : Park t w m timed k w') :
    (∀ m', ¬ Resp m' (w'.th t).pc) := by
  cases p with
  | skip _ _ hto => rw [hto.pc]; exact fun _ => id
  | stop _ _ hto => rw [hto.pc]; exact fun _ => id

theorem Done.pcs {m : MId} {k : UnlockK} (p : Done t w m k w') : ∀ m', ¬ Resp m' (w'.th t).pc := by
  cases p with
  | over _ _ _ hto => rw [hto.pc]; exact fun _ => id
  | park _ _ _ p => exact p.pcs

/-- `t` takes itself out of the waiters of `m` and is about to look at `m` again. -/
theorem J.unlist {m : MId} {k : LockK} (j : J w)
    (hpc : (w.th t).pc = .lock m .tryLock k ∨ (w.th t).pc = .lock m .stop k)
    (hpc' : (w'.th t).pc = .lock m .loop k) (hs : (w'.th t).status = .run)
    (ho : ∀ m', (w'.mx m').owner = (w.mx m').owner)
    (hw : ∀ m', (w'.mx m').waiters = if m' = m then (w.mx m').waiters.filter (· ≠ t) else (w.mx m').waiters)
    (hf : ∀ u, u ≠ t → Fr (w.th u) (w'.th u)) : J w' where
  j1 u b m' hs' ha := by
    have e : u ≠ t := by
      rintro rfl; rw [hs] at hs'; cases hs'
    have f := hf u e
    rw [f.pc] at ha
    have : u ∈ (w.mx m').waiters := by
      obtain e | ⟨_, e⟩ := f.status
      · exact j.j1 u b m' (e ▸ hs') ha
      · rw [e] at hs'; cases hs'
    rw [hw]
    split_ifs
    · simp [this, e]
    · exact this
  j2 x m' hx := by
    rw [hw] at hx
    have h1 : x ∈ (w.mx m').waiters := by
      split_ifs at hx
      · exact (List.mem_filter.1 hx).1
      · exact hx
    have h2 := j.j2 x m' h1
    by_cases e : x = t
    · subst e
      split_ifs at hx with em
      · simp at hx
      · obtain h | h := hpc
        · rw [h] at h2; exact h2.elim
        · rw [h] at h2; exact (em (Eq.symm h2)).elim
    · rw [(hf x e).pc]; exact h2
  j3 m' ho' hw' := by
    by_cases em : m' = m
    · subst em
      exact ⟨t, hs, by rw [hpc']; rfl⟩
    · rw [ho] at ho'; rw [hw, if_neg em] at hw'
      obtain ⟨u, h1, h2⟩ := j.j3 m' ho' hw'
      have e : u ≠ t := by
        rintro rfl
        obtain h | h := hpc <;> (rw [h] at h2; exact em (Eq.symm h2))
      refine ⟨u, ?_, by rw [(hf u e).pc]; exact h2⟩
      obtain h | ⟨⟨b, h⟩, _⟩ := (hf u e).status
      · rw [h]; exact h1
      · rw [h1] at h; cases h

theorem T.j (h : T t w w') (j : J w) (hs : (w.th t).status = .run)
    (hd : ∀ u, (w.th u).status = .dead → (w.th u).pc = .user) : J w' := by
  have hf : ∀ u, u ≠ t → Fr (w.th u) (w'.th u) := fun u e => h.fr e
  cases h with
  | tau pc' h w' hto => exact (h.plain hto hs).j hf j
  | acqTry m h h0 w' hto =>
    refine Plain.j ⟨fun m' => ?_, fun m' ho => ?_, fun m' hm => ?_, ?_, ?_, ?_⟩ hf j
    · rw [hto.mx, setMx_waiters w (m := m) _ (by intro x; rfl)]
    · rw [hto.mx] at ho
      by_cases e : m' = m
      · subst e; rw [setMx_self] at ho; cases ho
      · rw [setMx_ne _ _ e] at ho; exact .inl ho
    · rw [h] at hm; exact hm.elim
    · rw [h]; exact fun _ => id
    · rw [hto.pc]; exact fun _ => id
    · rw [hto.pc]; exact fun _ h => h.elim
  | acq m k h h0 w' hto =>
    refine Plain.j ⟨fun m' => ?_, fun m' ho => ?_, fun m' hm => ?_, ?_, ?_, ?_⟩ hf j
    · rw [hto.mx, dropCv_mx, setMx_waiters w (m := m) _ (by intro x; rfl)]
    · rw [hto.mx, dropCv_mx] at ho
      by_cases e : m' = m
      · subst e; rw [setMx_self] at ho; cases ho
      · rw [setMx_ne _ _ e] at ho; exact .inl ho
    · rw [h] at hm
      obtain rfl : m = m' := hm
      rw [hto.mx, dropCv_mx, setMx_self]
      simp
    · rw [h]; exact fun _ => id
    · rw [hto.pc]; exact fun _ h => resp_after h.resp
    · rw [hto.pc]; exact fun _ h => (resp_after h).elim
  | reclaim m k o h h0 hdd w' hto =>
    refine Plain.j ⟨fun m' => ?_, fun m' ho => ?_, fun m' hm => ?_, ?_, ?_, ?_⟩ hf j
    · rw [hto.mx, setMx_waiters w (m := m) _ (by intro x; rfl)]
    · rw [hto.mx] at ho; rw [hto.pc]
      by_cases e : m' = m
      · subst e; exact .inr rfl
      · rw [setMx_ne _ _ e] at ho; exact .inl ho
    · rw [h] at hm; rw [hto.pc]; exact .inl hm
    · rw [h]; exact fun _ => id
    · rw [hto.pc]; exact fun _ => id
    · rw [hto.status]; exact fun _ _ => hs
  | enlist m k o h h0 hdd w' hto =>
    have hw : ∀ m', (w'.mx m').waiters = if m' = m then (w.mx m').waiters ++ [t] else (w.mx m').waiters := by
      intro m'; rw [hto.mx, setTh_mx]
      split_ifs with e
      · subst e; rw [setMx_self]
      · rw [setMx_ne _ _ e]
    have ho : ∀ m', (w'.mx m').owner = (w.mx m').owner := by
      intro m'; rw [hto.mx, setTh_mx, setMx_owner w (m := m) _ (by intro x; rfl)]
    exact {
      j1 := by
        intro u b m' hs' ha
        by_cases e : u = t
        · subst e
          rw [hto.pc] at ha
          obtain rfl : m = m' := ha
          rw [hw]; simp
        · have f := hf u e
          rw [f.pc] at ha
          have : u ∈ (w.mx m').waiters := by
            obtain e | ⟨_, e⟩ := f.status
            · exact j.j1 u b m' (e ▸ hs') ha
            · rw [e] at hs'; cases hs'
          rw [hw]
          split_ifs <;> simp [this]
      j2 := by
        intro x m' hx
        rw [hw] at hx
        by_cases e : x = t
        · subst e
          rw [hto.pc]
          split_ifs at hx with em
          · exact em.symm
          · have := j.j2 x m' hx
            rw [h] at this; exact this.elim
        · rw [(hf x e).pc]
          refine j.j2 x m' ?_
          split_ifs at hx
          · simpa [e] using hx
          · exact hx
      j3 := by
        intro m' ho' hw'
        rw [ho] at ho'
        have em : m' ≠ m := by rintro rfl; rw [h0] at ho'; cases ho'
        rw [hw, if_neg em] at hw'
        obtain ⟨u, h1, h2⟩ := j.j3 m' ho' hw'
        have e : u ≠ t := by
          rintro rfl
          rw [h] at h2; exact em (Eq.symm h2)
        refine ⟨u, ?_, by rw [(hf u e).pc]; exact h2⟩
        obtain h | ⟨⟨b, h⟩, _⟩ := (hf u e).status
        · rw [h]; exact h1
        · rw [h1] at h; cases h }
  | enskip m k o h h0 w' hto =>
    refine j.unlist (.inl h) hto.pc (by rw [hto.status]; simpa using hs) (fun m' => ?_) (fun m' => ?_) hf
    · rw [hto.mx, setTh_mx, setMx_owner w (m := m) _ (by intro x; rfl)]
    · rw [hto.mx, setTh_mx]
      split_ifs with e
      · subst e; rw [setMx_self]
      · rw [setMx_ne _ _ e]
  | unlist m k h w' hto =>
    refine j.unlist (.inr h) hto.pc (by rw [hto.status]; simpa using hs) (fun m' => ?_) (fun m' => ?_) hf
    · rw [hto.mx, setMx_owner w (m := m) _ (by intro x; rfl)]
    · rw [hto.mx]
      split_ifs with e
      · subst e; rw [setMx_self]
      · rw [setMx_ne _ _ e]
  | release m k h h0 w' hto =>
    refine Plain.j ⟨fun m' => ?_, fun m' ho => ?_, fun m' hm => ?_, ?_, ?_, ?_⟩ hf j
    · rw [hto.mx, setMx_waiters w (m := m) _ (by intro x; rfl)]
    · rw [hto.mx] at ho; rw [hto.pc]
      by_cases e : m' = m
      · subst e; exact .inr rfl
      · rw [setMx_ne _ _ e] at ho; exact .inl ho
    · rw [h] at hm; exact hm.elim
    · rw [h]; exact fun _ => id
    · rw [hto.pc]; exact fun _ => id
    · rw [hto.status]; exact fun _ _ => hs
  | unlPark m timed k h h0 w' p =>
    refine Plain.j ⟨fun m' => ?_, fun m' ho => ?_, fun m' hm => ?_, ?_, ?_, ?_⟩ hf j
    · rw [p.mx]
    · rw [p.mx] at ho; exact .inl ho
    · rw [h] at hm
      obtain rfl : m = m' := hm
      exact .inr (.inr h0)
    · rw [h]; exact fun _ => id
    · exact fun m h => p.pcs m h.resp
    · exact fun m h => (p.pcs m h).elim
  | wakeMx m k x xs h h0 ha w' p =>
    have hw : ∀ m', (w'.mx m').waiters = if m' = m then xs else (w.mx m').waiters := by
      intro m'; rw [p.mx, wake_mx]
      split_ifs with e
      · subst e; rw [setMx_self]
      · rw [setMx_ne _ _ e]
    have ho : ∀ m', (w'.mx m').owner = (w.mx m').owner := by
      intro m'; rw [p.mx, wake_mx, setMx_owner w (m := m) _ (by intro x; rfl)]
    have hx : x ∈ (w.mx m).waiters := by rw [h0]; simp
    have hxs := j.j2 x m hx
    have ext : x ≠ t := by
      rintro rfl; rw [h] at hxs; exact hxs.elim
    have hxr : (w'.th x).status = .run := by
      rw [p.fr ext]
      have hal : (w.th x).status ≠ .dead := by simpa [World.alive] using ha
      unfold World.wake
      split
      · next hh => exact (hal (by simpa using hh)).elim
      · simp
      · next hh => simpa using hh
    exact {
      j1 := by
        intro u b m' hs' ha'
        have eux : u ≠ x := by
          rintro rfl; rw [hxr] at hs'; cases hs'
        by_cases e : u = t
        · subst e
          exact (p.pcs m' ha'.resp).elim
        · have f := hf u e
          rw [f.pc] at ha'
          have : u ∈ (w.mx m').waiters := by
            obtain e | ⟨_, e⟩ := f.status
            · exact j.j1 u b m' (e ▸ hs') ha'
            · rw [e] at hs'; cases hs'
          rw [hw]
          split_ifs with em
          · subst em; rw [h0] at this; simpa [eux] using this
          · exact this
      j2 := by
        intro y m' hy
        rw [hw] at hy
        have hy' : y ∈ (w.mx m').waiters := by
          split_ifs at hy with em
          · subst em; rw [h0]; simp [hy]
          · exact hy
        have h2 := j.j2 y m' hy'
        have e : y ≠ t := by
          rintro rfl; rw [h] at h2; exact h2.elim
        rw [(hf y e).pc]; exact h2
      j3 := by
        intro m' ho' hw'
        by_cases em : m' = m
        · subst em
          exact ⟨x, hxr, by rw [(hf x ext).pc]; exact hxs.resp⟩
        · rw [ho] at ho'; rw [hw, if_neg em] at hw'
          obtain ⟨u, h1, h2⟩ := j.j3 m' ho' hw'
          have e : u ≠ t := by
            rintro rfl
            rw [h] at h2; exact em (Eq.symm h2)
          refine ⟨u, ?_, by rw [(hf u e).pc]; exact h2⟩
          obtain h | ⟨⟨b, h⟩, _⟩ := (hf u e).status
          · rw [h]; exact h1
          · rw [h1] at h; cases h }
  | dropMx m k x xs h h0 ha w' hto =>
    exfalso
    have hx : x ∈ (w.mx m).waiters := by rw [h0]; simp
    have hxs := j.j2 x m hx
    rw [hd x (by simpa [World.alive] using ha)] at hxs
    exact hxs
  | cvAdd c m timed k h w' hto =>
    exact (Plain.of (by rw [hto.mx]; rfl) hto.pc (by rw [h]; exact fun _ => id) fun _ => id).j hf j
  | wakeCv c k x xs h h0 ha w' hto =>
    exact (Plain.of (by rw [hto.mx, wake_mx]; rfl) hto.pc (by rw [h]; exact fun _ => id)
      fun _ => resp_sig).j hf j
  | dropCv c k x xs h h0 ha w' hto =>
    exact (Plain.of (by rw [hto.mx]; rfl) hto.pc (by rw [h]; exact fun _ => id) fun _ => id).j hf j
  | insBody _ _ _ _ h _ _ _ hto =>
    exact (Plain.of (by rw [hto.mx]; rfl) hto.pc (by rw [h]; exact fun _ => id) fun _ => resp_postPc).j hf j
  | insLoop _ _ _ _ h _ _ _ hto =>
    exact (Plain.of (by rw [hto.mx]; rfl) hto.pc (by rw [h]; exact fun _ => id) fun _ => resp_postPc).j hf j
  | took _ _ _ h _ _ hto =>
    exact (Plain.of (by rw [hto.mx]; rfl) hto.pc (by rw [h]; exact fun _ => id) fun _ => resp_postPc).j hf j
  | clear _ h _ hto =>
    exact (Plain.of (by rw [hto.mx]; rfl) hto.pc (by rw [h]; exact fun _ => id) fun _ => resp_postPc).j hf j
  | close _ h _ hto =>
    exact (Plain.of (by rw [hto.mx]; rfl) hto.pc (by rw [h]; exact fun _ => id) fun _ => resp_postPc).j hf j
  | resize _ _ _ h _ _ hto =>
    exact (Plain.of (by rw [hto.mx]; rfl) hto.pc (by rw [h]; exact fun _ => id) fun _ => resp_postPc).j hf j

end Verif.Sync
