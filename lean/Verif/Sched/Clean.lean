import Verif.Sched.Entries

/-! # The invariant of schedules without early-ended timed waits (helper lemmas for C24, C49) -/

namespace Verif.Sched

/-- The threads whose deadlines are tracked: the green ones, and main while it is parked if `m`. -/
def Tr (m : Bool) (h : Host) (t : Nat) : Prop := t ≠ 0 ∨ (m = true ∧ (h = .loop ∨ h = .idle))

/-- Main's stack is in main's code or in `pass`. -/
def Host.up (h : Host) : Prop := h = .main ∨ ∃ k, h = .pass k

structure R (m : Bool) (s : St) : Prop where
  ncr : s.crashed = false
  n0 : 0 < s.n
  fresh : ∀ t, s.n ≤ t → (s.thr t).state = .dead
  core : Core (Tr m s.host) s
  p3 : ∀ k, s.host = .pass k → k ≤ s.ready.length ∧
    ∀ t ∈ s.ready.take k, ents s.sleepers t = []
  p4 : m = true → s.host.up →
    ents s.sleepers 0 = [] ∧ (s.thr 0).state = .runnable ∧ ∀ d, (s.thr 0).pc ≠ .sleep d

structure CInv (m : Bool) (s : St) : Prop where
  q : Q s.thr s.ready s.current
  r : R m s
  cur : s.current ≠ 0 → (s.thr s.current).state = .runnable ∧ ents s.sleepers s.current = [] ∧
    s.host ≠ .main ∧ s.host ≠ .idle

theorem R.congr {m : Bool} {s s' : St} (h : R m s) (hhost : s'.host = s.host)
    (hcr : s'.crashed = false) (hn : s.n ≤ s'.n)
    (hd : ∀ t, s'.n ≤ t → (s.thr t).state = .dead → (s'.thr t).state = .dead)
    (hm : ∀ t, Mild (s.thr t) (s'.thr t) ∨ (t = 0 ∧ m = false) ∨ (t ≠ 0 ∧ ((s'.thr t).state = .dead ∨
      ((s'.thr t).state = .created ∧ (s'.thr t).pc = .user))))
    (hsl : s'.sleepers = s.sleepers) (hnow : s.now ≤ s'.now)
    (hrd : ∃ l, s'.ready = s.ready ++ l) : R m s' := by
  obtain ⟨l, hl⟩ := hrd
  refine ⟨hcr, Nat.lt_of_lt_of_le h.n0 hn, ?_, ?_, ?_, ?_⟩
  · intro t ht; exact hd t ht (h.fresh t (Nat.le_trans hn ht))
  · rw [hhost]
    refine h.core.congr ?_ (by intro t _; rw [hsl]) hnow
    intro t hT
    rcases hm t with h1 | ⟨h0, h1⟩ | ⟨_, h1⟩
    · exact Or.inl h1
    · rcases hT with hT | hT
      · exact absurd h0 hT
      · rw [h1] at hT; cases hT.1
    · exact Or.inr h1
  · intro k hk
    obtain ⟨h1, h2⟩ := h.p3 k (hhost ▸ hk)
    rw [hl, hsl, List.take_append_of_le_length h1]
    exact ⟨by simp; omega, h2⟩
  · intro hm1 hup
    obtain ⟨h1, h2, h3⟩ := h.p4 hm1 (hhost ▸ hup)
    rw [hsl]
    refine ⟨h1, ?_⟩
    rcases hm 0 with (⟨e1, e2, _⟩ | ⟨e1, e2⟩) | ⟨_, e⟩ | ⟨e, _⟩
    · rw [e1, e2]; exact ⟨h2, h3⟩
    · exact ⟨e1, e2⟩
    · rw [hm1] at e; cases e
    · exact absurd rfl e

theorem R.wake {m : Bool} {s : St} {t : Nat} (h : R m s) (hdead : (s.thr t).state ≠ .dead)
    (ht : Tr m s.host t → ∀ d, (s.thr t).pc = .sleep d →
      (s.thr t).roused = true ∨ isDue s.now d = true) : R m (s.wake t) := by
  refine ⟨h.ncr, h.n0, ?_, h.core.wake ht, ?_, ?_⟩
  · intro k hk
    have := h.fresh k hk
    by_cases e : k = t
    · subst e; exact absurd this hdead
    · simpa [e] using this
  · intro k hk
    obtain ⟨h1, h2⟩ := h.p3 k hk
    rw [wake_ready]
    split
    · exact ⟨h1, h2⟩
    · rw [List.take_append_of_le_length h1]
      exact ⟨by simp; omega, h2⟩
  · intro hm1 hup
    obtain ⟨h1, h2, h3⟩ := h.p4 hm1 hup
    refine ⟨h1, ?_⟩
    by_cases e : 0 = t
    · subst e; simpa using h3
    · simp [e, h2, h3]

theorem R.foldJoin {m : Bool} {l : List Nat} : ∀ {s : St}, R m s → R m (l.foldl joinerOne s) := by
  induction l with
  | nil => intro s h; exact h
  | cons a l ih =>
    intro s h
    refine ih (s := joinerOne s a) ?_
    unfold joinerOne; split
    · rename_i hc
      exact h.wake (by rw [hc]; simp) fun hT d hd => absurd hd (h.core.c0 a hT (Or.inl hc) d)
    · exact h

theorem R.finalize {m : Bool} {s : St} {t : Nat} (fwd : Option Intr) (h0 : t ≠ 0) (h : R m s) :
    R m (Sched.finalize s t fwd) := by
  have h1 : R m (s.mod t fun x => { x with pending := [], state := .dead, joiners := [] }) := by
    refine h.congr rfl h.ncr (Nat.le_refl _) ?_ ?_ rfl (Nat.le_refl _) ⟨[], by simp⟩
    · intro k _ hk; by_cases e : k = t <;> simp [e]
      exact hk
    · intro k; by_cases e : k = t
      · right; right; simp [e, h0]
      · left; simpa [e] using Mild.rfl' _
  have h2 := R.foldJoin (l := (s.thr t).joiners) h1
  unfold Sched.finalize
  cases fwd with
  | none => exact h2
  | some i =>
    simp only [if_neg h0]
    generalize (s.thr t).joiners.foldl joinerOne
      (s.mod t fun x => { x with pending := [], state := .dead, joiners := [] }) = u at h2
    have h3 : R m (u.mod 0 fun x => push x i) := by
      refine h2.congr rfl h2.ncr (Nat.le_refl _) ?_ ?_ rfl (Nat.le_refl _) ⟨[], by simp⟩
      · intro k _ hk; by_cases e : k = 0 <;> simp_all
      · intro k; left; by_cases e : k = 0
        · subst e; simp [Mild]
        · simpa [e] using Mild.rfl' _
    split
    · rename_i hp
      generalize (u.mod 0 fun x => push x i) = v at h3 hp
      have h4 : R m ((v.mod 0 fun x => { x with roused := true }).wake 0) := by
        refine R.wake ?_ ?_ ?_
        · refine h3.congr rfl h3.ncr (Nat.le_refl _) ?_ ?_ rfl (Nat.le_refl _) ⟨[], by simp⟩
          · intro k _ hk; by_cases e : k = 0 <;> simp_all
          · intro k; left; by_cases e : k = 0
            · subst e; simp [Mild]
            · simpa [e] using Mild.rfl' _
        · intro e; simp at e; rw [e] at hp; cases hp
        · intro _ _ _; left; simp
      refine h4.congr rfl h4.ncr (Nat.le_refl _) ?_ ?_ rfl (Nat.le_refl _) ⟨[], by simp [wake_ready]⟩
      · intro k _ hk; by_cases e : k = 0 <;> simp_all
      · intro k; left; by_cases e : k = 0
        · subst e; simp [Mild]
        · simpa [e] using Mild.rfl' _
    · exact h3

/-- Steps that keep states, contexts, the queue and the deadlines. -/
theorem CInv.congr {m : Bool} {s s' : St} (h : CInv m s) (hhost : s'.host = s.host)
    (hcr : s'.crashed = s.crashed) (hn : s'.n = s.n) (hcur : s'.current = s.current)
    (hst : ∀ t, (s'.thr t).state = (s.thr t).state)
    (hre : ∀ t, (s'.thr t).resume = (s.thr t).resume)
    (hm : ∀ t, Mild (s.thr t) (s'.thr t) ∨ (t = 0 ∧ m = false))
    (hsl : s'.sleepers = s.sleepers) (hnow : s.now ≤ s'.now)
    (hrd : s'.ready = s.ready) : CInv m s' := by
  refine ⟨?_, ?_, ?_⟩
  · rw [hrd, hcur]; exact h.q.congr (fun t _ => hst t) (fun t _ => hre t)
  · refine h.r.congr hhost (hcr.trans h.r.ncr) (by omega) ?_ (fun t => (hm t).elim Or.inl fun h => Or.inr (Or.inl h)) hsl hnow
      ⟨[], by simp [hrd]⟩
    intro t _ ht; rw [hst]; exact ht
  · rw [hcur, hst, hsl, hhost]; exact h.cur

/-- A change of one thread that keeps its state and context. -/
theorem CInv.mod {m : Bool} {s : St} {c : Nat} {f : Thread → Thread} (h : CInv m s)
    (hs : (f (s.thr c)).state = (s.thr c).state) (hr : (f (s.thr c)).resume = (s.thr c).resume)
    (hm : Mild (s.thr c) (f (s.thr c)) ∨ (c = 0 ∧ m = false)) : CInv m (s.mod c f) := by
  refine h.congr rfl rfl rfl rfl ?_ ?_ ?_ rfl (Nat.le_refl _) rfl
  · intro t; by_cases e : t = c
    · subst e; simpa using hs
    · simp [e]
  · intro t; by_cases e : t = c
    · subst e; simpa using hr
    · simp [e]
  · intro t; by_cases e : t = c
    · subst e; simpa using hm
    · left; simpa [e] using Mild.rfl' _

theorem deliver_mild {x : Thread} (b : Bool) (hr : x.state = .runnable) :
    Mild x (deliver x b).1 := by
  rcases deliver_cases x b with ⟨_, _, _, h⟩ | ⟨_, h⟩ <;> rw [h]
  · exact Or.inr ⟨hr, by simp⟩
  · exact Mild.rfl' x

theorem CInv.wake {m : Bool} {s : St} {t : Nat} (h : CInv m s)
    (hp : (s.thr t).state.parked = true) (hro : (s.thr t).roused = true) :
    CInv m (s.wake t) := by
  refine ⟨?_, ?_, ?_⟩
  · refine h.q.wake fun h0 => ⟨hp, ?_⟩
    intro e
    have := (h.cur (e ▸ h0)).1
    rw [← e] at this; rw [this] at hp; cases hp
  · exact h.r.wake (by intro e; rw [e] at hp; cases hp) fun _ _ _ => Or.inl hro
  · intro h0
    obtain ⟨h1, h2⟩ := h.cur h0
    refine ⟨?_, h2⟩
    by_cases e : s.current = t
    · simp [e]
    · simpa [e] using h1

end Verif.Sched
