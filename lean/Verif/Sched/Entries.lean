import Verif.Sched.Queue

/-! # The list of deadlines -/

namespace Verif.Sched

/-- The deadlines registered for a thread. -/
def ents (l : List (Option Nat × Nat)) (t : Nat) : List (Option Nat) :=
  (l.filter fun e => e.2 == t).map (·.1)

/-- The deadlines a parked thread registered for its present park. -/
def want : PC → List (Option Nat)
  | .sleep d => [d]
  | .join _ (some d) => [some d]
  | .io (some d) => [some d]
  | _ => []

theorem want_length (p : PC) : (want p).length ≤ 1 := by
  unfold want; split <;> simp

theorem ents_append (l : List (Option Nat × Nat)) (d : Option Nat) (c t : Nat) :
    ents (l ++ [(d, c)]) t = if c = t then ents l t ++ [d] else ents l t := by
  unfold ents
  rw [List.filter_append]
  by_cases h : c = t <;> simp [h]

theorem ents_filter (p : Nat → Bool) (d : Option Nat → Bool) (l : List (Option Nat × Nat)) (t : Nat) :
    ents (l.filter fun e => p e.2 && !d e.1) t =
      if p t then (ents l t).filter (fun x => !d x) else [] := by
  induction l with
  | nil => simp [ents]
  | cons e l ih =>
    obtain ⟨x, k⟩ := e
    have hcons : ∀ (m : List (Option Nat × Nat)),
        ents ((x, k) :: m) t = if k = t then x :: ents m t else ents m t := by
      intro m; unfold ents; by_cases h : k = t <;> simp [h]
    rw [List.filter_cons, hcons]
    by_cases hk : k = t
    · subst hk
      cases hp : p k <;> cases hd : d x <;> simp [hp, hd, hcons, ih]
    · cases hp : (p k && !d x) <;> simp [hk, hcons, ih]

theorem count_due (p : Nat → Bool) (d : Option Nat → Bool) (l : List (Option Nat × Nat)) (t : Nat) :
    ((l.filter fun e => p e.2 && d e.1).map (·.2)).count t =
      if p t then ((ents l t).filter d).length else 0 := by
  induction l with
  | nil => simp [ents]
  | cons e l ih =>
    obtain ⟨x, k⟩ := e
    have hcons : ∀ (m : List (Option Nat × Nat)),
        ents ((x, k) :: m) t = if k = t then x :: ents m t else ents m t := by
      intro m; unfold ents; by_cases h : k = t <;> simp [h]
    rw [List.filter_cons, hcons]
    by_cases hk : k = t
    · subst hk
      cases hp : p k <;> cases hd : d x <;> simp [hp, hd, ih] <;> simp [hp] at ih <;> simp [ih]
    · cases hp : (p k && d x) <;> simp [hk, ih]

theorem foldWake_thr (l : List Nat) : ∀ (s : St) (t : Nat),
    (l.foldl St.wake s).thr t =
      if t ∈ l then { s.thr t with state := .runnable } else s.thr t := by
  induction l with
  | nil => intro s t; simp
  | cons a l ih =>
    intro s t
    rw [List.foldl_cons, ih]
    by_cases h : t = a
    · subst h; by_cases h2 : t ∈ l <;> simp [h2]
    · by_cases h2 : t ∈ l <;> simp [h, h2]

theorem count_dueOf (s : St) (t : Nat) : (dueOf s).count t =
    if (s.thr t).state.parked then ((ents s.sleepers t).filter (isDue s.now)).length else 0 :=
  count_due (fun t => (s.thr t).state.parked) (isDue s.now) s.sleepers t

theorem mem_dueOf (s : St) (t : Nat) : t ∈ dueOf s ↔
    (s.thr t).state.parked = true ∧ ∃ d ∈ ents s.sleepers t, isDue s.now d = true := by
  rw [← List.count_pos_iff, count_dueOf]
  split
  · rename_i h; simp only [h, true_and, List.length_pos_iff_exists_mem, List.mem_filter]
  · rename_i h; simp [h]

theorem ents_wakeDue (s : St) (t : Nat) : ents (wakeDue s).sleepers t =
    if (s.thr t).state.parked then (ents s.sleepers t).filter (fun x => !isDue s.now x) else [] := by
  rw [(wakeDue_same s).sleepers]
  exact ents_filter (fun t => (s.thr t).state.parked) (isDue s.now) s.sleepers t

theorem wakeDue_thr (s : St) (t : Nat) : (wakeDue s).thr t =
    if t ∈ dueOf s then { s.thr t with state := .runnable } else s.thr t := by
  rw [wakeDue_eq, foldWake_thr]; rfl

/-- What is kept about the threads in `T`. -/
structure Core (T : Nat → Prop) (s : St) : Prop where
  c0 : ∀ t, T t → ((s.thr t).state = .joining ∨ (s.thr t).state = .ioWaiting ∨
    (s.thr t).state = .created) → ∀ d, (s.thr t).pc ≠ .sleep d
  c1 : ∀ t, T t → (s.thr t).state.parked = true → ents s.sleepers t = want (s.thr t).pc
  c5 : ∀ t, T t → (s.thr t).state = .runnable → ∀ d, (s.thr t).pc = .sleep d →
    (s.thr t).roused = true ∨ isDue s.now d = true

theorem Core.mono {T T' : Nat → Prop} {s : St} (h : Core T s) (hT : ∀ t, T' t → T t) :
    Core T' s :=
  ⟨fun t ht => h.c0 t (hT t ht), fun t ht => h.c1 t (hT t ht), fun t ht => h.c5 t (hT t ht)⟩

theorem isDue_mono {a b : Nat} (h : a ≤ b) {d : Option Nat} (hd : isDue a d = true) :
    isDue b d = true := by
  cases d with
  | none => simp [isDue] at hd
  | some d => simp [isDue] at hd ⊢; omega

/-- A change of a thread that keeps what `Core` says about it. -/
def Mild (x x' : Thread) : Prop :=
  (x'.state = x.state ∧ x'.pc = x.pc ∧ (x.roused = true → x'.roused = true)) ∨
  (x'.state = .runnable ∧ ∀ d, x'.pc ≠ .sleep d)

theorem Mild.rfl' (x : Thread) : Mild x x := Or.inl ⟨rfl, rfl, id⟩

theorem Core.congr {T : Nat → Prop} {s s' : St} (h : Core T s)
    (hm : ∀ t, T t → Mild (s.thr t) (s'.thr t) ∨ (s'.thr t).state = .dead ∨
      ((s'.thr t).state = .created ∧ (s'.thr t).pc = .user))
    (hsl : ∀ t, T t → ents s'.sleepers t = ents s.sleepers t) (hnow : s.now ≤ s'.now) :
    Core T s' := by
  constructor
  · intro t ht hs d
    rcases hm t ht with (⟨h1, h2, _⟩ | ⟨_, h2⟩) | h1 | ⟨_, h2⟩
    · rw [h1] at hs; rw [h2]; exact h.c0 t ht hs d
    · exact h2 d
    · rw [h1] at hs; simp at hs
    · rw [h2]; simp
  · intro t ht hp
    rw [hsl t ht]
    rcases hm t ht with (⟨h1, h2, _⟩ | ⟨h1, _⟩) | h1 | ⟨h1, _⟩
    · rw [h1] at hp; rw [h2]; exact h.c1 t ht hp
    all_goals (rw [h1] at hp; cases hp)
  · intro t ht hr d hd
    rcases hm t ht with (⟨h1, h2, h3⟩ | ⟨_, h2⟩) | h1 | ⟨_, h2⟩
    · rw [h1] at hr; rw [h2] at hd
      rcases h.c5 t ht hr d hd with h4 | h4
      · exact Or.inl (h3 h4)
      · exact Or.inr (isDue_mono hnow h4)
    · exact absurd hd (h2 d)
    · rw [h1] at hr; cases hr
    · rw [h2] at hd; cases hd

theorem Core.wake {T : Nat → Prop} {s : St} {t : Nat} (h : Core T s)
    (ht : T t → ∀ d, (s.thr t).pc = .sleep d →
      (s.thr t).roused = true ∨ isDue s.now d = true) : Core T (s.wake t) := by
  constructor
  · intro k hk hs d
    by_cases e : k = t
    · subst e; simp at hs
    · simp only [wake_thr, if_neg e] at hs ⊢; exact h.c0 k hk hs d
  · intro k hk hp
    by_cases e : k = t
    · subst e; simp [TS.parked] at hp
    · simp only [wake_thr, if_neg e] at hp ⊢; exact h.c1 k hk hp
  · intro k hk hr d hd
    by_cases e : k = t
    · subst e; simp only [wake_thr, if_true] at hd ⊢; exact ht hk d hd
    · simp only [wake_thr, if_neg e] at hr hd ⊢; exact h.c5 k hk hr d hd

theorem Core.wakeDue {T : Nat → Prop} {s : St} (h : Core T s) : Core T (Sched.wakeDue s) := by
  have hnow : (Sched.wakeDue s).now = s.now := (wakeDue_same s).now
  constructor
  · intro t ht hs d
    rw [wakeDue_thr] at hs ⊢
    split at hs
    · simp at hs
    · rename_i hn; rw [if_neg hn]; exact h.c0 t ht hs d
  · intro t ht hp
    rw [wakeDue_thr] at hp ⊢
    split at hp
    · simp [TS.parked] at hp
    · rename_i hn
      rw [if_neg hn, ents_wakeDue, if_pos hp, ← h.c1 t ht hp, List.filter_eq_self]
      intro d hd
      have : ¬ (isDue s.now d = true) := fun hh => hn ((mem_dueOf s t).2 ⟨hp, d, hd, hh⟩)
      simpa using this
  · intro t ht hr d hd
    rw [wakeDue_thr] at hr hd ⊢
    rw [hnow]
    split at hr
    · rename_i hm
      rw [if_pos hm] at hd ⊢
      simp only at hd ⊢
      obtain ⟨hp, d', hd', hdue⟩ := (mem_dueOf s t).1 hm
      rw [h.c1 t ht hp, hd] at hd'
      simp only [want, List.mem_singleton] at hd'
      subst hd'; exact Or.inr hdue
    · rename_i hm
      rw [if_neg hm] at hd ⊢
      exact h.c5 t ht hr d hd

/-- After `wakeDue` only parked threads have deadlines registered. -/
theorem wakeDue_clears {T : Nat → Prop} {s : St} (h : Core T s) {t : Nat} (ht : T t)
    (hp : ((wakeDue s).thr t).state.parked = false) : ents (wakeDue s).sleepers t = [] := by
  rw [ents_wakeDue]
  split
  · rename_i hps
    rw [wakeDue_thr] at hp
    split at hp
    · rename_i hm
      obtain ⟨_, d, hd, hdue⟩ := (mem_dueOf s t).1 hm
      have hl := want_length (s.thr t).pc
      rw [h.c1 t ht hps] at hd ⊢
      cases hw : want (s.thr t).pc with
      | nil => rfl
      | cons a l =>
        rw [hw] at hl hd
        cases l with
        | nil => simp only [List.mem_singleton] at hd; subst hd; simp [hdue]
        | cons b l => simp at hl
    · rw [hps] at hp; cases hp
  · rfl

theorem Q.wakeDue {T : Nat → Prop} {s : St} (h : Q s.thr s.ready 0) (hc : Core T s)
    (hT : ∀ t, t ≠ 0 → T t) : Q (Sched.wakeDue s).thr (Sched.wakeDue s).ready 0 := by
  rw [wakeDue_eq]
  refine Q.foldWake (s := s.pruneSleepers) h ?_ ?_
  · intro t ht _; exact ((mem_dueOf s t).1 ht).1
  · intro t h0
    rw [count_dueOf]
    split
    · rename_i hp
      rw [hc.c1 t (hT t h0) hp]
      exact Nat.le_trans (List.length_filter_le _ _) (want_length _)
    · omega

theorem Core.pollOne {T : Nat → Prop} {s : St} (fds : List Nat) (e : Nat × Nat) (h : Core T s) :
    Core T (Sched.pollOne fds s e) := by
  unfold Sched.pollOne; split
  · rename_i hc
    refine h.wake ?_
    intro hT d hd
    exact absurd hd (h.c0 e.2 hT (Or.inr (Or.inl hc.2)) d)
  · exact h

theorem Core.foldPoll {T : Nat → Prop} {fds : List Nat} {l : List (Nat × Nat)} :
    ∀ {s : St}, Core T s → Core T (l.foldl (Sched.pollOne fds) s) := by
  induction l with
  | nil => intro s h; exact h
  | cons a l ih => intro s h; exact ih (h.pollOne fds a)

theorem Core.poll {T : Nat → Prop} {s : St} (fds : List Nat) (h : Core T s) :
    Core T (Sched.poll s fds) := by
  rw [poll_eq]
  exact Core.foldPoll (s := s.pruneIo) (h.congr (fun _ _ => Or.inl (Mild.rfl' _))
    (fun _ _ => rfl) (Nat.le_refl _))

/-- A thread woken by a poll was waiting for one of the descriptors. -/
theorem foldPoll_woken {fds : List Nat} {l : List (Nat × Nat)} : ∀ {s : St} {t : Nat},
    (s.thr t).state.parked = true → ((l.foldl (pollOne fds) s).thr t).state.parked = false →
    (s.thr t).state = .ioWaiting ∧ ∃ e ∈ l, e.2 = t ∧ e.1 ∈ fds := by
  induction l with
  | nil => intro s t h1 h2; simp only [List.foldl_nil] at h2; rw [h1] at h2; cases h2
  | cons a l ih =>
    intro s t h1 h2
    rw [List.foldl_cons] at h2
    by_cases hc : a.1 ∈ fds ∧ (s.thr a.2).state = .ioWaiting
    · by_cases e : t = a.2
      · subst e; exact ⟨hc.2, a, List.mem_cons_self, rfl, hc.1⟩
      · have hs : (pollOne fds s a).thr t = s.thr t := by simp [pollOne, hc, e]
        obtain ⟨h3, b, hb, h4⟩ := ih (s := pollOne fds s a) (by rw [hs]; exact h1) h2
        rw [hs] at h3
        exact ⟨h3, b, List.mem_cons_of_mem _ hb, h4⟩
    · have hs : pollOne fds s a = s := by simp [pollOne, hc]
      rw [hs] at h2
      obtain ⟨h3, b, hb, h4⟩ := ih h1 h2
      exact ⟨h3, b, List.mem_cons_of_mem _ hb, h4⟩

theorem poll_woken {s : St} {fds : List Nat} {t : Nat} (h1 : (s.thr t).state.parked = true)
    (h2 : ((poll s fds).thr t).state.parked = false) :
    (s.thr t).state = .ioWaiting ∧ ∃ e ∈ s.io, e.2 = t ∧ e.1 ∈ fds := by
  rw [poll_eq] at h2
  obtain ⟨h3, e, he, h4⟩ := foldPoll_woken (s := s.pruneIo) h1 h2
  exact ⟨h3, e, (List.mem_filter.1 he).1, h4⟩

end Verif.Sched
