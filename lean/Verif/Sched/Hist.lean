import Verif.Sched.Join

/-! # Numbers of queued and delivered interrupts (helper lemmas for C26) -/

namespace Verif.Sched

/-- The numbers of the pending interrupts increase, none has been delivered, and no number was
delivered twice. -/
structure HT (x : Thread) : Prop where
  h1 : (x.pending.map (·.1)).Pairwise (· < ·)
  h2 : ∀ p ∈ x.pending, p.1 < x.queued
  h3 : ∀ id ∈ x.got, id < x.queued
  h4 : x.got.Nodup
  h5 : ∀ p ∈ x.pending, p.1 ∉ x.got

theorem HT.congr {x y : Thread} (h : HT x) (e : y.iv = x.iv) : HT y := by
  simp only [Thread.iv, IV.mk.injEq] at e
  obtain ⟨e1, e2, e3, _, _⟩ := e
  constructor
  · rw [e1]; exact h.h1
  · rw [e1, e3]; exact h.h2
  · rw [e2, e3]; exact h.h3
  · rw [e2]; exact h.h4
  · rw [e1, e2]; exact h.h5

theorem HT.push {x : Thread} (h : HT x) (i : Intr) : HT (push x i) := by
  constructor
  · simp only [Sched.push, List.map_append, List.map_cons, List.map_nil]
    rw [List.pairwise_append]
    refine ⟨h.h1, by simp, ?_⟩
    intro a ha b hb
    simp at hb; subst hb
    rw [List.mem_map] at ha
    obtain ⟨p, hp, rfl⟩ := ha
    exact h.h2 p hp
  · intro p hp
    simp only [Sched.push, List.mem_append, List.mem_singleton] at hp ⊢
    rcases hp with hp | rfl
    · exact Nat.lt_succ_of_lt (h.h2 p hp)
    · exact Nat.lt_succ_self _
  · intro id hid; exact Nat.lt_succ_of_lt (h.h3 id hid)
  · exact h.h4
  · intro p hp
    simp only [Sched.push, List.mem_append, List.mem_singleton] at hp ⊢
    rcases hp with hp | rfl
    · exact h.h5 p hp
    · intro hc; exact absurd (h.h3 _ hc) (Nat.lt_irrefl _)

theorem HT.deliver {x : Thread} (h : HT x) (b : Bool) : HT (deliver x b).1 := by
  rcases deliver_cases x b with ⟨id, rs, ht, e⟩ | ⟨_, e⟩
  · rw [e]
    obtain ⟨pre, i, post, e1, e2, _, _⟩ := takeFirst_some ht
    have hm : ∀ p ∈ rs, p ∈ x.pending := by
      intro p hp; rw [e2] at hp; rw [e1]; simp at hp ⊢
      rcases hp with hp | hp
      · exact Or.inl hp
      · exact Or.inr (Or.inr hp)
    have hs : List.Sublist rs x.pending := by
      rw [e1, e2]; exact (List.sublist_cons_self _ _).append_left pre
    have hi : (id, i) ∈ x.pending := by rw [e1]; simp
    have h1 : (rs.map (·.1)).Pairwise (· < ·) := h.h1.sublist (hs.map _)
    have hne : ∀ p ∈ rs, p.1 ≠ id := by
      have hp := h.h1
      rw [e1] at hp
      simp only [List.map_append, List.map_cons] at hp
      rw [List.pairwise_append] at hp
      obtain ⟨_, hp2, hp3⟩ := hp
      intro p hp e
      rw [e2, List.mem_append] at hp
      rcases hp with hp | hp
      · exact absurd (hp3 p.1 (List.mem_map.2 ⟨p, hp, rfl⟩) id (by simp)) (by omega)
      · exact absurd ((List.pairwise_cons.1 hp2).1 p.1 (List.mem_map.2 ⟨p, hp, rfl⟩)) (by omega)
    constructor
    · exact h1
    · intro p hp; exact h.h2 p (hm p hp)
    · intro d hd
      simp only [List.mem_append, List.mem_singleton] at hd
      rcases hd with hd | rfl
      · exact h.h3 d hd
      · exact h.h2 _ hi
    · simp only [List.nodup_append, h.h4, true_and]
      refine ⟨by simp, ?_⟩
      intro a ha b hb; simp at hb; subst hb
      rintro rfl; exact h.h5 _ hi ha
    · intro p hp hc
      simp only [List.mem_append, List.mem_singleton] at hc
      rcases hc with hc | hc
      · exact h.h5 p (hm p hp) hc
      · exact hne p hp hc
  · rw [e]; exact h

theorem HT.evt {s : St} {a : Act} {t : Nat} {x x' : Thread} (h : HT x) (e : Evt s a t x x') :
    HT x' := by
  cases e with
  | quiet e => exact h.congr e
  | push i e _ => exact (h.push i).congr e
  | give b e _ => exact (h.deliver b).congr e
  | own i e _ => exact ((h.push i).deliver false).congr e
  | die e _ =>
    simp only [Thread.iv, IV.mk.injEq] at e
    obtain ⟨e1, e2, e3, _, _⟩ := e
    constructor
    · rw [e1]; simp
    · rw [e1]; simp
    · rw [e2, e3]; exact h.h3
    · rw [e2]; exact h.h4
    · rw [e1]; simp
  | dieFirst id i rest _ hp e _ =>
    simp only [Thread.iv, IV.mk.injEq] at e
    obtain ⟨e1, e2, e3, _, _⟩ := e
    have hi : (id, i) ∈ x.pending := by rw [hp]; simp
    constructor
    · rw [e1]; simp
    · rw [e1]; simp
    · rw [e2, e3]; intro d hd
      simp only [List.mem_append, List.mem_singleton] at hd
      rcases hd with hd | rfl
      · exact h.h3 d hd
      · exact h.h2 _ hi
    · rw [e2]
      simp only [List.nodup_append, h.h4, true_and]
      refine ⟨by simp, ?_⟩
      intro a ha b hb; simp at hb; subst hb
      rintro rfl; exact h.h5 _ hi ha
    · rw [e1]; simp
  | mask hp hg hq _ =>
    constructor
    · rw [hp]; exact h.h1
    · rw [hp, hq]; exact h.h2
    · rw [hg, hq]; exact h.h3
    · rw [hg]; exact h.h4
    · rw [hp, hg]; exact h.h5
  | born _ hp hg _ _ =>
    constructor
    · rw [hp]; simp
    · rw [hp]; simp
    · rw [hg]; simp
    · rw [hg]; simp
    · rw [hp]; simp

/-! ## The number of threads -/

theorem afterPark_n (s : St) (t : Nat) : (afterPark s t).n = s.n := by
  unfold afterPark; split <;> rfl
theorem afterErr_n (s : St) (t : Nat) (p : PC) : (afterErr s t p).n = s.n := by
  unfold afterErr; split <;> rfl
theorem switch_n (s : St) (t : Nat) : (switch s t).n = s.n := by
  unfold switch; split <;> rfl
theorem mainBack_n (s : St) (b : Bool) : (mainBack s b).n = s.n := by
  unfold mainBack
  simp only
  split
  · rw [afterErr_n]; rfl
  · rw [afterPark_n]
theorem finalize_n (s : St) (t : Nat) (fwd : Option Intr) : (finalize s t fwd).n = s.n := by
  have h := (same_foldl joinerOne same_joinerOne (s.thr t).joiners
    (s.mod t fun x => { x with pending := [], state := .dead, joiners := [] })).n
  unfold finalize
  simp only
  split
  · exact h
  · split
    · exact h
    · split <;> exact h
theorem dispatch_n (s : St) (t : Nat) : (dispatch s t).n = s.n := by
  unfold dispatch
  split
  · split
    · exact finalize_n _ _ _
    · rfl
  · split
    · rfl
    · simp only
      split
      · rw [afterErr_n]; rfl
      · rw [afterPark_n]; rfl
theorem machine_n (s : St) (fds : List Nat) : (poll (wakeDue s) fds).n = s.n :=
  (poll_same _ fds).n.trans (wakeDue_same s).n
theorem joinLoop_n (s : St) (c t : Nat) (dl : Option Nat) : (joinLoop s c t dl).n = s.n := by
  unfold joinLoop
  split
  · rfl
  · simp only
    split
    · rfl
    · split
      · rfl
      · rw [switch_n]; rfl

theorem call_n {s s' : St} {c : Nat} {q : Call} (h : doCall s c q = some s') : s.n ≤ s'.n := by
  cases q with
  | spawn ab =>
    simp only [doCall, Option.some.injEq] at h; subst h; exact Nat.le_succ _
  | wakeup t p =>
    simp only [doCall] at h
    split at h
    · injection h with h; subst h
      unfold Sched.wakeup
      split
      · exact Nat.le_refl _
      · split <;> exact Nat.le_refl _
      · exact Nat.le_refl _
    · cases h
  | sleep dl =>
    simp only [doCall, Option.some.injEq] at h; subst h
    unfold Sched.sleep
    split
    · exact Nat.le_refl _
    · simp only
      split
      · exact Nat.le_refl _
      · rw [switch_n]; exact Nat.le_refl _
  | pass fds =>
    simp only [doCall, Option.some.injEq] at h; subst h
    unfold Sched.pass
    split
    · exact Nat.le_refl _
    · simp only
      split
      · show _ ≤ (poll _ fds).n; rw [machine_n]; exact Nat.le_refl _
      · rw [switch_n]; exact Nat.le_refl _
  | join t dl =>
    simp only [doCall] at h
    split at h
    · injection h with h; subst h
      unfold joinEnter
      split <;> exact Nat.le_refl _
    · cases h
  | waitFds fds dl =>
    simp only [doCall, Option.some.injEq] at h; subst h
    unfold Sched.waitFds
    split
    · exact Nat.le_refl _
    · simp only [switch_n]; exact Nat.le_refl _
  | interrupt t i =>
    simp only [doCall] at h
    split at h
    · injection h with h; subst h
      unfold Sched.interrupt
      split
      · exact Nat.le_refl _
      · split
        · exact Nat.le_refl _
        · simp only
          split <;> exact Nat.le_refl _
    · cases h
  | pushMask ms => simp only [doCall, Option.some.injEq] at h; subst h; exact Nat.le_refl _
  | popMask => simp only [doCall, Option.some.injEq] at h; subst h; exact Nat.le_refl _
  | setUnint on => simp only [doCall, Option.some.injEq] at h; subst h; exact Nat.le_refl _
  | checkpoint b => simp only [doCall, Option.some.injEq] at h; subst h; exact Nat.le_refl _
  | exit fwd =>
    simp only [doCall] at h
    split at h
    · cases h
    · injection h with h; subst h; rw [finalize_n]; exact Nat.le_refl _
  | fork => simp only [doCall, Option.some.injEq] at h; subst h; exact Nat.le_refl _

theorem step_n {s s' : St} {a : Act} (h : step s a = some s') : s.n ≤ s'.n := by
  unfold Sched.step at h
  split at h
  · cases h
  cases a with
  | tick d => simp only [Option.some.injEq] at h; subst h; exact Nat.le_refl _
  | loopIter fds =>
    simp only at h
    split at h
    · injection h with h
      subst h
      have hm := machine_n s fds
      unfold Sched.loopIter
      simp only
      generalize Sched.poll (Sched.wakeDue s) fds = u at hm
      split
      · rw [mainBack_n, hm]; exact Nat.le_refl _
      · split
        · rw [dispatch_n]; exact hm ▸ Nat.le_refl _
        · exact hm ▸ Nat.le_refl _
    · cases h
  | idle fds =>
    simp only at h
    split at h
    · injection h with h; subst h
      show s.n ≤ (poll s fds).n
      rw [(poll_same s fds).n]; exact Nat.le_refl _
    · cases h
  | loopErr =>
    simp only at h
    split at h
    · injection h with h
      subst h
      rw [afterErr_n]; exact Nat.le_refl _
    · cases h
  | passNext =>
    simp only at h
    split at h
    · split at h
      · split at h
        · injection h with h; subst h; rw [dispatch_n]; exact Nat.le_refl _
        · injection h with h; subst h; rw [mainBack_n]; exact Nat.le_refl _
      · cases h
    · cases h
  | joinLoop =>
    simp only at h
    split at h
    · split at h
      · injection h with h
        subst h
        rw [joinLoop_n]; exact Nat.le_refl _
      · cases h
    · cases h
  | call q =>
    simp only at h
    split at h
    · split at h
      · exact call_n h
      · cases h
    · cases h

theorem call_of_step {s s' : St} {q : Call} (h : step s (.call q) = some s') :
    ∃ c, running s = some c ∧ (s.thr c).pc = .user ∧ doCall s c q = some s' := by
  unfold Sched.step at h
  split at h
  · cases h
  simp only at h
  split at h
  · rename_i c hc
    split at h
    · rename_i hu; exact ⟨c, hc, hu, h⟩
    · cases h
  · cases h

theorem interrupt_lt {s s' : St} {t : Nat} {i : Intr} (h : step s (.call (.interrupt t i)) = some s') :
    t < s.n := by
  obtain ⟨c, _, _, h⟩ := call_of_step h
  simp only [doCall] at h
  split at h
  · assumption
  · cases h

/-- The invariant of all threads. -/
structure H (s : St) : Prop where
  each : ∀ t, HT (s.thr t)
  fresh : ∀ t, s.n ≤ t → (s.thr t).pending = [] ∧ (s.thr t).got = []

theorem H.step {nf : Bool} {s s' : St} {a : Act} (hP : P nf s) (h : H s) (hs : step s a = some s') :
    H s' := by
  refine ⟨fun t => (h.each t).evt (step_evt hP hs t), ?_⟩
  intro t ht
  have htn : s.n ≤ t := Nat.le_trans (step_n hs) ht
  obtain ⟨hp, hg⟩ := h.fresh t htn
  cases step_evt hP hs t with
  | quiet e =>
    simp only [Thread.iv, IV.mk.injEq] at e
    exact ⟨e.1.trans hp, e.2.1.trans hg⟩
  | push i e ha =>
    rcases ha with rfl | rfl
    · exact absurd (interrupt_lt hs) (by omega)
    · exact absurd hP.n0 (by omega)
  | give b e _ =>
    have hd : (deliver (s.thr t) b).1 = s.thr t := by unfold deliver; rw [hp]; rfl
    rw [hd] at e
    simp only [Thread.iv, IV.mk.injEq] at e
    exact ⟨e.1.trans hp, e.2.1.trans hg⟩
  | own i e ha => subst ha; exact absurd (interrupt_lt hs) (by omega)
  | die e _ =>
    simp only [Thread.iv, IV.mk.injEq] at e
    exact ⟨e.1, e.2.1.trans hg⟩
  | dieFirst id i rest hc hp' e _ => rw [hp] at hp'; cases hp'
  | mask hp' hg' _ _ => exact ⟨hp'.trans hp, hg'.trans hg⟩
  | born _ hp' hg' _ _ => exact ⟨hp', hg'⟩

theorem H.init : H init := by
  refine ⟨fun t => ?_, fun t _ => ⟨rfl, rfl⟩⟩
  constructor <;> simp [Sched.init]

theorem H.run : ∀ (as : List Act) {s s' : St}, P false s → H s → run s as = some s' → H s' := by
  intro as
  induction as with
  | nil => intro s s' _ h hr; simp only [Sched.run, Option.some.injEq] at hr; subst hr; exact h
  | cons a as ih =>
    intro s s' hP h hr
    simp only [Sched.run] at hr
    split at hr
    · rename_i s1 hs
      exact ih (hP.step (by simp) hs) (h.step hP hs) hr
    · cases hr

theorem Reachable.h {s : St} (h : Reachable s) : H s := by
  obtain ⟨as, ha⟩ := h
  exact H.run as (P.init false) H.init ha

end Verif.Sched
