import Verif.NativePool.Model

/-! # Invariant of the worker pool -/

namespace Verif.NativePool

/-- The worker is inside the `ORPHANS` critical section. -/
def Worker.holds : Worker → Bool
  | .holding _ | .inserting _ | .inserted | .dropped => true
  | _ => false

/-- The waiter is inside the `ORPHANS` critical section. -/
def Waiter.holds : Waiter → Bool
  | .dholding | .dmark | .dleaving => true
  | _ => false

/-- The waiter and the orphan mark while the worker has not decided. -/
def Pre (w : Waiter) (o : Bool) : Prop :=
  match w with
  | .got _ => False
  | .dleaving | .gone => o = true
  | _ => o = false

/-- The waiter, the stored result and the history once the worker has stored `c`. -/
def Post (w : Waiter) (r : Option Comp) (evs : List Ev) (c : Comp) : Prop :=
  match w with
  | .got d => d = c ∧ r = none ∧ evs = [.fin c, .took c]
  | .dleaving | .gone => r = none ∧ evs = [.fin c, .dropped c]
  | .dmark => False
  | _ => r = some c ∧ evs = [.fin c]

/-- The worker has dropped the result. -/
def Drop (w : Waiter) (r : Option Comp) (evs : List Ev) : Prop :=
  w = .gone ∧ r = none ∧ ∃ c, evs = [.fin c, .dropped c]

/-- One job. -/
def JobInv (j : Job) (r : Option Comp) (o : Bool) : Prop :=
  match j.worker with
  | .running => r = none ∧ j.evs = [] ∧ Pre j.waiter o
  | .finished c | .holding c => r = none ∧ j.evs = [.fin c] ∧ Pre j.waiter o
  | .inserting c => r = none ∧ j.evs = [.fin c] ∧ o = false ∧ j.waiter ≠ .gone ∧ Pre j.waiter o
  | .inserted | .toWrite => o = false ∧ ∃ c, Post j.waiter r j.evs c
  | .dropped => o = false ∧ Drop j.waiter r j.evs
  | .done => o = false ∧ ((∃ c, Post j.waiter r j.evs c) ∨ Drop j.waiter r j.evs)

/-- The whole pool. -/
structure Inv (s : St) : Prop where
  job : ∀ i j, s.jobs[i]? = some j → JobInv j (s.results i) (s.orphans i)
  lockW : ∀ i j, s.jobs[i]? = some j → (j.worker.holds = true ↔ s.lock = some (i, true))
  lockD : ∀ i j, s.jobs[i]? = some j → (j.waiter.holds = true ↔ s.lock = some (i, false))
  out : ∀ i, s.jobs[i]? = none → s.results i = none ∧ s.orphans i = false ∧ ∀ b, s.lock ≠ some (i, b)

theorem inv_init : Inv init := by
  constructor <;> intros <;> simp_all [init]

theorem inv_frame {s s' : St} {i : Nat} {j j' : Job} (h : Inv s) (hj : s.jobs[i]? = some j)
    (hjobs : s'.jobs = s.jobs.set i j')
    (hr : ∀ k, k ≠ i → s'.results k = s.results k) (ho : ∀ k, k ≠ i → s'.orphans k = s.orphans k)
    (hinv : JobInv j' (s'.results i) (s'.orphans i))
    (hlw : j'.worker.holds = true ↔ s'.lock = some (i, true))
    (hld : j'.waiter.holds = true ↔ s'.lock = some (i, false))
    (hl : ∀ k, k ≠ i → ∀ b, s'.lock = some (k, b) ↔ s.lock = some (k, b)) : Inv s' := by
  have hlt : i < s.jobs.length := by
    rcases List.getElem?_eq_some_iff.1 hj with ⟨h1, _⟩; exact h1
  have hi : s'.jobs[i]? = some j' := by
    rw [hjobs, List.getElem?_set]; simp [hlt]
  have hk : ∀ k, k ≠ i → s'.jobs[k]? = s.jobs[k]? := by
    intro k hne; rw [hjobs, List.getElem?_set]; simp [Ne.symm hne]
  constructor
  · intro k jk hjk
    by_cases e : k = i
    · subst e; rw [hi] at hjk; cases hjk; exact hinv
    · rw [hk k e] at hjk; rw [hr k e, ho k e]; exact h.job k jk hjk
  · intro k jk hjk
    by_cases e : k = i
    · subst e; rw [hi] at hjk; cases hjk; exact hlw
    · rw [hk k e] at hjk; rw [hl k e]; exact h.lockW k jk hjk
  · intro k jk hjk
    by_cases e : k = i
    · subst e; rw [hi] at hjk; cases hjk; exact hld
    · rw [hk k e] at hjk; rw [hl k e]; exact h.lockD k jk hjk
  · intro k hjk
    by_cases e : k = i
    · subst e; rw [hi] at hjk; cases hjk
    · rw [hk k e] at hjk; rw [hr k e, ho k e]
      obtain ⟨a, b, c⟩ := h.out k hjk
      exact ⟨a, b, fun x => by rw [Ne, hl k e x]; exact c x⟩

theorem upd_same {α : Type} (f : Nat → α) (i : Nat) (a : α) : upd f i a i = a := by simp [upd]
theorem upd_ne {α : Type} (f : Nat → α) (i k : Nat) (a : α) (h : k ≠ i) : upd f i a k = f k := by
  simp [upd, h]

theorem stepJob_inv {s s' : St} {i : Nat} {j : Job} {a : Act} (h : Inv s)
    (hj : s.jobs[i]? = some j) (hs : stepJob s i j a = some s') : Inv s' := by
  have hJ := h.job i j hj
  have hW := h.lockW i j hj
  have hD := h.lockD i j hj
  obtain ⟨ow, op, wk, wt, evs⟩ := j
  cases a <;> cases wk <;> cases wt <;> simp only [stepJob, reduceCtorEq] at hs
  all_goals (repeat' split at hs)
  all_goals first
    | (cases hs; done)
    | skip
  all_goals (injection hs with hs; subst hs)
  all_goals apply inv_frame h hj rfl
  all_goals first
    | (intro k hk; first | rfl | exact upd_ne _ _ _ _ hk)
    | skip
  all_goals simp_all [JobInv, Pre, Post, Drop, Worker.holds, Waiter.holds, upd_same]
  all_goals (intro k hk e; exact hk e.symm)

/-- An action about a ticket is a step of that ticket's job. -/
theorem step_job {s s' : St} {a : Act} (hs : step s a = some s') :
    (∃ o op, a = .submit o op ∧
      s' = { s with jobs := s.jobs ++ [⟨o, op, .running, .checking, []⟩] }) ∨
    (∃ o, a = .poll o ∧ 0 < s.pipe o ∧ s' = { s with jobs := s.jobs.map (wake o) }) ∨
    (∃ i j, a.ticket? = some i ∧ s.jobs[i]? = some j ∧ stepJob s i j a = some s') := by
  cases a
  case submit o op => left; simp [step] at hs; exact ⟨o, op, rfl, hs.symm⟩
  case poll o =>
    right; left; simp only [step] at hs
    split at hs
    · cases hs
    · injection hs with hs; exact ⟨o, rfl, by omega, hs.symm⟩
  all_goals
    right; right; simp only [step, Act.ticket?] at hs ⊢
    split at hs
    · rename_i j hj; exact ⟨_, j, rfl, hj, hs⟩
    · cases hs

theorem jobInv_wake {o : Nat} {j : Job} {r : Option Comp} {b : Bool} (h : JobInv j r b) :
    JobInv (wake o j) r b := by
  unfold wake; split
  · rename_i hw
    obtain ⟨ow, op, wk, wt, evs⟩ := j
    obtain ⟨_, hw⟩ := hw; simp only at hw; subst hw
    cases wk <;> simp_all [JobInv, Pre, Post, Drop]
  · exact h

theorem wake_worker (o : Nat) (j : Job) : (wake o j).worker = j.worker := by
  unfold wake; split <;> rfl
theorem wake_holds (o : Nat) (j : Job) : (wake o j).waiter.holds = j.waiter.holds := by
  unfold wake; split
  · rename_i h; simp [Waiter.holds, h.2]
  · rfl
theorem wake_owner (o : Nat) (j : Job) : (wake o j).owner = j.owner := by
  unfold wake; split <;> rfl
theorem wake_op (o : Nat) (j : Job) : (wake o j).op = j.op := by
  unfold wake; split <;> rfl
theorem wake_evs (o : Nat) (j : Job) : (wake o j).evs = j.evs := by
  unfold wake; split <;> rfl
theorem wake_ended (o : Nat) (j : Job) : (wake o j).waiter.ended = j.waiter.ended := by
  unfold wake; split
  · rename_i h; simp [Waiter.ended, h.2]
  · rfl

theorem step_inv {s s' : St} {a : Act} (h : Inv s) (hs : step s a = some s') : Inv s' := by
  rcases step_job hs with ⟨o, op, rfl, rfl⟩ | ⟨o, rfl, hp, rfl⟩ | ⟨i, j, _, hj, hs⟩
  · have key : ∀ (i : Nat) (j : Job), (s.jobs ++ [⟨o, op, .running, .checking, []⟩])[i]? = some j →
        s.jobs[i]? = some j ∨ (s.jobs[i]? = none ∧ j = ⟨o, op, .running, .checking, []⟩) := by
      intro i j hj
      rw [List.getElem?_append] at hj
      split at hj
      · exact Or.inl hj
      · right
        rename_i hlt
        refine ⟨List.getElem?_eq_none (by omega), ?_⟩
        cases hk : i - s.jobs.length with
        | zero => rw [hk] at hj; simpa using hj.symm
        | succ n => rw [hk] at hj; simp at hj
    constructor
    · intro i j hj
      rcases key i j hj with hj | ⟨hn, rfl⟩
      · exact h.job i j hj
      · obtain ⟨a, b, c⟩ := h.out i hn
        simp [JobInv, Pre, a, b]
    · intro i j hj
      rcases key i j hj with hj | ⟨hn, rfl⟩
      · exact h.lockW i j hj
      · obtain ⟨a, b, c⟩ := h.out i hn
        simp [Worker.holds, c]
    · intro i j hj
      rcases key i j hj with hj | ⟨hn, rfl⟩
      · exact h.lockD i j hj
      · obtain ⟨a, b, c⟩ := h.out i hn
        simp [Waiter.holds, c]
    · intro i hi
      apply h.out i
      simp only [List.getElem?_eq_none_iff, List.length_append, List.length_singleton] at hi ⊢
      omega
  · have key : ∀ (i : Nat) (j : Job), (s.jobs.map (wake o))[i]? = some j →
        ∃ j0, s.jobs[i]? = some j0 ∧ j = wake o j0 := by
      intro i j hj
      rw [List.getElem?_map] at hj
      cases h0 : s.jobs[i]? with
      | none => simp [h0] at hj
      | some j0 => refine ⟨j0, rfl, ?_⟩; simpa [h0] using hj.symm
    constructor
    · intro i j hj
      obtain ⟨j0, h0, rfl⟩ := key i j hj
      exact jobInv_wake (h.job i j0 h0)
    · intro i j hj
      obtain ⟨j0, h0, rfl⟩ := key i j hj
      rw [wake_worker]; exact h.lockW i j0 h0
    · intro i j hj
      obtain ⟨j0, h0, rfl⟩ := key i j hj
      rw [wake_holds]; exact h.lockD i j0 h0
    · intro i hi
      apply h.out i
      simpa using hi
  · exact stepJob_inv h hj hs

theorem run_inv {s s' : St} {as : List Act} (h : Inv s) (hs : run s as = some s') : Inv s' := by
  induction as generalizing s with
  | nil => simp [run] at hs; exact hs ▸ h
  | cons a as ih =>
    simp only [run] at hs
    split at hs
    · rename_i s1 h1; exact ih (step_inv h h1) hs
    · cases hs

theorem reachable_inv {s : St} (h : Reachable s) : Inv s := by
  obtain ⟨as, h⟩ := h; exact run_inv inv_init h

theorem run_append {s : St} {as bs : List Act} :
    run s (as ++ bs) = match run s as with | some s' => run s' bs | none => none := by
  induction as generalizing s with
  | nil => simp [run]
  | cons a as ih =>
    simp only [run, List.cons_append]
    split
    · exact ih
    · rfl

/-! ## One outstanding job per interpreter -/

/-- Every `submit` happens when the interpreter has no other job whose waiter is still there. -/
def Serial (s : St) : List Act → Prop
  | [] => True
  | a :: as =>
    (∀ o op, a = .submit o op → ∀ j ∈ s.jobs, j.owner = o → j.waiter.ended = true) ∧
    ∀ s', step s a = some s' → Serial s' as

/-- What a serial schedule keeps. -/
structure SInv (s : St) : Prop where
  uniq : ∀ (i k : Nat) (j l : Job), s.jobs[i]? = some j → s.jobs[k]? = some l → j.owner = l.owner →
    j.waiter.ended = false → l.waiter.ended = false → i = k
  pend : ∀ (i : Nat) (j : Job), s.jobs[i]? = some j → (j.waiter = .toPark ∨ j.waiter = .parked) →
    j.worker = .done → 0 < s.pipe j.owner

theorem sinv_init : SInv init := by
  constructor <;> intros <;> simp_all [init]

/-- How a step of one job moves it. -/
theorem stepJob_shape {s s' : St} {i : Nat} {j : Job} {a : Act} (h : Inv s)
    (hj : s.jobs[i]? = some j) (hs : stepJob s i j a = some s') :
    ∃ j', s'.jobs = s.jobs.set i j' ∧ j'.owner = j.owner ∧
      (j.waiter.ended = true → j'.waiter.ended = true) ∧
      ((∀ k, s.pipe k ≤ s'.pipe k) ∨ (j.waiter = .woken ∧ j'.waiter = .checking ∧
        ∀ k, k ≠ j.owner → s'.pipe k = s.pipe k)) ∧
      ((j'.waiter = .toPark ∨ j'.waiter = .parked) → j'.worker = .done →
        (0 < s'.pipe j.owner ∨
          ((j.waiter = .toPark ∨ j.waiter = .parked) ∧ j.worker = .done))) := by
  have hJ := h.job i j hj
  obtain ⟨ow, op, wk, wt, evs⟩ := j
  cases a <;> cases wk <;> cases wt <;> simp only [stepJob, reduceCtorEq] at hs
  all_goals (repeat' split at hs)
  all_goals first
    | (cases hs; done)
    | skip
  all_goals (injection hs with hs; subst hs)
  all_goals refine ⟨_, rfl, rfl, ?_, ?_, ?_⟩
  all_goals simp_all [JobInv, Pre, Post, Drop, Waiter.ended, upd]
  all_goals (intro k; split <;> first | omega | (rename_i e; subst e; omega))

theorem getElem?_set_cases {l : List Job} {i k : Nat} {j j' jk : Job} (hj : l[i]? = some j)
    (h : (l.set i j')[k]? = some jk) : (k = i ∧ jk = j') ∨ (k ≠ i ∧ l[k]? = some jk) := by
  have hlt : i < l.length := by
    rcases List.getElem?_eq_some_iff.1 hj with ⟨h1, _⟩; exact h1
  rw [List.getElem?_set] at h
  by_cases e : i = k
  · subst e; simp [hlt] at h; exact Or.inl ⟨rfl, h.symm⟩
  · simp [e] at h; exact Or.inr ⟨fun x => e x.symm, h⟩

theorem ended_false {w : Waiter} (h : w = .toPark ∨ w = .parked) : w.ended = false := by
  rcases h with rfl | rfl <;> rfl

theorem step_sinv {s s' : St} {a : Act} (hi : Inv s) (h : SInv s)
    (hser : ∀ o op, a = .submit o op → ∀ j ∈ s.jobs, j.owner = o → j.waiter.ended = true)
    (hs : step s a = some s') : SInv s' := by
  rcases step_job hs with ⟨o, op, rfl, rfl⟩ | ⟨o, rfl, hp, rfl⟩ | ⟨i, j, _, hj, hs⟩
  · have hser := hser o op rfl
    have key : ∀ (i : Nat) (j : Job), (s.jobs ++ [⟨o, op, .running, .checking, []⟩])[i]? = some j →
        s.jobs[i]? = some j ∨
        (i = s.jobs.length ∧ j = ⟨o, op, .running, .checking, []⟩) := by
      intro i j hj
      rw [List.getElem?_append] at hj
      split at hj
      · exact Or.inl hj
      · right
        rename_i hlt
        cases hk : i - s.jobs.length with
        | zero => rw [hk] at hj; exact ⟨by omega, by simpa using hj.symm⟩
        | succ n => rw [hk] at hj; simp at hj
    constructor
    · intro i k j l hj hl ho he1 he2
      rcases key i j hj with h1 | ⟨h1, rfl⟩ <;> rcases key k l hl with h2 | ⟨h2, rfl⟩
      · exact h.uniq i k j l h1 h2 ho he1 he2
      · rw [hser j (List.mem_of_getElem? h1) ho] at he1; cases he1
      · rw [hser l (List.mem_of_getElem? h2) ho.symm] at he2; cases he2
      · omega
    · intro i j hj hw hd
      rcases key i j hj with h1 | ⟨h1, rfl⟩
      · exact h.pend i j h1 hw hd
      · cases hd
  · have key : ∀ (i : Nat) (j : Job), (s.jobs.map (wake o))[i]? = some j →
        ∃ j0, s.jobs[i]? = some j0 ∧ j = wake o j0 := by
      intro i j hj
      rw [List.getElem?_map] at hj
      cases h0 : s.jobs[i]? with
      | none => simp [h0] at hj
      | some j0 => refine ⟨j0, rfl, ?_⟩; simpa [h0] using hj.symm
    constructor
    · intro i k j l hj hl ho he1 he2
      obtain ⟨j0, h0, rfl⟩ := key i j hj
      obtain ⟨l0, h1, rfl⟩ := key k l hl
      rw [wake_owner, wake_owner] at ho
      rw [wake_ended] at he1 he2
      exact h.uniq i k j0 l0 h0 h1 ho he1 he2
    · intro i j hj hw hd
      obtain ⟨j0, h0, rfl⟩ := key i j hj
      rw [wake_owner]
      rw [wake_worker] at hd
      refine h.pend i j0 h0 ?_ hd
      unfold wake at hw; split at hw
      · simp at hw
      · exact hw
  · obtain ⟨j', hjobs, hown, hend, hpipe, hpend⟩ := stepJob_shape hi hj hs
    constructor
    · intro k m x y hx hy ho he1 he2
      rw [hjobs] at hx hy
      have eb : j'.waiter.ended = false → j.waiter.ended = false := by
        intro e; cases hh : j.waiter.ended
        · rfl
        · rw [hend hh] at e; cases e
      rcases getElem?_set_cases hj hx with ⟨rfl, rfl⟩ | ⟨h1, hx'⟩ <;>
        rcases getElem?_set_cases hj hy with ⟨rfl, rfl⟩ | ⟨h2, hy'⟩
      · rfl
      · exact h.uniq _ _ j y hj hy' (by rw [← hown, ho]) (eb he1) he2
      · exact h.uniq _ _ x j hx' hj (by rw [ho, hown]) he1 (eb he2)
      · exact h.uniq _ _ x y hx' hy' ho he1 he2
    · intro k x hx hw hd
      rw [hjobs] at hx
      rcases getElem?_set_cases hj hx with ⟨rfl, rfl⟩ | ⟨h1, hx⟩
      · rw [hown]
        rcases hpend hw hd with hp | ⟨hw0, hd0⟩
        · exact hp
        · rcases hpipe with hp | ⟨hw1, _, _⟩
          · exact Nat.lt_of_lt_of_le (h.pend _ j hj hw0 hd0) (hp _)
          · rcases hw0 with e | e <;> rw [e] at hw1 <;> cases hw1
      · rcases hpipe with hp | ⟨hw1, _, hp⟩
        · exact Nat.lt_of_lt_of_le (h.pend _ x hx hw hd) (hp _)
        · by_cases e : x.owner = j.owner
          · exact absurd (h.uniq _ _ x j hx hj e (ended_false hw) (by rw [hw1]; rfl)) h1
          · rw [hp _ e]; exact h.pend _ x hx hw hd

theorem run_sinv {s s' : St} {as : List Act} (hi : Inv s) (h : SInv s) (hser : Serial s as)
    (hs : run s as = some s') : SInv s' := by
  induction as generalizing s with
  | nil => simp [run] at hs; exact hs ▸ h
  | cons a as ih =>
    simp only [run] at hs
    split at hs
    · rename_i s1 h1
      exact ih (step_inv hi h1) (step_sinv hi h hser.1 h1) (hser.2 s1 h1) hs
    · cases hs

/-! ## Descriptors -/

theorem step_fds {s s' : St} {a : Act} (hs : step s a = some s') :
    ∀ d, d ∈ s.fds → d ∈ s'.fds := by
  intro d hd
  rcases step_job hs with ⟨o, op, rfl, rfl⟩ | ⟨o, rfl, hp, rfl⟩ | ⟨i, j, _, hj, hs⟩
  · exact hd
  · exact hd
  · obtain ⟨ow, op, wk, wt, evs⟩ := j
    cases a <;> simp only [stepJob, reduceCtorEq] at hs
    all_goals (repeat' split at hs)
    all_goals first
      | (cases hs; done)
      | skip
    all_goals (injection hs with hs; subst hs)
    all_goals simp_all

theorem run_fds {s s' : St} {as : List Act} (hs : run s as = some s') :
    ∀ d, d ∈ s.fds → d ∈ s'.fds := by
  induction as generalizing s with
  | nil => simp [run] at hs; subst hs; simp
  | cons a as ih =>
    simp only [run] at hs
    split at hs
    · rename_i s1 h1; intro d hd; exact ih hs d (step_fds h1 d hd)
    · cases hs

/-- The descriptor of every finished `open` is in the table. -/
def FdInv (s : St) : Prop := ∀ j ∈ s.jobs, j.op = .open → ∀ c, .fin c ∈ j.evs → 0 ≤ c.ret →
  c.ret ∈ s.fds

theorem step_fdinv {s s' : St} {a : Act} (h : FdInv s) (hs : step s a = some s') : FdInv s' := by
  have hgrow := step_fds hs
  rcases step_job hs with ⟨o, op, rfl, rfl⟩ | ⟨o, rfl, hp, rfl⟩ | ⟨i, j, _, hj, hs⟩
  · intro j hj ho c hc h0
    simp only [List.mem_append, List.mem_singleton] at hj
    rcases hj with hj | rfl
    · exact h j hj ho c hc h0
    · simp at hc
  · intro j hj ho c hc h0
    simp only [List.mem_map] at hj
    obtain ⟨j0, h1, rfl⟩ := hj
    rw [wake_op] at ho; rw [wake_evs] at hc
    exact h j0 h1 ho c hc h0
  · have hm := List.mem_of_getElem? hj
    have hold := h j hm
    have key : ∃ j', s'.jobs = s.jobs.set i j' ∧ (j'.op = .open → ∀ c, .fin c ∈ j'.evs →
        0 ≤ c.ret → c.ret ∈ s'.fds) := by
      obtain ⟨ow, op, wk, wt, evs⟩ := j
      cases a <;> simp only [stepJob, reduceCtorEq] at hs
      all_goals (repeat' split at hs)
      all_goals first
        | (cases hs; done)
        | skip
      all_goals (injection hs with hs; subst hs)
      all_goals refine ⟨_, rfl, ?_⟩
      all_goals simp_all [newFds]
      all_goals
        intro ho c hc h0
        rcases hc with hc | rfl
        · right; exact hold ho c hc h0
        · left; simp [ho, h0]
    obtain ⟨j', hjobs, hk⟩ := key
    intro x hx
    rw [hjobs] at hx
    rcases List.mem_or_eq_of_mem_set hx with hx | rfl
    · intro ho c hc h0; exact hgrow _ (h x hx ho c hc h0)
    · exact hk

theorem run_fdinv {s s' : St} {as : List Act} (h : FdInv s) (hs : run s as = some s') :
    FdInv s' := by
  induction as generalizing s with
  | nil => simp [run] at hs; exact hs ▸ h
  | cons a as ih =>
    simp only [run] at hs
    split at hs
    · rename_i s1 h1; exact ih (step_fdinv h h1) hs
    · cases hs

end Verif.NativePool
