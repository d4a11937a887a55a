import Verif.Sync.Refine
import Mathlib.Data.List.Induction

/-!
# The outcomes of calls on queues agree with what happened to the queues
-/

namespace Verif.Sync

/-- `t` takes `v` from `q`, or puts it in. -/
def isEff (pop : Bool) (t q v : Nat) : Ev → Bool
  | .took t' q' (some v') => pop && t' == t && q' == q && v' == v
  | .ins t' q' v' => !pop && t' == t && q' == q && v' == v
  | _ => false

/-- A `pop` on `q` returns `v` to `t`, or a `push` of `v` succeeds. -/
def isRet (pop : Bool) (t q v : Nat) : Ev → Bool
  | .ret t' (.queue q' (.pop _ _)) (.ok (some v')) => pop && t' == t && q' == q && v' == v
  | .ret t' (.queue q' (.push v' _ _)) .self => !pop && t' == t && q' == q && v' == v
  | _ => false

/-- A call that is going to end in such a way. -/
def owe (pop : Bool) (t q v : Nat) (x : Th) : Nat :=
  match x.call, x.pc.carry with
  | some c, some r => if isRet pop t q v (.ret t c r) then 1 else 0
  | _, _ => 0

/-- A thread in a call is at a position of that call. -/
def Consis (x : Th) : Prop :=
  (x.pc = .user ∧ x.call = none) ∨
    ∃ c, x.call = some c ∧ x.pc ≠ .user ∧ x.pc.qop = c.qop ∧ x.pc.calm

structure Says (w : World) : Prop where
  told : ∀ t q op r, (w.th t).call = some (.queue q op) → (w.th t).pc.carry = some r →
    Told (Ev.closed q ∈ w.log) op r
  rets : ∀ l₁ t q op r l₂, w.log = l₁ ++ Ev.ret t (.queue q op) r :: l₂ → Told (Ev.closed q ∈ l₁) op r
  cnt : ∀ pop t q v, w.log.countP (isRet pop t q v) + owe pop t q v (w.th t) ≤
    w.log.countP (isEff pop t q v)

theorem Told.mono {p p' : Prop} {op : QOp} {r : Res} (h : Told p op r) (hp : p → p') :
    Told p' op r := by
  unfold Told at h ⊢
  split at h
  · cases op
    · exact h.imp id hp
    · exact h
    · exact h
    · exact h
    · exact h
  · exact h
  · exact h
  · exact h
  · exact ⟨h.1, hp h.2⟩
  · exact h
  · exact h
  · trivial

theorem told_exc {p : Prop} {op : QOp} {e : Exc} (h : e.isQ = false) : Told p op (.exc e) := by
  cases e <;> simp_all [Told, Exc.isQ]

/-- The outcomes that `Eff` allows are fine, and are backed by events. -/
theorem eff_ok {w : World} {t : Nat} {c : Call} {l : List Ev} {G : Res → Prop} (s : Says w)
    (hcl : ∀ q, (w.qu q).closed = true → Ev.closed q ∈ w.log)
    (hc : (w.th t).call = some c) (e : Eff w t c l G) {r : Res} (h : G r) :
    (∀ q op, c = .queue q op → Told (Ev.closed q ∈ w.log ++ l) op r) ∧
    ∀ pop q v, (if isRet pop t q v (.ret t c r) then 1 else 0) ≤
      owe pop t q v (w.th t) + l.countP (isEff pop t q v) := by
  have hexc : ∀ pop q v e, isRet pop t q v (.ret t c (.exc e)) = false := by
    intro pop q v e; unfold isRet; split <;> simp_all
  cases e with
  | idle l hl =>
    obtain h | ⟨e, rfl, he⟩ | h | ⟨q, op, rfl, h, h1, h2⟩ := h
    · refine ⟨fun q op e => by subst e; simp [Call.qop] at h, fun pop q v => ?_⟩
      have : isRet pop t q v (.ret t c r) = false := by
        cases c <;> simp [Call.qop] at h <;> rfl
      simp [this]
    · exact ⟨fun q op _ => told_exc he, fun pop q v => by simp [hexc]⟩
    · refine ⟨fun q op e => ?_, fun pop q v => ?_⟩
      · subst e
        exact (s.told t q op r hc h).mono fun h => by simp [h]
      · simp [owe, hc, h]
    · refine ⟨fun q' op' e => ?_, fun pop q' v => ?_⟩
      · obtain ⟨rfl, rfl⟩ := Call.queue.inj e
        exact h.mono fun hh => by simp [hcl _ hh]
      · have : isRet pop t q' v (.ret t (.queue q op) r) = false := by
          unfold isRet
          split
          · next e => cases e; exact (h1 _ rfl).elim
          · next e => cases e; exact (h2 rfl _ _ _ rfl).elim
          · rfl
        simp [this]
  | took q v nb timed hc' =>
    subst hc'
    obtain ⟨e, rfl, he⟩ | rfl := h
    · exact ⟨fun q op _ => told_exc he, fun pop q v => by simp [hexc]⟩
    · refine ⟨fun q' op' e => ?_, fun pop q' v' => ?_⟩
      · obtain ⟨rfl, rfl⟩ := Call.queue.inj e
        exact ⟨nb, timed, rfl⟩
      · simp only [isRet, isEff, List.countP_cons, List.countP_nil]
        cases pop <;> simp <;> omega
  | ins q v nb timed hc' =>
    subst hc'
    obtain ⟨e, rfl, he⟩ | rfl := h
    · exact ⟨fun q op _ => told_exc he, fun pop q v => by simp [hexc]⟩
    · refine ⟨fun q' op' e => ?_, fun pop q' v' => ?_⟩
      · obtain ⟨rfl, rfl⟩ := Call.queue.inj e
        simp [Told]
      · simp only [isRet, isEff, List.countP_cons, List.countP_nil]
        cases pop <;> simp <;> omega
  | change q op e hc' he h1 h2 =>
    subst hc'
    obtain ⟨e, rfl, he⟩ | rfl := h
    · exact ⟨fun q op _ => told_exc he, fun pop q v => by simp [hexc]⟩
    · refine ⟨fun q' op' e => ?_, fun pop q' v' => ?_⟩
      · obtain ⟨rfl, rfl⟩ := Call.queue.inj e
        exact h1
      · have : isRet pop t q' v' (.ret t (.queue q op) .self) = false := by
          unfold isRet
          split
          · next e => cases e
          · next e => cases e; exact (h2 _ _ _ rfl).elim
          · rfl
        simp [this]

theorem eff_events {w : World} {t : Nat} {c : Call} {l : List Ev} {G : Res → Prop}
    (e : Eff w t c l G) : (∀ pop u q v, l.countP (isRet pop u q v) = 0) ∧
      (∀ x ∈ l, ∀ u c r, x ≠ .ret u c r) ∧
      (∀ pop u q v, u ≠ t → l.countP (isEff pop u q v) = 0) := by
  have key : (∀ x ∈ l, (∀ u c r, x ≠ .ret u c r) ∧ ∀ pop u q v, u ≠ t → isEff pop u q v x = false) := by
    intro x hx
    cases e with
    | idle l hl => obtain ⟨m, rfl⟩ | ⟨m, rfl⟩ := hl x hx <;> simp [isEff]
    | took q v nb timed _ =>
      obtain rfl := List.mem_singleton.1 hx
      refine ⟨by simp, fun pop u q' v' h => ?_⟩
      simp [isEff, Ne.symm h]
    | ins q v nb timed _ =>
      obtain rfl := List.mem_singleton.1 hx
      refine ⟨by simp, fun pop u q' v' h => ?_⟩
      simp [isEff, Ne.symm h]
    | change q op e _ he _ _ =>
      obtain rfl := List.mem_singleton.1 hx
      obtain rfl | rfl | ⟨n, rfl⟩ := he <;> simp [isEff]
  refine ⟨fun pop u q v => List.countP_eq_zero.2 fun x hx => ?_, fun x hx => (key x hx).1,
    fun pop u q v h => List.countP_eq_zero.2 fun x hx => by simp [(key x hx).2 pop u q v h]⟩
  have := (key x hx).1
  unfold isRet
  split
  · exact (this _ _ _ rfl).elim
  · exact (this _ _ _ rfl).elim
  · simp

/-- Splitting a log that has been extended. -/
theorem snoc_split {l l₁ l₂ : List Ev} {e x : Ev} (h : l ++ [e] = l₁ ++ x :: l₂) :
    (∃ l₂', l₂ = l₂' ++ [e] ∧ l = l₁ ++ x :: l₂') ∨ (l₂ = [] ∧ e = x ∧ l = l₁) := by
  rcases List.eq_nil_or_concat l₂ with rfl | ⟨l₂', b, rfl⟩
  · right
    have := List.append_inj' h rfl
    obtain ⟨h1, h2⟩ := this
    exact ⟨rfl, by simpa using h2, h1⟩
  · left
    have h' : l ++ [e] = (l₁ ++ x :: l₂') ++ [b] := by simpa using h
    have := List.append_inj' h' rfl
    exact ⟨l₂', by simp at this; simp [this.2], this.1⟩

theorem rets_append {log l : List Ev} (hl : ∀ x ∈ l, ∀ u c r, x ≠ Ev.ret u c r)
    (h : ∀ l₁ t q op r l₂, log = l₁ ++ Ev.ret t (.queue q op) r :: l₂ → Told (Ev.closed q ∈ l₁) op r) :
    ∀ l₁ t q op r l₂, log ++ l = l₁ ++ Ev.ret t (.queue q op) r :: l₂ →
      Told (Ev.closed q ∈ l₁) op r := by
  induction l generalizing log with
  | nil => simpa using h
  | cons x xs ih =>
    have e1 : log ++ x :: xs = (log ++ [x]) ++ xs := by simp
    rw [e1]
    refine ih (fun y hy => hl y (by simp [hy])) fun l₁ t q op r l₂ e => ?_
    obtain ⟨l₂', rfl, e2⟩ | ⟨rfl, e3, e2⟩ := snoc_split e
    · exact h _ _ _ _ _ _ e2
    · exact (hl x (by simp) _ _ _ e3).elim

theorem Says.advance {w w' : World} {t : Nat} {c : Call} {l : List Ev} {G : Res → Prop} (s : Says w)
    (hcl : ∀ q, (w.qu q).closed = true → Ev.closed q ∈ w.log)
    (hc : (w.th t).call = some c) (e : Eff w t c l G) (o : Out t c (w.log ++ l) w' G)
    (hpc : ∀ u, u ≠ t → (w'.th u).pc = (w.th u).pc)
    (hca : ∀ u, u ≠ t → (w'.th u).call = (w.th u).call) : Says w' ∧ Consis (w'.th t) := by
  obtain ⟨e1, e2, e3⟩ := eff_events e
  obtain ⟨hl, hc', hp, hq, hk, hG⟩ | ⟨r, hl, hc', hp, hG⟩ := o
  · refine ⟨⟨?_, ?_, ?_⟩, .inr ⟨c, hc', hp, hq, hk⟩⟩
    · intro u q op r h1 h2
      by_cases eu : u = t
      · subst eu
        have hcc := hc'.symm.trans h1
        obtain rfl := Option.some.inj hcc
        rw [hl]
        exact (eff_ok s hcl hc e (hG r h2)).1 q op rfl
      · rw [hpc u eu] at h2
        rw [hca u eu] at h1
        rw [hl]
        exact (s.told u q op r h1 h2).mono fun h => by simp [h]
    · rw [hl]; exact rets_append e2 s.rets
    · intro pop u q v
      rw [hl, List.countP_append, List.countP_append, e1 pop u q v]
      have hb := s.cnt pop u q v
      by_cases eu : u = t
      · subst eu
        have : owe pop u q v (w'.th u) ≤ owe pop u q v (w.th u) + l.countP (isEff pop u q v) := by
          cases e4 : (w'.th u).pc.carry with
          | none =>
            have : owe pop u q v (w'.th u) = 0 := by simp only [owe, hc', e4]
            omega
          | some r =>
            have := (eff_ok s hcl hc e (hG r e4)).2 pop q v
            simpa only [owe, hc', e4] using this
        omega
      · rw [e3 pop u q v eu]
        have : owe pop u q v (w'.th u) = owe pop u q v (w.th u) := by
          unfold owe; rw [hpc u eu, hca u eu]
        omega
  · refine ⟨⟨?_, ?_, ?_⟩, .inl ⟨hp, hc'⟩⟩
    · intro u q op r' h1 h2
      by_cases eu : u = t
      · subst eu; rw [hc'] at h1; cases h1
      · rw [hpc u eu] at h2
        rw [hca u eu] at h1
        rw [hl]
        exact (s.told u q op r' h1 h2).mono fun h => by simp [h]
    · rw [hl]
      intro l₁ t' q op r' l₂ h
      obtain ⟨l₂', rfl, h2⟩ | ⟨rfl, h1, h2⟩ := snoc_split h
      · exact rets_append e2 s.rets _ _ _ _ _ _ h2
      · cases h1
        rw [← h2]
        exact (eff_ok s hcl hc e hG).1 q op rfl
    · intro pop u q v
      rw [hl, List.countP_append, List.countP_append, List.countP_append, List.countP_append,
        e1 pop u q v]
      have hb := s.cnt pop u q v
      have h0 : List.countP (isEff pop u q v) [Ev.ret t c r] = 0 := by simp [isEff]
      rw [h0]
      by_cases eu : u = t
      · subst eu
        have h1 : owe pop u q v (w'.th u) = 0 := by simp only [owe, hc']
        have h2 := (eff_ok s hcl hc e hG).2 pop q v
        rw [List.countP_cons, List.countP_nil]
        omega
      · rw [e3 pop u q v eu]
        have h1 : owe pop u q v (w'.th u) = owe pop u q v (w.th u) := by
          unfold owe; rw [hpc u eu, hca u eu]
        have h2 : List.countP (isRet pop u q v) [Ev.ret t c r] = 0 := by
          have : isRet pop u q v (.ret t c r) = false := by
            unfold isRet; split
            · next e => cases e; simp [Ne.symm eu]
            · next e => cases e; simp [Ne.symm eu]
            · rfl
          simp [this]
        omega

theorem Prim.call {t : Nat} {w w1 : World} (p : Prim t w w1) (u : Nat) :
    (w1.th u).call = (w.th u).call := by
  cases p <;> first | rfl | (rw [wake_call]; rfl)

theorem replay_closed {cap : Option Nat} {q : Nat} {log : List Ev} {a : Abs}
    (h : replay cap q log = some a) (hc : a.closed = true) : Ev.closed q ∈ log := by
  induction log using List.reverseRecOn generalizing a with
  | nil => cases h; cases hc
  | append_singleton log e ih =>
    rw [replay_snoc] at h
    cases h1 : replay cap q log with
    | none => rw [h1] at h; cases h
    | some b =>
      rw [h1, Option.bind_some] at h
      by_cases he : e = .closed q
      · simp [he]
      · have : a.closed = b.closed := by
          unfold Abs.step at h
          split at h
          · split_ifs at h <;> cases h <;> rfl
          · split_ifs at h
            · split at h
              · cases h
              · split_ifs at h; cases h; rfl
            · cases h; rfl
          · split_ifs at h <;> cases h <;> rfl
          · split_ifs at h with h2
            · subst h2; exact (he rfl).elim
            · cases h; rfl
          · split_ifs at h <;> cases h <;> rfl
          · cases h; rfl
        simp [ih h1 (this ▸ hc)]

/-- Everything that holds in all runs. -/
structure All (caps : Nat → Option Nat) (w : World) : Prop where
  own : Own w
  good : Good w
  rep : Rep caps w
  said : Says w
  consis : ∀ t, Consis (w.th t)

theorem Says.same {w w' : World} (s : Says w) (hl : w'.log = w.log)
    (hpc : ∀ u, (w'.th u).pc = (w.th u).pc) (hca : ∀ u, (w'.th u).call = (w.th u).call) : Says w' where
  told t q op r h1 h2 := by
    rw [hl]; rw [hca] at h1; rw [hpc] at h2; exact s.told t q op r h1 h2
  rets := by rw [hl]; exact s.rets
  cnt pop t q v := by
    have : owe pop t q v (w'.th t) = owe pop t q v (w.th t) := by unfold owe; rw [hpc, hca]
    rw [hl, this]; exact s.cnt pop t q v

theorem all_step {caps : Nat → Option Nat} {w w' : World} {a : Act} (A : All caps w)
    (h : w.step a = some w') : All caps w' := by
  have hcl : ∀ q, (w.qu q).closed = true → Ev.closed q ∈ w.log :=
    fun q hq => replay_closed (A.rep q) hq
  suffices hh : Says w' ∧ ∀ t, Consis (w'.th t) from
    ⟨(step_moves h).own A.own, step_good A.good h, step_rep A.good A.rep h, hh.1, hh.2⟩
  have others : ∀ {t : Nat} {w'' : World}, (∀ u, u ≠ t → (w''.th u).pc = (w.th u).pc) →
      (∀ u, u ≠ t → (w''.th u).call = (w.th u).call) → Consis (w''.th t) → ∀ u, Consis (w''.th u) := by
    intro t w'' h1 h2 h3 u
    by_cases e : u = t
    · subst e; exact h3
    · have := A.consis u
      unfold Consis at this ⊢
      rw [h1 u e, h2 u e]; exact this
  have wakes : ∀ {t : Nat} {f : Th → Th}, (∀ x, (f x).pc = x.pc) → (∀ x, (f x).call = x.call) →
      Says (w.setTh t f) ∧ ∀ u, Consis ((w.setTh t f).th u) := by
    intro t f h1 h2
    have hp : ∀ u, ((w.setTh t f).th u).pc = (w.th u).pc := by
      intro u
      by_cases e : u = t
      · subst e; rw [setTh_self, h1]
      · rw [setTh_ne _ _ e]
    have hc : ∀ u, ((w.setTh t f).th u).call = (w.th u).call := by
      intro u
      by_cases e : u = t
      · subst e; rw [setTh_self, h2]
      · rw [setTh_ne _ _ e]
    refine ⟨A.said.same rfl hp hc, fun u => ?_⟩
    have := A.consis u
    unfold Consis at this ⊢
    rw [hp, hc]; exact this
  cases a with
  | call t c d =>
    simp only [World.step] at h
    split_ifs at h with hf
    simp only [World.free, Bool.and_eq_true, beq_iff_eq] at hf
    obtain ⟨hs, hp⟩ := hf
    let w0 := w.setTh t fun x => { x with call := some c }
    have hc0 : (w0.th t).call = some c := by simp [w0]
    have hp0 : (w0.th t).pc = .user := by simp [w0, hp]
    have hn : (w.th t).call = none := by
      obtain ⟨_, h⟩ | ⟨c, _, h, _⟩ := A.consis t
      · exact h
      · exact (h hp).elim
    have s0 : Says w0 := by
      refine ⟨fun u q op r h1 h2 => ?_, A.said.rets, fun pop u q v => ?_⟩
      · by_cases e : u = t
        · subst e; rw [hp0] at h2; cases h2
        · simp only [w0, setTh_ne _ _ e] at h1 h2
          exact A.said.told u q op r h1 h2
      · have : owe pop u q v (w0.th u) = owe pop u q v (w.th u) := by
          by_cases e : u = t
          · subst e
            simp only [owe, hc0, hp0, hn, Pc.carry]
          · simp only [w0, setTh_ne _ _ e]
        rw [this]; exact A.said.cnt pop u q v
    have hne : ∀ u, u ≠ t → w0.th u = w.th u := fun u e => setTh_ne _ _ e
    split at h
    · next timed =>
      obtain rfl := Option.some.inj h
      have l := loc_parkNap w0 t timed d (by simp [w0, hs])
      have o : Out t (.nap timed) (w0.log ++ []) (w0.parkNap t timed d) (Idle w0 t (.nap timed)) := by
        rw [List.append_nil]; exact out_parkNap hc0 rfl adm_idle
      have := s0.advance hcl hc0 (.idle [] (by simp)) o (fun u e => by rw [l.th u e])
        (fun u e => by rw [l.th u e])
      exact ⟨this.1, others (fun u e => by rw [l.th u e, hne u e]) (fun u e => by rw [l.th u e, hne u e])
        this.2⟩
    · obtain rfl := Option.some.inj h
      have l := Loc.setPc t w0 c.start
      have o : Out t c (w0.log ++ []) (w0.setPc t c.start) (Idle w0 t c) := by
        rw [List.append_nil]
        refine out_setPc hc0 ?_ ?_ ?_ ?_ <;> cases c <;> simp [Call.start, Pc.qop, Call.qop, Pc.calm,
          LockK.calm, LockK.qop, UnlockK.qop, SleepK.qop, WaitK.qop, SigK.qop, CastK.qop, Pc.carry,
          UnlockK.carry, SigK.carry, CastK.carry]
      have := s0.advance hcl hc0 (.idle [] (by simp)) o (fun u e => by rw [l.th u e])
        (fun u e => by rw [l.th u e])
      exact ⟨this.1, others (fun u e => by rw [l.th u e, hne u e]) (fun u e => by rw [l.th u e, hne u e])
        this.2⟩
  | step t d =>
    have hcon := A.consis t
    simp only [World.step] at h
    split_ifs at h with ha hi
    all_goals
      simp only [World.active, Bool.and_eq_true, beq_iff_eq, bne_iff_ne] at ha
      obtain ⟨hs, hp⟩ := ha
      obtain ⟨c, hc, -, hq, hk⟩ : ∃ c, (w.th t).call = some c ∧ (w.th t).pc ≠ .user ∧
          (w.th t).pc.qop = c.qop ∧ (w.th t).pc.calm := by
        obtain ⟨h, _⟩ | h := hcon
        · exact (hp h).elim
        · exact h
      obtain rfl := Option.some.inj h
    · have l := (loc_takeIntr w t).trans (loc_raiseAt (w.takeIntr t) t d (by simp [World.takeIntr, hs]))
      have e1 : ((w.takeIntr t).th t).pc = (w.th t).pc := by simp [World.takeIntr]
      have o : Out t c (w.log ++ []) ((w.takeIntr t).raiseAt t d) (Idle w t c) := by
        rw [List.append_nil]
        refine out_raiseAt (w := w.takeIntr t) (by simpa [World.takeIntr] using hc) ?_ ?_ ?_
          adm_idle ?_
        · rw [e1]; exact hp
        · rw [e1]; exact hq
        · rw [e1]; exact hk
        · rw [e1]; exact fun r h => .inr (.inr (.inl h))
      have := A.said.advance hcl hc (.idle [] (by simp)) o (fun u e => by rw [l.th u e])
        (fun u e => by rw [l.th u e])
      exact ⟨this.1, others (fun u e => by rw [l.th u e]) (fun u e => by rw [l.th u e]) this.2⟩
    · obtain ⟨w1, p, l⟩ := go_prim w t d (by simp [hs])
      have l := l (by rw [Ne, p.isDead]; simp [hs])
      obtain ⟨lo, G, he, ho⟩ := go_going (d := d) (A.good.ok t) hc hp hq hk
      have h1 : ∀ u, u ≠ t → ((w.go t d).th u).pc = (w.th u).pc := fun u e => by
        rw [l.th u e, p.pc]
      have h2 : ∀ u, u ≠ t → ((w.go t d).th u).call = (w.th u).call := fun u e => by
        rw [l.th u e, p.call]
      have := A.said.advance hcl hc he ho h1 h2
      exact ⟨this.1, others h1 h2 this.2⟩
  | exit t =>
    simp only [World.step] at h
    split_ifs at h with hf
    obtain rfl := Option.some.inj h
    obtain ⟨s, c⟩ := wakes (t := t) (f := fun x => { x with status := .dead }) (fun _ => rfl)
      (fun _ => rfl)
    refine ⟨⟨fun u q op r h1 h2 => (s.told u q op r h1 h2).mono fun h => ?_, ?_, fun pop u q v => ?_⟩, c⟩
    · rw [ev_log]; exact List.mem_append_left _ h
    · rw [ev_log]; exact rets_append (by simp) s.rets
    · have := s.cnt pop u q v
      rw [ev_log, List.countP_append, List.countP_append]
      have h1 : List.countP (isRet pop u q v) [Ev.ended t] = 0 := by simp [isRet]
      have h2 : List.countP (isEff pop u q v) [Ev.ended t] = 0 := by simp [isEff]
      rw [h1, h2]; exact this
  | wakeup t =>
    simp only [World.step] at h
    split at h
    · obtain rfl := Option.some.inj h; exact wakes (fun _ => rfl) fun _ => rfl
    · cases h
  | timeout t =>
    simp only [World.step] at h
    split at h
    · obtain rfl := Option.some.inj h; exact wakes (fun _ => rfl) fun _ => rfl
    · cases h
  | send t =>
    simp only [World.step] at h
    split at h
    · cases h
    · split_ifs at h
      · obtain rfl := Option.some.inj h; exact wakes (fun _ => rfl) fun _ => rfl
      · obtain rfl := Option.some.inj h; exact wakes (fun _ => rfl) fun _ => rfl
    · obtain rfl := Option.some.inj h; exact wakes (fun _ => rfl) fun _ => rfl

theorem all_init (caps : Nat → Option Nat) : All caps (init caps) where
  own := init_own caps
  good := init_good caps
  rep := init_rep caps
  said :=
    { told := fun t q op r h1 h2 => by cases h1
      rets := fun l₁ t q op r l₂ h => by simp [init] at h
      cnt := fun pop t q v => by simp [init, owe] }
  consis _ := .inl ⟨rfl, rfl⟩

theorem all_run {caps : Nat → Option Nat} {as : List Act} {w : World}
    (h : (init caps).run as = some w) : All caps w :=
  run_induct (all_init caps) (fun _ _ _ A hs => all_step A hs) h

end Verif.Sync
