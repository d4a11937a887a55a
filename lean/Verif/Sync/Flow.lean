import Verif.Sync.Calm
import Mathlib.Data.Finset.Card
import Mathlib.Data.Finset.Range

/-!
# Runs without interrupts: who will look after the waiters of a queue

For a queue `q`, the condition variable `.pop q` holds the threads that wait for an item and `.push q`
those that wait for room.  As long as somebody waits, there are at least as many threads on their way to
take an item (or to put one) as there are items (or free places), or somebody is waking everybody.
-/

namespace Verif.Sync

open Classical in
/-- Number of threads below `n` with a property. -/
noncomputable def cnt (n : Nat) (p : Nat → Prop) : Nat := ((Finset.range n).filter p).card

section
variable {n t x : Nat} {p p' : Nat → Prop}

open Classical in
theorem cnt_le (h : ∀ u, p u → p' u) : cnt n p ≤ cnt n p' := by
  refine Finset.card_le_card fun u hu => ?_
  rw [Finset.mem_filter] at hu ⊢
  exact ⟨hu.1, h u hu.2⟩

open Classical in
theorem cnt_drop (t : Nat) (h : ∀ u, u ≠ t → p u → p' u) : cnt n p ≤ cnt n p' + 1 := by
  refine le_trans (Finset.card_le_card (t := insert t ((Finset.range n).filter p')) fun u hu => ?_)
    (Finset.card_insert_le ..)
  rw [Finset.mem_filter] at hu
  rw [Finset.mem_insert, Finset.mem_filter]
  by_cases e : u = t
  · exact .inl e
  · exact .inr ⟨hu.1, h u e hu.2⟩

open Classical in
theorem cnt_gain (hx : x < n) (hp : ¬ p x) (hp' : p' x) (h : ∀ u, p u → p' u) :
    cnt n p + 1 ≤ cnt n p' := by
  unfold cnt
  have hn : x ∉ (Finset.range n).filter p := by simp [hp]
  rw [← Finset.card_insert_of_notMem hn]
  refine Finset.card_le_card fun u hu => ?_
  rw [Finset.mem_insert, Finset.mem_filter] at hu
  rw [Finset.mem_filter, Finset.mem_range]
  obtain rfl | hu := hu
  · exact ⟨hx, hp'⟩
  · exact ⟨Finset.mem_range.1 hu.1, h u hu.2⟩

theorem cnt_swap (hx : x < n) (hp : ¬ p x) (hp' : p' x) (t : Nat) (h : ∀ u, u ≠ t → p u → p' u) :
    cnt n p ≤ cnt n p' := by
  have h1 : cnt n p ≤ cnt n (fun u => p' u ∧ u ≠ x) + 1 := by
    refine cnt_drop t fun u e hu => ⟨h u e hu, ?_⟩
    rintro rfl; exact hp hu
  have h2 : cnt n (fun u => p' u ∧ u ≠ x) + 1 ≤ cnt n p' :=
    cnt_gain hx (fun h => h.2 rfl) hp' fun _ h => h.1
  omega

open Classical in
theorem cnt_zero (h : ∀ u, ¬ p u) : cnt n p = 0 := by
  unfold cnt
  rw [Finset.card_eq_zero, Finset.filter_eq_empty_iff]
  exact fun u _ => h u
end

/-! ## Positions -/

def SleepK.on (c : CId) : SleepK → Prop
  | .wait c' (.queue _ _) => c' = c
  | _ => False

def LockK.on (c : CId) : LockK → Prop
  | .resleep _ k => k.on c
  | _ => False

def UnlockK.on (c : CId) : UnlockK → Prop
  | .sleep _ k => k.on c
  | _ => False

/-- Inside a wait of a queue method on `c`, on the list of `c` or on the way back. -/
def Wt (c : CId) : Pc → Prop
  | .sleep _ _ _ k => k.on c
  | .unlock _ _ k => k.on c
  | .lock _ _ k => k.on c
  | _ => False

def Early (c : CId) : Pc → Prop
  | .sleep _ _ .entry k => k.on c
  | .sleep _ _ .owned k => k.on c
  | .unlock _ false k => k.on c
  | _ => False

def Late (c : CId) : Pc → Prop
  | .unlock _ true k => k.on c
  | _ => False

def Stop (c : CId) : Pc → Prop
  | .sleep _ _ .stop k => k.on c
  | _ => False

/-- At work on what `c` is about: about to look at the queue, to take the item, or to signal. -/
def Serve (c : CId) : Pc → Prop
  | .queue q op .loop => op.cv q = some c
  | .queue q (.pop _ _) .take => c = .pop q
  | .signal c' _ (.direct (.queue _ _ _ _)) => c' = c
  | _ => False

def CastK.owes (c : CId) : CastK → Prop
  | .queue _ _ todo _ => Post.broadcast c ∈ todo
  | .user => False

/-- Waking everybody on `c`, or going to. -/
def Casting (c : CId) : Pc → Prop
  | .bcast c' _ k => c' = c ∨ k.owes c
  | .signal _ _ (.bcast c' k) => c' = c ∨ k.owes c
  | .signal _ _ (.direct k) => k.owes c
  | _ => False

/-- In the part of `SizedQueue#push` that looks at the capacity. -/
def InPush (q : Nat) (pc : Pc) : Prop :=
  Wt (.push q) pc ∨ (∃ op, pc = .queue q op .loop ∧ op.cv q = some (.push q)) ∨
    ∃ m timed op, pc = .wait (.push q) m timed (.queue q op)

def CId.q : CId → Nat
  | .pop q => q
  | .push q => q
  | .user _ => 0

/-- Items for the threads that wait to take one; free places for those that wait to put one. -/
def World.demand (w : World) (c : CId) : Nat :=
  match c with
  | .pop q => (w.qu q).items.length
  | .push q => match (w.qu q).max with
    | some n => n - (w.qu q).items.length
    | none => 0
  | .user _ => 0

def R (c : CId) (w : World) (u : Nat) : Prop :=
  Serve c (w.th u).pc ∨ (Wt c (w.th u).pc ∧ u ∉ w.cv c)

structure K (n : Nat) (w : World) : Prop where
  nodup : ∀ c, ¬ c.isUser → (w.cv c).Nodup
  inWt : ∀ c, ¬ c.isUser → ∀ x ∈ w.cv c, Wt c (w.th x).pc
  stop : ∀ t b c, (w.th t).status = .parked b → Stop c (w.th t).pc → t ∈ w.cv c
  early : ∀ t c, Early c (w.th t).pc → t ∈ w.cv c
  late : ∀ t c, Late c (w.th t).pc → t ∈ w.cv c ∨ (w.th t).permit = true
  wait0 : ∀ t c m timed q op, (w.th t).pc = .wait c m timed (.queue q op) →
    w.demand c = 0 ∧ (w.qu q).closed = false
  room : ∀ t q, InPush q (w.th t).pc → (w.qu q).max ≠ none
  need : ∀ c, ¬ c.isUser → w.cv c ≠ [] → (w.qu c.q).closed = false →
    w.demand c ≤ cnt n (R c w) ∨ ∃ u, Casting c (w.th u).pc
  shut : ∀ c, ¬ c.isUser → w.cv c ≠ [] → (w.qu c.q).closed = true → ∃ u, Casting c (w.th u).pc

theorem cv_q {q : Nat} {op : QOp} {c : CId} (h : op.cv q = some c) : c.q = q ∧ ¬ c.isUser := by
  cases op <;> simp [QOp.cv] at h <;> (subst h; exact ⟨rfl, id⟩)

theorem SleepK.on_ok {c : CId} {m : MId} {k : SleepK} (h : k.on c) (hk : k.ok m) :
    ¬ c.isUser ∧ m = .queue c.q := by
  cases k with
  | user => exact h.elim
  | wait c' k => cases k with
    | user => exact h.elim
    | queue q op =>
      obtain rfl : c' = c := h
      have := cv_q hk.2
      exact ⟨this.2, by rw [this.1]; exact hk.1⟩

theorem LockK.on_ok {c : CId} {m : MId} {k : LockK} (h : k.on c) (hk : k.ok m) :
    ¬ c.isUser ∧ m = .queue c.q := by
  cases k with
  | resleep e k => exact SleepK.on_ok h hk
  | _ => exact h.elim

theorem UnlockK.on_ok {c : CId} {m : MId} {k : UnlockK} (h : k.on c) (hk : k.ok m) :
    ¬ c.isUser ∧ m = .queue c.q := by
  cases k with
  | sleep e k => exact SleepK.on_ok h hk
  | _ => exact h.elim

/-- The wait belongs to its queue. -/
theorem Wt.wf {c : CId} {pc : Pc} (h : Wt c pc) (hw : pc.Wf) : ¬ c.isUser := by
  unfold Wt at h
  split at h
  · exact (SleepK.on_ok h hw).1
  · exact (UnlockK.on_ok h hw).1
  · exact (LockK.on_ok h hw).1
  · exact h.elim

theorem Early.wt {c : CId} {pc : Pc} (h : Early c pc) : Wt c pc := by
  unfold Early at h
  split at h <;> first | exact h | exact h.elim

theorem Late.wt {c : CId} {pc : Pc} (h : Late c pc) : Wt c pc := by
  unfold Late at h
  split at h <;> first | exact h | exact h.elim

theorem Stop.wt {c : CId} {pc : Pc} (h : Stop c pc) : Wt c pc := by
  unfold Stop at h
  split at h <;> first | exact h | exact h.elim

theorem Wt.ne_user {c : CId} {pc : Pc} (h : Wt c pc) : pc ≠ .user := by
  rintro rfl; exact h

variable {w w' : World} {t n : Nat}

theorem demand_qu (h : w'.qu = w.qu) (c : CId) : w'.demand c = w.demand c := by
  unfold World.demand; rw [h]

/-! ## Steps that leave queues and their waiters alone -/

structure Still (t : Nat) (w w' : World) : Prop where
  cv : ∀ c, ¬ c.isUser → w'.cv c = w.cv c
  qu : w'.qu = w.qu
  wt : ∀ c, Wt c (w.th t).pc → Wt c (w'.th t).pc
  early : ∀ c, Early c (w'.th t).pc → Early c (w.th t).pc
  late : ∀ c, Late c (w'.th t).pc → Early c (w.th t).pc ∨
    (Late c (w.th t).pc ∧ ((w.th t).permit = true → (w'.th t).permit = true))
  stop : ∀ b c, (w'.th t).status = .parked b → Stop c (w'.th t).pc → t ∈ w.cv c
  wait0 : ∀ c m timed q op, (w'.th t).pc = .wait c m timed (.queue q op) →
    w.demand c = 0 ∧ (w.qu q).closed = false
  room : ∀ q, InPush q (w'.th t).pc → (w.qu q).max ≠ none
  serve : ∀ c, ¬ c.isUser → Serve c (w.th t).pc →
    Serve c (w'.th t).pc ∨ w.demand c = 0 ∨ (w.qu c.q).closed = true ∨ w.cv c = []
  cast : ∀ c, Casting c (w.th t).pc → Casting c (w'.th t).pc ∨ w.cv c = []

theorem Still.k (s : Still t w w') (hf : ∀ u, u ≠ t → Fr (w.th u) (w'.th u))
    (hw' : ∀ u, (w'.th u).pc.Wf) (k : K n w) : K n w' := by
  have hdem := demand_qu s.qu
  have hwt : ∀ c u, Wt c (w.th u).pc → Wt c (w'.th u).pc := by
    intro c u h
    by_cases e : u = t
    · subst e; exact s.wt c h
    · rw [(hf u e).pc]; exact h
  have hcast : ∀ c, w.cv c ≠ [] → (∃ u, Casting c (w.th u).pc) → ∃ u, Casting c (w'.th u).pc := by
    rintro c hc ⟨u, hu⟩
    by_cases e : u = t
    · subst e
      obtain h | h := s.cast c hu
      · exact ⟨u, h⟩
      · exact (hc h).elim
    · exact ⟨u, by rw [(hf u e).pc]; exact hu⟩
  exact {
    nodup := fun c hc => by rw [s.cv c hc]; exact k.nodup c hc
    inWt := fun c hc x hx => by
      rw [s.cv c hc] at hx
      exact hwt c x (k.inWt c hc x hx)
    stop := fun u b c hs hp => by
      rw [s.cv c (hp.wt.wf (hw' u))]
      by_cases e : u = t
      · subst e; exact s.stop b c hs hp
      · have f := hf u e
        rw [f.pc] at hp
        obtain e | ⟨_, e⟩ := f.status
        · exact k.stop u b c (e ▸ hs) hp
        · rw [e] at hs; cases hs
    early := fun u c hp => by
      rw [s.cv c (hp.wt.wf (hw' u))]
      by_cases e : u = t
      · subst e; exact k.early u c (s.early c hp)
      · rw [(hf u e).pc] at hp; exact k.early u c hp
    late := fun u c hp => by
      rw [s.cv c (hp.wt.wf (hw' u))]
      by_cases e : u = t
      · subst e
        obtain h | ⟨h, h1⟩ := s.late c hp
        · exact .inl (k.early u c h)
        · exact (k.late u c h).imp_right h1
      · rw [(hf u e).pc] at hp; exact (k.late u c hp).imp_right (hf u e).permit
    wait0 := fun u c m timed q op hp => by
      rw [hdem, s.qu]
      by_cases e : u = t
      · subst e; exact s.wait0 c m timed q op hp
      · rw [(hf u e).pc] at hp; exact k.wait0 u c m timed q op hp
    room := fun u q hp => by
      rw [s.qu]
      by_cases e : u = t
      · subst e; exact s.room q hp
      · rw [(hf u e).pc] at hp; exact k.room u q hp
    need := fun c hc hne hcl => by
      rw [s.cv c hc] at hne; rw [s.qu] at hcl
      obtain h | h := k.need c hc hne hcl
      · left
        rw [hdem]
        by_cases h0 : w.demand c = 0
        · omega
        · refine h.trans (cnt_le fun u hu => ?_)
          obtain hu | ⟨h1, h2⟩ := hu
          · by_cases e : u = t
            · subst e
              obtain h | h | h | h := s.serve c hc hu
              · exact .inl h
              · exact (h0 h).elim
              · rw [h] at hcl; cases hcl
              · exact (hne h).elim
            · exact .inl (by rw [(hf u e).pc]; exact hu)
          · exact .inr ⟨hwt c u h1, by rw [s.cv c hc]; exact h2⟩
      · exact .inr (hcast c hne h)
    shut := fun c hc hne hcl => by
      rw [s.cv c hc] at hne; rw [s.qu] at hcl
      exact hcast c hne (k.shut c hc hne hcl) }

/-- Neither before nor after the step has `t` anything to do with the waiters of queues. -/
def Aloof (pc : Pc) : Prop :=
  (∀ c, ¬ Wt c pc) ∧ (∀ c m timed q op, pc ≠ .wait c m timed (.queue q op)) ∧
    ∀ q op, pc ≠ .queue q op .loop

theorem Aloof.inPush {pc : Pc} (h : Aloof pc) (q : Nat) : ¬ InPush q pc := by
  rintro (h1 | ⟨op, h1, _⟩ | ⟨m, timed, op, h1⟩)
  · exact h.1 _ h1
  · exact h.2.2 _ _ h1
  · exact h.2.1 _ _ _ _ _ h1

theorem Still.aloof (hcv : ∀ c, ¬ c.isUser → w'.cv c = w.cv c) (hqu : w'.qu = w.qu)
    (h : ∀ c, ¬ Wt c (w.th t).pc) (hs : ∀ c, ¬ c.isUser → Serve c (w.th t).pc → w.cv c = [])
    (hc : ∀ c, Casting c (w.th t).pc → w.cv c = []) (h' : Aloof (w'.th t).pc) : Still t w w' where
  cv := hcv
  qu := hqu
  wt c hw := (h c hw).elim
  early c he := (h'.1 c he.wt).elim
  late c he := (h'.1 c he.wt).elim
  stop _ c _ he := (h'.1 c he.wt).elim
  wait0 c m timed q op he := (h'.2.1 c m timed q op he).elim
  room q hp := (h'.inPush q hp).elim
  serve c hu hc := .inr (.inr (.inr (hs c hu hc)))
  cast c hc' := .inr (hc c hc')

theorem aloof_user : Aloof .user := ⟨fun _ => id, by simp, by simp⟩

theorem aloof_leave (q : Nat) (op : QOp) (r : Res) : Aloof (.unlock (.queue q) false (.queue q op r)) :=
  ⟨fun _ => id, by simp, by simp⟩

/-- What comes after the queue was changed. -/
theorem owes_postPc {q : Nat} {op : QOp} {r : Res} {l : List Post} {c : CId} (h : Post.broadcast c ∈ l) :
    Casting c (postPc q op r l) := by
  cases l with
  | nil => cases h
  | cons p l =>
    cases p with
    | signal c' =>
      obtain h | h := List.mem_cons.1 h
      · cases h
      · exact h
    | broadcast c' =>
      obtain h | h := List.mem_cons.1 h
      · cases h; exact .inl rfl
      · exact .inr h

theorem postPc_wt {q : Nat} {op : QOp} {r : Res} {l : List Post} :
    (∀ c, ¬ Wt c (postPc q op r l)) ∧ (∀ c m timed q' op', postPc q op r l ≠ .wait c m timed (.queue q' op')) ∧
      (∀ q' op', postPc q op r l ≠ .queue q' op' .loop) := by
  unfold postPc
  split
  · exact ⟨fun _ => id, by simp, by simp⟩
  · exact ⟨fun _ => id, by simp, by simp⟩
  · exact ⟨fun _ => id, by simp, by simp⟩

theorem postPc_inPush {q q' : Nat} {op : QOp} {r : Res} {l : List Post} : ¬ InPush q' (postPc q op r l) := by
  rintro (h1 | ⟨op, h1, _⟩ | ⟨m, timed, op, h1⟩)
  · exact postPc_wt.1 _ h1
  · exact postPc_wt.2.2 _ _ h1
  · exact postPc_wt.2.1 _ _ _ _ _ h1

/-- Going on from a signal or a broadcast. -/
theorem Still.sig {pc' : Pc} (hcv : ∀ c, ¬ c.isUser → w'.cv c = w.cv c) (hqu : w'.qu = w.qu)
    (hpc : (w'.th t).pc = pc') (h : ∀ c, ¬ Wt c (w.th t).pc) (h' : ∀ c, ¬ Wt c pc')
    (hwait : ∀ c m timed q' op', pc' ≠ .wait c m timed (.queue q' op'))
    (hloop : ∀ q' op', pc' ≠ .queue q' op' .loop)
    (hs : ∀ c, ¬ c.isUser → Serve c (w.th t).pc → Serve c pc' ∨ w.cv c = [])
    (hc : ∀ c, Casting c (w.th t).pc → Casting c pc' ∨ w.cv c = []) : Still t w w' where
  cv := hcv
  qu := hqu
  wt c hw := (h c hw).elim
  early c he := (h' c (hpc ▸ he.wt)).elim
  late c he := (h' c (hpc ▸ he.wt)).elim
  stop _ c _ he := (h' c (hpc ▸ he.wt)).elim
  wait0 c m timed q op he := (hwait c m timed q op (hpc ▸ he)).elim
  room q hp := by
    rw [hpc] at hp
    obtain h1 | ⟨op, h1, _⟩ | ⟨m, timed, op, h1⟩ := hp
    · exact (h' _ h1).elim
    · exact (hloop _ _ h1).elim
    · exact (hwait _ _ _ _ _ h1).elim
  serve c hu hc := by
    rw [hpc]
    obtain h | h := hs c hu hc
    · exact .inl h
    · exact .inr (.inr (.inr h))
  cast c hc' := by rw [hpc]; exact hc c hc'

theorem cast_after {k : CastK} : (∀ c, ¬ Wt c k.after) ∧
    (∀ c m timed q' op', k.after ≠ .wait c m timed (.queue q' op')) ∧
    (∀ q' op', k.after ≠ .queue q' op' .loop) ∧ ∀ c, k.owes c → Casting c k.after := by
  cases k with
  | user => exact ⟨fun _ => id, by simp [CastK.after], by simp [CastK.after], fun _ h => h.elim⟩
  | queue q op todo r => exact ⟨postPc_wt.1, postPc_wt.2.1, postPc_wt.2.2, fun c h => owes_postPc h⟩

theorem sig_after {k : SigK} : (∀ c, ¬ Wt c k.after) ∧
    (∀ c m timed q' op', k.after ≠ .wait c m timed (.queue q' op')) ∧
    (∀ q' op', k.after ≠ .queue q' op' .loop) ∧
    ∀ c' a c, Casting c (.signal c' a k) → Casting c k.after := by
  cases k with
  | direct k => exact ⟨cast_after.1, cast_after.2.1, cast_after.2.2.1, fun _ _ c h => cast_after.2.2.2 c h⟩
  | bcast c k => exact ⟨fun _ => id, by simp [SigK.after], by simp [SigK.after], fun _ _ c h => h⟩

/-- Going on inside a wait, or in something else that is no business of a queue. -/
theorem Still.mv {pc' : Pc} (k : K n w) (hcv : ∀ c, ¬ c.isUser → w'.cv c = w.cv c) (hqu : w'.qu = w.qu)
    (hpc : (w'.th t).pc = pc') (hwt : ∀ c, Wt c pc' ↔ Wt c (w.th t).pc)
    (he : ∀ c, Early c pc' → Early c (w.th t).pc)
    (hl : ∀ c, Late c pc' → Early c (w.th t).pc ∨
      (Late c (w.th t).pc ∧ ((w.th t).permit = true → (w'.th t).permit = true)))
    (hst : ∀ b c, (w'.th t).status = .parked b → Stop c pc' → t ∈ w.cv c)
    (hwait : ∀ c m timed q' op', pc' ≠ .wait c m timed (.queue q' op'))
    (hloop : ∀ q' op', pc' ≠ .queue q' op' .loop)
    (hs : ∀ c, ¬ Serve c (w.th t).pc) (hc : ∀ c, ¬ Casting c (w.th t).pc) : Still t w w' where
  cv := hcv
  qu := hqu
  wt c hw := by rw [hpc]; exact (hwt c).2 hw
  early c h := he c (hpc ▸ h)
  late c h := hl c (hpc ▸ h)
  stop b c h1 h := hst b c h1 (hpc ▸ h)
  wait0 c m timed q op he := (hwait c m timed q op (hpc ▸ he)).elim
  room q hp := by
    rw [hpc] at hp
    obtain h1 | ⟨op, h1, _⟩ | ⟨m, timed, op, h1⟩ := hp
    · exact k.room t q (.inl ((hwt _).1 h1))
    · exact (hloop _ _ h1).elim
    · exact (hwait _ _ _ _ _ h1).elim
  serve c _ h := (hs c h).elim
  cast c h := (hc c h).elim

end Verif.Sync
