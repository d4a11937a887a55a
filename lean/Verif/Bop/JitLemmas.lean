import Verif.Bop.Jit

/-!
# Compiled code and redefinition: lemmas
-/

namespace Verif.Bop

/-- The steps covered by C108's partial theorem: a direct call lands where an
ordinary call would (always so on aarch64), a definition finds no frame relying
on the pair suspended in another fiber, a removal finds none at all. -/
def Covered (arch : Arch) (s : JState) : JAct → Prop
  | .callDirect u => arch = .aarch64 ∨ s.slot u = s.entry u ∨ s.slot u = none
  | .redefine p .byDef => ∀ f, f ≠ s.cur → ∀ b, Frame.jit b ∈ s.stack f → p ∉ b.inl
  | .redefine p .byRemoval => ∀ f b, Frame.jit b ∈ s.stack f → p ∉ b.inl
  | _ => True

def CoveredRun (arch : Arch) (s : JState) : List JAct → Prop
  | [] => True
  | a :: rest => Covered arch s a ∧ CoveredRun arch (jact arch s a) rest

/-- A body is sound as an entry of `u`: nothing it inlines is redefined, and all
of it is recorded. -/
def BodyOk (s : JState) (u : Unit') (b : Body) : Prop :=
  ∀ p ∈ b.inl, p ∉ s.redef ∧ p ∈ s.deps u

structure JInv (arch : Arch) (s : JState) : Prop where
  entryOk : ∀ u b, s.entry u = some b → BodyOk s u b
  loopOk : ∀ u b, s.loop u = some b → BodyOk s u b
  slotOk : arch = .aarch64 → ∀ u b, s.slot u = some b → BodyOk s u b
  stackOk : ∀ f b, Frame.jit b ∈ s.stack f → ∀ p ∈ b.inl, p ∉ s.redef

theorem jinv_init (arch : Arch) : JInv arch jinit where
  entryOk := by intro u b h; cases h
  loopOk := by intro u b h; cases h
  slotOk := by intro _ u b h; cases h
  stackOk := by intro f b h; cases h

theorem mem_assumable {s : JState} {inl : List Pair} {p : Pair} (h : p ∈ assumable s inl) :
    p ∉ s.redef := by
  simp only [assumable, List.mem_filter, decide_eq_true_eq] at h
  exact h.2.2

/-- Recording more dependencies. -/
theorem bodyOk_mono {s s' : JState} {u : Unit'} {b : Body} (h : BodyOk s u b)
    (hr : s'.redef = s.redef) (hd : ∀ p ∈ s.deps u, p ∈ s'.deps u) : BodyOk s' u b :=
  fun p hp => ⟨hr ▸ (h p hp).1, hd p (h p hp).2⟩

theorem deps_setAt (f : Nat → List Pair) (u k : Nat) (l : List Pair) :
    ∀ p ∈ f k, p ∈ setAt f u (l ++ f u) k := by
  intro p hp
  unfold setAt
  split
  · rename_i h; subst h; simp [hp]
  · exact hp

/-- Pushing or dropping frames of the running fiber. -/
theorem jinv_stack {arch : Arch} {s : JState} (hi : JInv arch s) (l : List Frame)
    (hl : ∀ b, Frame.jit b ∈ l → ∀ p ∈ b.inl, p ∉ s.redef) :
    JInv arch { s with stack := setAt s.stack s.cur l } where
  entryOk := hi.entryOk
  loopOk := hi.loopOk
  slotOk := hi.slotOk
  stackOk := by
    intro f b h
    simp only [setAt] at h
    split at h
    · exact hl b h
    · exact hi.stackOk f b h

theorem enter_jit {o : Option Body} {b : Body} (h : Frame.jit b = enter o) : o = some b := by
  cases o with
  | none => cases h
  | some x => cases h; rfl

theorem jinv_push {arch : Arch} {s : JState} (hi : JInv arch s) (o : Option Body) (rest : List Frame)
    (hr : ∀ fr ∈ rest, fr ∈ s.stack s.cur) (ho : ∀ b, o = some b → ∀ p ∈ b.inl, p ∉ s.redef) :
    JInv arch { s with stack := setAt s.stack s.cur (enter o :: rest) } := by
  apply jinv_stack hi
  intro b h
  rcases List.mem_cons.1 h with h | h
  · exact ho b (enter_jit h)
  · exact hi.stackOk _ b (hr _ h)

theorem jinv_chainDeopt {arch : Arch} {s : JState} (he : ∀ u b, s.entry u = some b → BodyOk s u b)
    (hl : ∀ u b, s.loop u = some b → BodyOk s u b)
    (hs : arch = .aarch64 → ∀ u b, s.slot u = some b → BodyOk s u b)
    (hst : ∀ f, f ≠ s.cur → ∀ b, Frame.jit b ∈ s.stack f → ∀ p ∈ b.inl, p ∉ s.redef) :
    JInv arch (chainDeopt s) where
  entryOk := he
  loopOk := hl
  slotOk := hs
  stackOk := by
    intro f b h
    simp only [chainDeopt, setAt] at h
    split at h
    · simp at h
    · rename_i hf
      exact hst f hf b h

theorem jinv_checkBop {arch : Arch} {s : JState} (hi : JInv arch s) : JInv arch (checkBop s) := by
  unfold checkBop
  split
  · exact jinv_chainDeopt hi.entryOk hi.loopOk hi.slotOk (fun f _ => hi.stackOk f)
  · exact hi

theorem bodyOk_evict {arch : Arch} {s : JState} {p : Pair} {u : Unit'} {b : Body} (hb : BodyOk s u b)
    (hp : p ∉ s.deps u) (pend : Bool) :
    BodyOk { evict arch s p with redef := p :: s.redef, pending := pend } u b := by
  intro q hq
  obtain ⟨h1, h2⟩ := hb q hq
  constructor
  · simp only [List.mem_cons, not_or]
    refine ⟨?_, h1⟩
    rintro rfl
    exact hp h2
  · simp only [evict, if_neg hp]
    exact h2

theorem jinv_act (arch : Arch) (s : JState) (a : JAct) (hi : JInv arch s) (hc : Covered arch s a) :
    JInv arch (jact arch s a) := by
  cases a with
  | compile u inl =>
    have hb : BodyOk (jact arch s (.compile u inl)) u ⟨assumable s inl⟩ := by
      intro p hp
      refine ⟨mem_assumable hp, ?_⟩
      have hp : p ∈ assumable s inl := hp
      simp only [jact, setAt, if_true, List.mem_append]
      exact Or.inl hp
    have hold : ∀ k b, BodyOk s k b → BodyOk (jact arch s (.compile u inl)) k b :=
      fun k b h => bodyOk_mono h rfl (deps_setAt _ _ _ _)
    refine ⟨?_, fun k b h => hold k b (hi.loopOk k b h), ?_, hi.stackOk⟩
    · intro k b h
      simp only [jact, setAt] at h
      split at h
      · rename_i hk; subst hk; cases h; exact hb
      · exact hold k b (hi.entryOk k b h)
    · intro ha k b h
      simp only [jact, setAt] at h
      split at h
      · rename_i hk; subst hk; cases h; exact hb
      · exact hold k b (hi.slotOk ha k b h)
  | compileLoop u inl =>
    have hb : BodyOk (jact arch s (.compileLoop u inl)) u ⟨assumable s inl⟩ := by
      intro p hp
      refine ⟨mem_assumable hp, ?_⟩
      have hp : p ∈ assumable s inl := hp
      simp only [jact, setAt, if_true, List.mem_append]
      exact Or.inl hp
    have hold : ∀ k b, BodyOk s k b → BodyOk (jact arch s (.compileLoop u inl)) k b :=
      fun k b h => bodyOk_mono h rfl (deps_setAt _ _ _ _)
    refine ⟨fun k b h => hold k b (hi.entryOk k b h), ?_,
      fun ha k b h => hold k b (hi.slotOk ha k b h), hi.stackOk⟩
    intro k b h
    simp only [jact, setAt] at h
    split at h
    · rename_i hk; subst hk; cases h; exact hb
    · exact hold k b (hi.loopOk k b h)
  | call u =>
    exact jinv_push hi (s.entry u) _ (fun _ h => h) (fun b h p hp => (hi.entryOk u b h p hp).1)
  | callDirect u =>
    refine jinv_push hi ((s.slot u).or (s.entry u)) _ (fun _ h => h) ?_
    intro b h p hp
    rcases hc with hc | hc | hc
    · cases hs : s.slot u with
      | some x =>
        rw [hs] at h
        simp only [Option.some_or, Option.some.injEq] at h
        subst h
        exact (hi.slotOk hc u x hs p hp).1
      | none =>
        rw [hs] at h
        simp only [Option.none_or] at h
        exact (hi.entryOk u b h p hp).1
    · rw [hc] at h
      have : s.entry u = some b := by
        cases he : s.entry u with
        | none => rw [he] at h; cases h
        | some x => rw [he] at h; simpa using h
      exact (hi.entryOk u b this p hp).1
    · rw [hc] at h
      simp only [Option.none_or] at h
      exact (hi.entryOk u b h p hp).1
  | enterLoop u =>
    simp only [jact]
    split
    · rename_i rest hst
      refine jinv_push hi (s.loop u) rest ?_ (fun b h p hp => (hi.loopOk u b h p hp).1)
      intro fr h
      rw [hst]
      simp [h]
    · exact hi
  | ret =>
    refine jinv_stack hi _ ?_
    intro b h
    exact hi.stackOk _ b (List.mem_of_mem_tail h)
  | deopt =>
    simp only [jact]
    split
    · rename_i x rest hst
      refine jinv_stack hi _ ?_
      intro b h
      rcases List.mem_cons.1 h with h | h
      · cases h
      · exact hi.stackOk s.cur b (by rw [hst]; simp [h])
    · exact hi
  | resume f => exact ⟨hi.entryOk, hi.loopOk, hi.slotOk, hi.stackOk⟩
  | redefine p how =>
    simp only [jact]
    split
    · have he : ∀ u b, (evict arch s p).entry u = some b →
          BodyOk { evict arch s p with redef := p :: s.redef, pending := true } u b := by
        intro u b h
        by_cases hp : p ∈ s.deps u
        · simp [evict, hp] at h
        · exact bodyOk_evict (hi.entryOk u b (by simpa [evict, hp] using h)) hp true
      have hl : ∀ u b, (evict arch s p).loop u = some b →
          BodyOk { evict arch s p with redef := p :: s.redef, pending := true } u b := by
        intro u b h
        by_cases hp : p ∈ s.deps u
        · simp [evict, hp] at h
        · exact bodyOk_evict (hi.loopOk u b (by simpa [evict, hp] using h)) hp true
      have hs : arch = .aarch64 → ∀ u b, (evict arch s p).slot u = some b →
          BodyOk { evict arch s p with redef := p :: s.redef, pending := true } u b := by
        intro ha u b h
        by_cases hp : p ∈ s.deps u
        · simp [evict, hp, ha] at h
        · exact bodyOk_evict (hi.slotOk ha u b (by simpa [evict, hp] using h)) hp true
      cases how with
      | byDef =>
        simp only
        unfold checkBop
        rw [if_pos rfl]
        refine jinv_chainDeopt ?_ ?_ ?_ ?_
        · exact he
        · exact hl
        · exact hs
        · intro f hf b h q hq
          simp only [List.mem_cons, not_or]
          refine ⟨?_, hi.stackOk f b h q hq⟩
          rintro rfl
          exact hc f hf b h hq
      | byRemoval =>
        refine ⟨he, hl, hs, ?_⟩
        intro f b h q hq
        simp only [List.mem_cons, not_or]
        refine ⟨?_, hi.stackOk f b h q hq⟩
        rintro rfl
        exact hc f b h hq
    · exact hi
  | defineOther => exact jinv_checkBop hi

theorem jinv_run (arch : Arch) (l : List JAct) (s : JState) (hi : JInv arch s)
    (hc : CoveredRun arch s l) : JInv arch (jrun arch s l) := by
  induction l generalizing s with
  | nil => exact hi
  | cons a rest ih => exact ih _ (jinv_act arch s a hi hc.1) hc.2

end Verif.Bop
