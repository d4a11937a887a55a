import Verif.Fiber.Model

/-!
# C154: fibers that resume and yield form a stack
-/

namespace Verif.Fiber

variable {P : Type}

/-! ### Specification -/

/-- What a program without `transfer` sees: the fibers that wait for one another, the running one first
and the root last, and which fibers have been started and have ended. -/
structure A (P : Type) where
  stack : List Id
  st : Id → St
  got : Option P

def mark (st : Id → St) (f : Id) (v : St) : Id → St := fun j => if j = f then v else st j

/-- Switching into `f`: refused if it has ended or waits on the stack. -/
def specEnter (a : A P) (f : Id) (p : P) : A P :=
  { stack := f :: a.stack, st := mark a.st f .started, got := some p }

/-- Why a fiber cannot be resumed: only because it has ended, is running, or waits. -/
def specRefuse (a : A P) (f : Id) : Option Err :=
  if a.st f = .terminated then some .terminated
  else if a.stack.head? = some f then some .current
  else if f ∈ a.stack then (if f = 0 then some .resuming else some .doubleResume)
  else none

def specStep (a : A P) : Op P → Except Err (A P)
  | .resume f p => match specRefuse a f with
    | some e => .error e
    | none => .ok (specEnter a f p)
  | .transfer _ _ => .error .transferred
  | .yield p => match a.stack with
    | _ :: q :: t => .ok { a with stack := q :: t, got := some p }
    | _ => .error .notResumed
  | .finish p => match a.stack with
    | x :: q :: t => .ok { stack := q :: t, st := mark a.st x .terminated, got := some p }
    | _ => .error .root
  | .raise f p =>
    if f ∈ a.stack then .error .here
    else match a.st f with
      | .created => .error .unborn
      | .terminated => .error .terminated
      | .started => .ok (specEnter a f p)
  | .kill f p =>
    if f = 0 then .error .root
    else if f ∈ a.stack then .error .here
    else match a.st f with
      | .created => .ok { a with st := mark a.st f .terminated }
      | .terminated => .error .terminated
      | .started => .ok (specEnter a f p)

def specNext (a : A P) (o : Op P) : A P × Option Err :=
  match specStep a o with
  | .ok a' => (a', none)
  | .error e => (a, some e)

def specRun : A P → List (Op P) → A P × List (Option Err)
  | a, [] => (a, [])
  | a, o :: os =>
    let r := specNext a o
    let rs := specRun r.1 os
    (rs.1, r.2 :: rs.2)

def specInit : A P := { stack := [0], st := fun i => if i = 0 then .started else .created, got := none }

def noTransfer : Op P → Prop
  | .transfer _ _ => False
  | _ => True

/-! ### The links -/

def Links (fs : Id → F) : List Id → Prop
  | [] => False
  | [x] => x = 0 ∧ (fs x).parent = none
  | x :: y :: t => (fs x).parent = some y ∧ (fs x).returnTo = some y ∧ (fs y).resuming = some x ∧
      (fs y).waiting = some x ∧ Links fs (y :: t)

theorem Links_congr {fs gs : Id → F} : ∀ {l : List Id}, Links fs l →
    (∀ x ∈ l, (gs x).parent = (fs x).parent ∧ (gs x).returnTo = (fs x).returnTo) →
    (∀ x ∈ l.tail, (gs x).resuming = (fs x).resuming ∧ (gs x).waiting = (fs x).waiting) → Links gs l := by
  intro l
  induction l with
  | nil => intro h; exact h.elim
  | cons x t ih =>
    intro h h1 h2
    cases t with
    | nil => exact ⟨h.1, by rw [(h1 x (by simp)).1]; exact h.2⟩
    | cons y t =>
      obtain ⟨a, b, c, d, e⟩ := h
      refine ⟨by rw [(h1 x (by simp)).1]; exact a, by rw [(h1 x (by simp)).2]; exact b,
        by rw [(h2 y (by simp)).1]; exact c, by rw [(h2 y (by simp)).2]; exact d, ?_⟩
      exact ih e (fun z hz => h1 z (List.mem_cons_of_mem _ hz))
        (fun z hz => h2 z (by simp at hz ⊢; exact .inr hz))

theorem Links_parent {fs : Id → F} : ∀ {l : List Id}, Links fs l → ∀ x ∈ l, x ≠ 0 →
    (fs x).parent.isSome = true := by
  intro l
  induction l with
  | nil => intro h; exact h.elim
  | cons x t ih =>
    intro h z hz hne
    cases t with
    | nil => simp at hz; subst hz; exact absurd h.1 hne
    | cons y t =>
      rcases List.mem_cons.1 hz with rfl | hz
      · rw [h.1]; rfl
      · exact ih h.2.2.2.2 z hz hne

theorem Links_resuming {fs : Id → F} : ∀ {l : List Id}, Links fs l → ∀ x ∈ l.tail,
    (fs x).resuming.isSome = true := by
  intro l
  induction l with
  | nil => intro h; exact h.elim
  | cons x t ih =>
    intro h z hz
    cases t with
    | nil => simp at hz
    | cons y t =>
      simp only [List.tail_cons] at hz
      rcases List.mem_cons.1 hz with rfl | hz
      · rw [h.2.2.1]; rfl
      · exact ih h.2.2.2.2 z hz

theorem Links_zero {fs : Id → F} : ∀ {l : List Id}, Links fs l → 0 ∈ l := by
  intro l
  induction l with
  | nil => intro h; exact h.elim
  | cons x t ih =>
    intro h
    cases t with
    | nil => simp [h.1]
    | cons y t => exact List.mem_cons_of_mem _ (ih h.2.2.2.2)

theorem Links_root {fs : Id → F} : ∀ {l : List Id}, l.Nodup → Links fs l → (fs 0).parent = none := by
  intro l
  induction l with
  | nil => intro _ h; exact h.elim
  | cons x t ih =>
    intro hn h
    cases t with
    | nil => rw [← h.1]; exact h.2
    | cons y t => exact ih (List.nodup_cons.1 hn).2 h.2.2.2.2

theorem across_false {fs : Id → F} {f : Id} : ∀ n {x : Id} {t : List Id}, Links fs (x :: t) → f ∉ t →
    across fs f n (fs x).parent = false := by
  intro n
  induction n with
  | zero => intros; rfl
  | succ n ih =>
    intro x t h hf
    cases t with
    | nil => rw [h.2]; rfl
    | cons y t =>
      rw [h.1]
      simp only [across]
      simp only [List.mem_cons, not_or] at hf
      have h1 : (y == f) = false := by simp; exact fun h => hf.1 h.symm
      rw [h1, ih h.2.2.2.2 hf.2]
      rfl

/-- How the fields of the code describe the stack. -/
structure Rel (s : S P) (a : A P) : Prop where
  head : a.stack.head? = some s.cur
  nodup : a.stack.Nodup
  links : Links s.fs a.stack
  curResuming : (s.fs s.cur).resuming = none
  curWaiting : (s.fs s.cur).waiting = none
  on : ∀ x ∈ a.stack, (s.fs x).st = .started ∧ (s.fs x).yielding = false
  st : ∀ x, (s.fs x).st = a.st x
  got : s.got = a.got
  transferred : ∀ x, (s.fs x).transferred = false
  off : ∀ x, x ∉ a.stack → (s.fs x).st ≠ .terminated →
    (s.fs x).parent = none ∧ (s.fs x).resuming = none ∧ (s.fs x).waiting = none ∧
    ((s.fs x).yielding = true ↔ (s.fs x).st = .started)

theorem upd_same (fs : Id → F) (i : Id) (g : F → F) : upd fs i g i = g (fs i) := by simp [upd]

theorem upd_ne (fs : Id → F) {i j : Id} (g : F → F) (h : j ≠ i) : upd fs i g j = fs j := by simp [upd, h]

theorem rel_init : Rel (init : S P) (specInit : A P) := by
  refine ⟨rfl, by simp [specInit], ⟨rfl, rfl⟩, rfl, rfl, ?_, ?_, rfl, ?_, ?_⟩
  · intro x hx; simp [specInit] at hx; subst hx; simp [init]
  · intro x; by_cases h : x = 0 <;> simp [init, specInit, h]
  · intro x; by_cases h : x = 0 <;> simp [init, h]
  · intro x hx _
    simp [specInit] at hx
    simp [init, hx]

/-- Pushing `f`, whose fields before the switch are those of a fiber off the stack. -/
theorem rel_push {s : S P} {a : A P} (h : Rel s a) {f : Id} (hf : f ∉ a.stack)
    (ht : (s.fs f).st ≠ .terminated) (p : P) (b : Bool → Bool) (hb : b (s.fs f).yielding = false) :
    Rel { cur := f, got := some p,
          fs := upd (upd s.fs s.cur fun x => { x with resuming := some f, waiting := some f }) f
            fun x => { x with st := .started, returnTo := some s.cur, yielding := b x.yielding,
                              parent := some s.cur } }
      (specEnter a f p) := by
  obtain ⟨t, hst⟩ : ∃ t, a.stack = s.cur :: t := by
    have := h.head
    cases hs : a.stack with
    | nil => simp [hs] at this
    | cons x t => simp [hs] at this; exact ⟨t, by rw [this]⟩
  have hfc : f ≠ s.cur := by intro he; apply hf; rw [hst, he]; simp
  have hcf : s.cur ≠ f := fun h => hfc h.symm
  have hnd := h.nodup
  have hl := h.links
  have off := h.off f hf ht
  refine ⟨by simp [specEnter], ?_, ?_, ?_, ?_, ?_, ?_, rfl, ?_, ?_⟩
  · simp only [specEnter]; exact List.nodup_cons.2 ⟨hf, hnd⟩
  · simp only [specEnter]
    rw [hst] at hl hf hnd ⊢
    refine ⟨by rw [upd_same], by rw [upd_same], by rw [upd_ne _ _ hcf, upd_same],
      by rw [upd_ne _ _ hcf, upd_same], ?_⟩
    refine Links_congr hl ?_ ?_
    · intro x hx
      have hxf : x ≠ f := fun h => hf (h ▸ hx)
      rw [upd_ne _ _ hxf]
      by_cases hxc : x = s.cur
      · subst hxc; rw [upd_same]; exact ⟨rfl, rfl⟩
      · rw [upd_ne _ _ hxc]; exact ⟨rfl, rfl⟩
    · intro x hx
      simp only [List.tail_cons] at hx
      have hxf : x ≠ f := fun h => hf (h ▸ List.mem_cons_of_mem _ hx)
      have hxc : x ≠ s.cur := fun h => (List.nodup_cons.1 hnd).1 (h ▸ hx)
      rw [upd_ne _ _ hxf, upd_ne _ _ hxc]
      exact ⟨rfl, rfl⟩
  · simp only; rw [upd_same, upd_ne _ _ hfc]; exact off.2.1
  · simp only; rw [upd_same, upd_ne _ _ hfc]; exact off.2.2.1
  · intro x hx
    simp only [specEnter] at hx ⊢
    rcases List.mem_cons.1 hx with rfl | hx
    · rw [upd_same, upd_ne _ _ hfc]; exact ⟨rfl, hb⟩
    · have hxf : x ≠ f := fun h => hf (h ▸ hx)
      rw [upd_ne _ _ hxf]
      by_cases hxc : x = s.cur
      · subst hxc; rw [upd_same]; exact h.on _ hx
      · rw [upd_ne _ _ hxc]; exact h.on x hx
  · intro x
    simp only
    by_cases hxf : x = f
    · subst hxf; rw [upd_same]; simp [specEnter, mark]
    · rw [upd_ne _ _ hxf]
      simp only [specEnter, mark, if_neg hxf]
      by_cases hxc : x = s.cur
      · subst hxc; rw [upd_same]; exact h.st _
      · rw [upd_ne _ _ hxc]; exact h.st x
  · intro x
    simp only
    by_cases hxf : x = f
    · subst hxf; rw [upd_same, upd_ne _ _ hfc]; exact h.transferred _
    · rw [upd_ne _ _ hxf]
      by_cases hxc : x = s.cur
      · subst hxc; rw [upd_same]; exact h.transferred _
      · rw [upd_ne _ _ hxc]; exact h.transferred x
  · intro x hx hxt
    simp only [specEnter, List.mem_cons, not_or] at hx hxt ⊢
    have hxc : x ≠ s.cur := fun he => hx.2 (by rw [hst, he]; simp)
    rw [upd_ne _ _ hx.1, upd_ne _ _ hxc] at hxt ⊢
    exact h.off x hx.2 hxt

/-- Popping: control comes back to the fiber below, `x` above it has yielded. -/
theorem rel_yield {s : S P} {a : A P} (h : Rel s a) {q : Id} {t : List Id}
    (hs : a.stack = s.cur :: q :: t) (p : P) :
    ∃ s', arrive s q p = .ok s' ∧ Rel s' { a with stack := q :: t, got := some p } := by
  have hnd := h.nodup
  have hl := h.links
  rw [hs] at hnd hl
  obtain ⟨l1, l2, l3, l4, l5⟩ := hl
  have hcq : s.cur ≠ q := fun he => (List.nodup_cons.1 hnd).1 (by rw [he]; simp)
  have hqc : q ≠ s.cur := fun he => hcq he.symm
  have hq := h.on q (by rw [hs]; simp)
  have hc := h.on s.cur (by rw [hs]; simp)
  have hcond : (upd s.fs q (fun x => { x with resuming := none, waiting := none }) s.cur).st = .started ∧
      (upd s.fs q (fun x => { x with resuming := none, waiting := none }) s.cur).parent = some q := by
    rw [upd_ne _ _ hcq]; exact ⟨hc.1, l1⟩
  have hqt : (s.fs q).st ≠ .terminated := by rw [hq.1]; simp
  refine ⟨{ cur := q, got := some p,
            fs := upd (upd s.fs q fun x => { x with resuming := none, waiting := none }) s.cur
              fun x => { x with parent := none, yielding := true } }, ?_, ?_⟩
  · simp only [arrive, hqt, if_false, l4, receive, hcond, and_self, if_true]
  · have hnd2 := (List.nodup_cons.1 hnd).2
    have hc1 := (List.nodup_cons.1 hnd).1
    refine ⟨rfl, hnd2, ?_, ?_, ?_, ?_, ?_, rfl, ?_, ?_⟩
    · refine Links_congr l5 ?_ ?_
      · intro x hx
        have hxc : x ≠ s.cur := fun he => hc1 (he ▸ hx)
        simp only
        rw [upd_ne _ _ hxc]
        by_cases hxq : x = q
        · subst hxq; rw [upd_same]; exact ⟨rfl, rfl⟩
        · rw [upd_ne _ _ hxq]; exact ⟨rfl, rfl⟩
      · intro x hx
        simp only [List.tail_cons] at hx
        have hxc : x ≠ s.cur := fun he => hc1 (he ▸ List.mem_cons_of_mem _ hx)
        have hxq : x ≠ q := fun he => (List.nodup_cons.1 hnd2).1 (he ▸ hx)
        simp only
        rw [upd_ne _ _ hxc, upd_ne _ _ hxq]
        exact ⟨rfl, rfl⟩
    · simp only; rw [upd_ne _ _ hqc, upd_same]
    · simp only; rw [upd_ne _ _ hqc, upd_same]
    · intro x hx
      have hxc : x ≠ s.cur := fun he => hc1 (he ▸ hx)
      simp only
      rw [upd_ne _ _ hxc]
      by_cases hxq : x = q
      · subst hxq; rw [upd_same]; exact hq
      · rw [upd_ne _ _ hxq]; exact h.on x (by rw [hs]; exact List.mem_cons_of_mem _ hx)
    · intro x
      simp only
      by_cases hxc : x = s.cur
      · subst hxc; rw [upd_same, upd_ne _ _ hcq]; exact h.st _
      · rw [upd_ne _ _ hxc]
        by_cases hxq : x = q
        · subst hxq; rw [upd_same]; exact h.st _
        · rw [upd_ne _ _ hxq]; exact h.st x
    · intro x
      simp only
      by_cases hxc : x = s.cur
      · subst hxc; rw [upd_same, upd_ne _ _ hcq]; exact h.transferred _
      · rw [upd_ne _ _ hxc]
        by_cases hxq : x = q
        · subst hxq; rw [upd_same]; exact h.transferred _
        · rw [upd_ne _ _ hxq]; exact h.transferred x
    · intro x hx hxt
      simp only at hx hxt ⊢
      by_cases hxc : x = s.cur
      · subst hxc
        rw [upd_same, upd_ne _ _ hcq]
        refine ⟨rfl, h.curResuming, ?_, by simp [hc.1]⟩
        exact h.curWaiting
      · have hxq : x ≠ q := fun he => hx (by rw [he]; simp)
        rw [upd_ne _ _ hxc, upd_ne _ _ hxq] at hxt ⊢
        refine h.off x ?_ hxt
        rw [hs]
        simp only [List.mem_cons, not_or] at hx ⊢
        exact ⟨hxc, hx⟩

/-- The running fiber ends. -/
theorem rel_finish {s : S P} {a : A P} (h : Rel s a) {q : Id} {t : List Id}
    (hs : a.stack = s.cur :: q :: t) (p : P) :
    ∃ s', arrive { s with fs := upd s.fs s.cur fun x => { x with st := .terminated } } q p = .ok s' ∧
      Rel s' { stack := q :: t, st := mark a.st s.cur .terminated, got := some p } := by
  have hnd := h.nodup
  have hl := h.links
  rw [hs] at hnd hl
  obtain ⟨l1, l2, l3, l4, l5⟩ := hl
  have hcq : s.cur ≠ q := fun he => (List.nodup_cons.1 hnd).1 (by rw [he]; simp)
  have hqc : q ≠ s.cur := fun he => hcq he.symm
  have hq := h.on q (by rw [hs]; simp)
  have hqt : (s.fs q).st ≠ .terminated := by rw [hq.1]; simp
  refine ⟨{ cur := q, got := some p,
            fs := upd (upd s.fs s.cur fun x => { x with st := .terminated }) q
              fun x => { x with resuming := none, waiting := none } }, ?_, ?_⟩
  · simp only [arrive, upd_ne _ _ hqc, hqt, if_false, l4, receive, upd_ne _ _ hcq, upd_same]
    simp
  · have hnd2 := (List.nodup_cons.1 hnd).2
    have hc1 := (List.nodup_cons.1 hnd).1
    refine ⟨rfl, hnd2, ?_, ?_, ?_, ?_, ?_, rfl, ?_, ?_⟩
    · refine Links_congr l5 ?_ ?_
      · intro x hx
        have hxc : x ≠ s.cur := fun he => hc1 (he ▸ hx)
        simp only
        by_cases hxq : x = q
        · subst hxq; rw [upd_same, upd_ne _ _ hxc]; exact ⟨rfl, rfl⟩
        · rw [upd_ne _ _ hxq, upd_ne _ _ hxc]; exact ⟨rfl, rfl⟩
      · intro x hx
        simp only [List.tail_cons] at hx
        have hxc : x ≠ s.cur := fun he => hc1 (he ▸ List.mem_cons_of_mem _ hx)
        have hxq : x ≠ q := fun he => (List.nodup_cons.1 hnd2).1 (he ▸ hx)
        simp only
        rw [upd_ne _ _ hxq, upd_ne _ _ hxc]
        exact ⟨rfl, rfl⟩
    · simp only; rw [upd_same]
    · simp only; rw [upd_same]
    · intro x hx
      have hxc : x ≠ s.cur := fun he => hc1 (he ▸ hx)
      simp only
      by_cases hxq : x = q
      · subst hxq; rw [upd_same, upd_ne _ _ hxc]; exact hq
      · rw [upd_ne _ _ hxq, upd_ne _ _ hxc]; exact h.on x (by rw [hs]; exact List.mem_cons_of_mem _ hx)
    · intro x
      simp only [mark]
      by_cases hxc : x = s.cur
      · subst hxc; rw [upd_ne _ _ hcq, upd_same]; simp
      · rw [if_neg hxc]
        by_cases hxq : x = q
        · subst hxq; rw [upd_same, upd_ne _ _ hxc]; exact h.st _
        · rw [upd_ne _ _ hxq, upd_ne _ _ hxc]; exact h.st x
    · intro x
      simp only
      by_cases hxc : x = s.cur
      · subst hxc; rw [upd_ne _ _ hcq, upd_same]; exact h.transferred _
      · by_cases hxq : x = q
        · subst hxq; rw [upd_same, upd_ne _ _ hxc]; exact h.transferred _
        · rw [upd_ne _ _ hxq, upd_ne _ _ hxc]; exact h.transferred x
    · intro x hx hxt
      simp only at hx hxt ⊢
      have hxq : x ≠ q := fun he => hx (by rw [he]; simp)
      by_cases hxc : x = s.cur
      · subst hxc
        rw [upd_ne _ _ hcq, upd_same] at hxt
        exact absurd rfl hxt
      · rw [upd_ne _ _ hxq, upd_ne _ _ hxc] at hxt ⊢
        refine h.off x ?_ hxt
        rw [hs]
        simp only [List.mem_cons, not_or] at hx ⊢
        exact ⟨hxc, hx⟩

/-- A fiber that was never started is killed. -/
theorem rel_unborn {s : S P} {a : A P} (h : Rel s a) {f : Id} (hf : f ∉ a.stack) :
    Rel { s with fs := upd s.fs f fun x => { x with st := .terminated } }
      { a with st := mark a.st f .terminated } := by
  have hne : ∀ x ∈ a.stack, x ≠ f := fun x hx he => hf (he ▸ hx)
  have hcf : s.cur ≠ f := by
    apply hne
    have := h.head
    cases hs : a.stack with
    | nil => simp [hs] at this
    | cons x t => simp [hs] at this; simp [this]
  refine ⟨h.head, h.nodup, ?_, ?_, ?_, ?_, ?_, h.got, ?_, ?_⟩
  · refine Links_congr h.links ?_ ?_
    · intro x hx; simp only; rw [upd_ne _ _ (hne x hx)]; exact ⟨rfl, rfl⟩
    · intro x hx; simp only; rw [upd_ne _ _ (hne x (List.mem_of_mem_tail hx))]; exact ⟨rfl, rfl⟩
  · simp only; rw [upd_ne _ _ hcf]; exact h.curResuming
  · simp only; rw [upd_ne _ _ hcf]; exact h.curWaiting
  · intro x hx; simp only at hx ⊢; rw [upd_ne _ _ (hne x hx)]; exact h.on x hx
  · intro x
    simp only [mark]
    by_cases hxf : x = f
    · subst hxf; rw [upd_same]; simp
    · rw [upd_ne _ _ hxf, if_neg hxf]; exact h.st x
  · intro x
    simp only
    by_cases hxf : x = f
    · subst hxf; rw [upd_same]; exact h.transferred _
    · rw [upd_ne _ _ hxf]; exact h.transferred x
  · intro x hx hxt
    simp only at hx hxt ⊢
    by_cases hxf : x = f
    · subst hxf; rw [upd_same] at hxt; exact absurd rfl hxt
    · rw [upd_ne _ _ hxf] at hxt ⊢; exact h.off x hx hxt

/-- Switching into a fiber that yielded. -/
theorem switchResume_rel {s : S P} {a : A P} (h : Rel s a) {f : Id} (hf : f ∉ a.stack)
    (ht : (s.fs f).st = .started) (p : P) :
    ∃ s', switchResume s f p = .ok s' ∧ Rel s' (specEnter a f p) := by
  have hr := rel_push h hf (by rw [ht]; simp) p (fun _ => false) rfl
  have off := h.off f hf (by rw [ht]; simp)
  have hfc : f ≠ s.cur := by
    intro he
    rw [he, h.curResuming] at off
    apply hf
    have := h.head
    cases hs : a.stack with
    | nil => simp [hs] at this
    | cons x t => simp [hs] at this; simp [this, he]
  refine ⟨_, ?_, hr⟩
  have hg : upd (upd s.fs s.cur fun x => { x with resuming := some f, waiting := some f }) f
      (fun x => { x with returnTo := some s.cur, yielding := false, parent := some s.cur }) =
      upd (upd s.fs s.cur fun x => { x with resuming := some f, waiting := some f }) f
      (fun x => { x with st := .started, returnTo := some s.cur, yielding := false, parent := some s.cur }) := by
    funext x
    by_cases hxf : x = f
    · subst hxf; rw [upd_same, upd_same, upd_ne _ _ hfc]; simp only [ht]
    · rw [upd_ne _ _ hxf, upd_ne _ _ hxf]
  simp only [switchResume, hg, arrive, upd_same]
  rw [upd_ne _ _ hfc, off.2.2.1]
  simp [ht]

def Agrees (r : Except Err (S P)) (q : Except Err (A P)) : Prop :=
  (∃ e, r = .error e ∧ q = .error e) ∨ ∃ s a, r = .ok s ∧ q = .ok a ∧ Rel s a

theorem step_agrees (n : Nat) {s : S P} {a : A P} (h : Rel s a) (o : Op P) (ho : noTransfer o) :
    Agrees (step n s o) (specStep a o) := by
  obtain ⟨t, hst⟩ : ∃ t, a.stack = s.cur :: t := by
    have := h.head
    cases hs : a.stack with
    | nil => simp [hs] at this
    | cons x t => simp [hs] at this; exact ⟨t, by rw [this]⟩
  have hl := h.links
  have hnd := h.nodup
  have hmem : ∀ f, f ∈ a.stack → f ≠ s.cur → f ∈ a.stack.tail := by
    intro f hf hne; rw [hst] at hf ⊢; simpa [hne] using hf
  cases o with
  | transfer f p => exact ho.elim
  | resume f p =>
    simp only [step, Fiber.resume, specStep, specRefuse, checkResumable, h.st f]
    by_cases h1 : a.st f = .terminated
    · simp only [h1, if_true]; exact .inl ⟨_, rfl, rfl⟩
    · by_cases h2 : f = s.cur
      · subst h2
        simp only [h1, if_false, if_true, h.head]; exact .inl ⟨_, rfl, rfl⟩
      · have h2' : ¬ a.stack.head? = some f := by rw [h.head]; simpa using fun he => h2 he.symm
        by_cases h3 : f ∈ a.stack
        · by_cases h0 : f = 0
          · have hp : (s.fs f).parent = none := by rw [h0]; exact Links_root hnd hl
            have hr := Links_resuming hl f (hmem f h3 h2)
            simp only [h1, h2, h2', h3, hp, hr, if_false, if_true, h0, Option.isSome_none]
            rw [h0] at h2 h2' h3 h1 hp hr
            simp [h1, h2, h2', h3, hp, hr]
            exact .inl ⟨_, rfl, rfl⟩
          · have hp := Links_parent hl f h3 h0
            simp only [h1, h2, h2', h3, hp, h0, if_false, if_true]
            exact .inl ⟨_, rfl, rfl⟩
        · have hft : (s.fs f).st ≠ .terminated := by rw [h.st]; exact h1
          have off := h.off f h3 hft
          simp only [h1, h2, h2', h3, off.1, off.2.1, h.transferred f, if_false, Option.isSome_none,
            Bool.false_eq_true]
          by_cases h4 : a.st f = .created
          · simp only [h4, if_true]
            have hy : (s.fs f).yielding = false := by
              have := off.2.2.2
              rw [h.st f, h4] at this
              simpa using this
            exact .inr ⟨_, _, rfl, rfl, rel_push h h3 hft p id hy⟩
          · have h5 : (s.fs f).st = .started := by
              rw [h.st]
              cases hq : a.st f with
              | created => exact absurd hq h4
              | started => rfl
              | terminated => exact absurd hq h1
            have hac : across s.fs f n (s.fs s.cur).parent = false := by
              rw [hst] at hl h3
              exact across_false n hl (fun he => h3 (List.mem_cons_of_mem _ he))
            simp only [h4, if_false, hac, Bool.false_eq_true]
            obtain ⟨s', e1, e2⟩ := switchResume_rel h h3 h5 p
            exact .inr ⟨_, _, e1, rfl, e2⟩
  | yield p =>
    simp only [step, Fiber.yield, specStep]
    cases t with
    | nil =>
      rw [hst] at hl ⊢
      rw [hl.2]
      exact .inl ⟨_, rfl, rfl⟩
    | cons q t =>
      obtain ⟨s', e1, e2⟩ := rel_yield h hst p
      have hq : (s.fs s.cur).parent = some q := by rw [hst] at hl; exact hl.1
      rw [hq, hst]
      exact .inr ⟨_, _, e1, rfl, e2⟩
  | finish p =>
    simp only [step, Fiber.finish, specStep]
    cases t with
    | nil =>
      rw [hst] at hl ⊢
      rw [if_pos hl.1]
      exact .inl ⟨_, rfl, rfl⟩
    | cons q t =>
      have hc0 : s.cur ≠ 0 := by
        intro he
        rw [hst] at hl hnd
        exact (List.nodup_cons.1 hnd).1 (he ▸ Links_zero hl.2.2.2.2)
      obtain ⟨s', e1, e2⟩ := rel_finish h hst p
      have hq : (s.fs s.cur).returnTo = some q := by rw [hst] at hl; exact hl.2.1
      rw [if_neg hc0, hq, hst]
      exact .inr ⟨_, _, e1, rfl, e2⟩
  | raise f p =>
    simp only [step, Fiber.raise, specStep, h.st f]
    by_cases h3 : f ∈ a.stack
    · simp only [h3, if_true]
      by_cases h2 : f = s.cur
      · simp only [h2, if_true]; exact .inl ⟨_, rfl, rfl⟩
      · have hr := Links_resuming hl f (hmem f h3 h2)
        have := (h.on f h3).1
        rw [h.st] at this
        simp only [h2, if_false, this, hr, if_true]
        exact .inl ⟨_, rfl, rfl⟩
    · have h2 : f ≠ s.cur := by intro he; apply h3; rw [hst, he]; simp
      simp only [h2, h3, if_false]
      cases hq : a.st f with
      | created => exact .inl ⟨_, rfl, rfl⟩
      | terminated => exact .inl ⟨_, rfl, rfl⟩
      | started =>
        have h5 : (s.fs f).st = .started := by rw [h.st, hq]
        have off := h.off f h3 (by rw [h5]; simp)
        have hy := off.2.2.2.2 h5
        obtain ⟨s', e1, e2⟩ := switchResume_rel h h3 h5 p
        simp only [off.2.1, Option.isSome_none, Bool.false_eq_true, if_false, inject, hy, if_true]
        exact .inr ⟨_, _, e1, rfl, e2⟩
  | kill f p =>
    simp only [step, Fiber.kill, specStep, h.st f]
    by_cases h0 : f = 0
    · simp only [h0, if_true]; exact .inl ⟨_, rfl, rfl⟩
    · simp only [h0, if_false]
      by_cases h3 : f ∈ a.stack
      · have hs1 := (h.on f h3).1
        rw [h.st] at hs1
        have h1 : ¬ a.st f = .terminated := by rw [hs1]; simp
        simp only [h3, if_true, h1, if_false]
        by_cases h2 : f = s.cur
        · simp only [h2, if_true]; exact .inl ⟨_, rfl, rfl⟩
        · have hr := Links_resuming hl f (hmem f h3 h2)
          simp only [h2, if_false, hr, if_true]
          exact .inl ⟨_, rfl, rfl⟩
      · have h2 : f ≠ s.cur := by intro he; apply h3; rw [hst, he]; simp
        simp only [h2, h3, if_false]
        cases hq : a.st f with
        | terminated => simp only [if_true]; exact .inl ⟨_, rfl, rfl⟩
        | created =>
          have off := h.off f h3 (by rw [h.st, hq]; simp)
          simp only [off.2.1, Option.isSome_none, Bool.false_eq_true, if_false, if_true]
          exact .inr ⟨_, _, rfl, rfl, rel_unborn h h3⟩
        | started =>
          have h5 : (s.fs f).st = .started := by rw [h.st, hq]
          have off := h.off f h3 (by rw [h5]; simp)
          have hy := off.2.2.2.2 h5
          obtain ⟨s', e1, e2⟩ := switchResume_rel h h3 h5 p
          simp only [off.2.1, Option.isSome_none, Bool.false_eq_true, if_false, inject, hy, if_true]
          exact .inr ⟨_, _, e1, rfl, e2⟩

theorem run_agrees (n : Nat) : ∀ (os : List (Op P)) {s : S P} {a : A P}, Rel s a →
    (∀ o ∈ os, noTransfer o) →
    (run n s os).2 = (specRun a os).2 ∧ Rel (run n s os).1 (specRun a os).1 := by
  intro os
  induction os with
  | nil => intro s a h _; exact ⟨rfl, h⟩
  | cons o os ih =>
    intro s a h ho
    have hrest : ∀ o ∈ os, noTransfer o := fun x hx => ho x (List.mem_cons_of_mem _ hx)
    simp only [run, specRun, next, specNext]
    rcases step_agrees n h o (ho o (by simp)) with ⟨e, h1, h2⟩ | ⟨s', a', h1, h2, h3⟩
    · rw [h1, h2]
      have := ih h hrest
      exact ⟨by simp [this.1], this.2⟩
    · rw [h1, h2]
      have := ih h3 hrest
      exact ⟨by simp [this.1], this.2⟩

/-! ### C154 -/

/-- A program whose fibers never `transfer` sees a stack: every operation succeeds or is refused exactly as
the stack machine says, the running fiber is the top of the stack, it got what the last switch handed over,
and each fiber is unstarted, started or ended as the machine says.  Missing: programs with `transfer`. -/
theorem C154_stack_partial (n : Nat) (os : List (Op P)) (h : ∀ o ∈ os, noTransfer o) :
    (run n init os).2 = (specRun specInit os).2 ∧
    (specRun specInit os).1.stack.head? = some (run n init os).1.cur ∧
    (run n init os).1.got = (specRun specInit os).1.got ∧
    ∀ f, ((run n init os).1.fs f).st = (specRun (specInit : A P) os).1.st f := by
  have := run_agrees n os rel_init h
  exact ⟨this.1, this.2.head, this.2.got, this.2.st⟩

/-- The root resumes 1, which resumes 2; 2 yields, 1 resumes itself and the root in vain, ends; the root
resumes 1 in vain and 2 again. -/
example : (run 10 init [Op.resume 1 "a", .resume 2 "b", .yield "c", .resume 1 "d", .resume 0 "e",
    .finish "f", .resume 1 "g", .resume 2 "h"]).2 =
    [none, none, none, some .current, some .resuming, none, some .terminated, none] := by decide +kernel

theorem specStep_no_crash (a : A P) (o : Op P) : specStep a o ≠ .error .crash := by
  intro h
  cases o with
  | resume f p =>
    simp only [specStep, specRefuse] at h
    by_cases h1 : a.st f = .terminated
    · simp [h1] at h
    · by_cases h2 : a.stack.head? = some f
      · simp [h1, h2] at h
      · by_cases h3 : f ∈ a.stack
        · by_cases h4 : f = 0
          · subst h4; simp [h1, h2, h3] at h
          · simp [h1, h2, h3, h4] at h
        · simp [h1, h2, h3] at h
  | transfer f p => simp [specStep] at h
  | yield p => simp only [specStep] at h; split at h <;> cases h
  | finish p => simp only [specStep] at h; split at h <;> cases h
  | raise f p =>
    simp only [specStep] at h
    split at h
    · cases h
    · split at h <;> cases h
  | kill f p =>
    simp only [specStep] at h
    split at h
    · cases h
    · split at h
      · cases h
      · split at h <;> cases h

/-- Without `transfer` no switch ever lands in a fiber that has ended. -/
theorem C154_no_crash (n : Nat) (os : List (Op P)) (h : ∀ o ∈ os, noTransfer o) :
    some Err.crash ∉ (run n init os).2 := by
  rw [(C154_stack_partial n os h).1]
  generalize (specInit : A P) = a
  clear h
  induction os generalizing a with
  | nil => simp [specRun]
  | cons o os ih =>
    simp only [specRun, List.mem_cons, not_or]
    refine ⟨?_, ih _⟩
    simp only [specNext]
    have := specStep_no_crash a o
    cases hq : specStep a o with
    | ok a' => simp
    | error e => rw [hq] at this; simp at this ⊢; exact fun he => this he.symm

/-- What is handed over arrives: a `yield` gives its value to the fiber that resumed the current one, and
that fiber runs; the fiber that yielded can be resumed again and gets what it is given then. -/
theorem C154_ping_pong (n : Nat) (os : List (Op P)) (h : ∀ o ∈ os, noTransfer o) (f : Id) (p q r : P)
    (hf : (run n init (os ++ [Op.resume f p])).2.getLast? = some none) :
    let s := (run n init os).1
    let t := (run n init (os ++ [Op.resume f p, .yield q])).1
    let u := (run n init (os ++ [Op.resume f p, .yield q, .resume f r])).1
    (run n init (os ++ [Op.resume f p])).1.cur = f ∧ (run n init (os ++ [Op.resume f p])).1.got = some p ∧
    t.cur = s.cur ∧ t.got = some q ∧ u.cur = f ∧ u.got = some r := by
  have happ : ∀ (xs ys : List (Op P)) (b : A P), specRun b (xs ++ ys) =
      ((specRun (specRun b xs).1 ys).1, (specRun b xs).2 ++ (specRun (specRun b xs).1 ys).2) := by
    intro xs ys
    induction xs with
    | nil => intro b; rfl
    | cons x xs ih => intro b; simp only [List.cons_append, specRun, ih]
  have ho : ∀ ys : List (Op P), (∀ o ∈ ys, noTransfer o) → ∀ o ∈ os ++ ys, noTransfer o := by
    intro ys hy o ho
    rcases List.mem_append.1 ho with ho | ho
    · exact h o ho
    · exact hy o ho
  have r0 := C154_stack_partial n os h
  have r1 := C154_stack_partial n (os ++ [Op.resume f p]) (ho _ (by simp [noTransfer]))
  have r2 := C154_stack_partial n (os ++ [Op.resume f p, .yield q]) (ho _ (by simp [noTransfer]))
  have r3 := C154_stack_partial n (os ++ [Op.resume f p, .yield q, .resume f r]) (ho _ (by simp [noTransfer]))
  rw [r1.1] at hf
  simp only [happ] at r1 r2 r3 hf
  generalize ha : (specRun specInit os).1 = a at r0 r1 r2 r3 hf
  have href : specRefuse a f = none := by
    cases hq : specRefuse a f with
    | none => rfl
    | some e => simp [specRun, specNext, specStep, hq] at hf
  simp only [specRun, specNext, specStep, href] at r1 r2 r3
  obtain ⟨t, hst⟩ : ∃ t, a.stack = (run n init os).1.cur :: t := by
    have := r0.2.1
    cases hs : a.stack with
    | nil => simp [hs] at this
    | cons x t => simp [hs] at this; exact ⟨t, by rw [this]⟩
  have href2 : specRefuse { specEnter a f p with stack := (run n init os).1.cur :: t, got := some q } f = none := by
    simp only [specRefuse, hst] at href ⊢
    by_cases h1 : a.st f = .terminated
    · simp [h1] at href
    · simp only [h1, if_false] at href
      simp only [specEnter, mark, if_true]
      simpa using href
  simp only [specEnter, hst] at r1 r2 r3 href2
  simp only [href2] at r3
  refine ⟨?_, r1.2.2.1, ?_, r2.2.2.1, ?_, r3.2.2.1⟩
  · simpa using r1.2.1.symm
  · simpa using r2.2.1.symm
  · simpa using r3.2.1.symm

example : (run 10 init ([Op.resume 1 "a"] ++ [Op.resume 2 "b"])).2.getLast? = some none := by decide +kernel

/-- The first `transfer` of a program: a fiber that waits for another one refuses it, so does one that has
yielded and one that has ended; an unstarted fiber and the running one accept it. -/
theorem C154_transfer_first (n : Nat) (os : List (Op P)) (h : ∀ o ∈ os, noTransfer o) (f : Id) (p : P) :
    let a := (specRun (specInit : A P) os).1
    let s := (run n init os).1
    match step n s (.transfer f p) with
    | .error e =>
      (f ∈ a.stack.tail ∧ e = .resuming) ∨
      (f ∉ a.stack ∧ a.st f = .started ∧ e = .yielding) ∨
      (f ∉ a.stack ∧ a.st f = .terminated ∧ (e = .terminated ∨ e = .yielding ∨ e = .resuming))
    | .ok s' => (f ∉ a.stack ∧ a.st f = .created ∨ f = s.cur) ∧ s'.cur = f ∧ s'.got = some p := by
  intro a s
  have hr : Rel s a := (run_agrees n os rel_init h).2
  have hl := hr.links
  obtain ⟨t, hst⟩ : ∃ t, a.stack = s.cur :: t := by
    have := hr.head
    cases hs : a.stack with
    | nil => simp [hs] at this
    | cons x t => simp [hs] at this; exact ⟨t, by rw [this]⟩
  simp only [step, Fiber.transfer]
  by_cases h1 : f ∈ a.stack.tail
  · have := Links_resuming hl f h1
    simp only [this, if_true]
    simp [h1]
  · by_cases h2 : f = s.cur
    · have hon := hr.on f (by rw [hst, h2]; simp)
      have hc := hr.curResuming
      rw [← h2] at hc ⊢
      simp [hc, hon.1, hon.2]
    · have h3 : f ∉ a.stack := by
        intro hm; apply h1; rw [hst] at hm ⊢; simpa [h2] using hm
      cases hq : a.st f with
      | terminated =>
        have : (s.fs f).st = .terminated := by rw [hr.st, hq]
        by_cases g1 : (s.fs f).resuming.isSome = true
        · simp [g1, h3]
        · by_cases g2 : (s.fs f).yielding = true
          · simp [g1, g2, h3]
          · simp [g1, g2, h3, this]
      | started =>
        have hs1 : (s.fs f).st = .started := by rw [hr.st, hq]
        have off := hr.off f h3 (by rw [hs1]; simp)
        have hy := off.2.2.2.2 hs1
        simp [off.2.1, hy, h3]
      | created =>
        have hs1 : (s.fs f).st = .created := by rw [hr.st, hq]
        have off := hr.off f h3 (by rw [hs1]; simp)
        have hy : (s.fs f).yielding = false := by
          have := off.2.2.2
          rw [hs1] at this
          simpa using this
        simp [off.2.1, hy, h3, hs1, h2, upd_same]

theorem deepest_congr {fs gs : Id → F} (h : ∀ x, (gs x).resuming = (fs x).resuming) : ∀ n i,
    deepest gs n i = deepest fs n i := by
  intro n
  induction n with
  | zero => intro i; rfl
  | succ n ih =>
    intro i
    simp only [deepest, h]
    cases (fs i).resuming with
    | none => rfl
    | some j => exact ih j

theorem Links_deepest {fs : Id → F} : ∀ {l : List Id} {x : Id}, Links fs (x :: l) →
    ∀ m, l.length ≤ m → deepest fs m 0 = deepest fs (m - l.length) x := by
  intro l
  induction l with
  | nil => intro x h m _; simp [h.1]
  | cons y t ih =>
    intro x h m hm
    simp only [List.length_cons] at hm ⊢
    rw [ih h.2.2.2.2 m (by omega)]
    have : m - t.length = (m - (t.length + 1)) + 1 := by omega
    rw [this]
    simp only [deepest, h.2.2.1]

/-- A fiber that was never started and is transferred to runs, and its end leads back to the fiber that
transferred to it, however deep that one was resumed. -/
theorem C154_transfer_back (n : Nat) (os : List (Op P)) (h : ∀ o ∈ os, noTransfer o) (f : Id) (p q : P)
    (hn : (specRun (specInit : A P) os).1.stack.length ≤ n)
    (hf : (specRun (specInit : A P) os).1.st f = .created) :
    let s := (run n init os).1
    let t := run n s [Op.transfer f p, .finish q]
    t.2 = [none, none] ∧ t.1.cur = s.cur ∧ t.1.got = some q ∧ (t.1.fs f).st = .terminated := by
  intro s
  generalize ha : (specRun (specInit : A P) os).1 = a at hn hf
  have hr : Rel s a := by rw [← ha]; exact (run_agrees n os rel_init h).2
  have hl := hr.links
  obtain ⟨t, hst⟩ : ∃ t, a.stack = s.cur :: t := by
    have := hr.head
    cases hs : a.stack with
    | nil => simp [hs] at this
    | cons x t => simp [hs] at this; exact ⟨t, by rw [this]⟩
  have hs1 : (s.fs f).st = .created := by rw [hr.st, hf]
  have h3 : f ∉ a.stack := by
    intro hm
    have := (hr.on f hm).1
    rw [hs1] at this
    cases this
  have hfc : f ≠ s.cur := by intro he; apply h3; rw [hst, he]; simp
  have hcf : s.cur ≠ f := fun he => hfc he.symm
  have hf0 : f ≠ 0 := by intro he; apply h3; rw [he]; exact Links_zero hl
  have off := hr.off f h3 (by rw [hs1]; simp)
  have hy : (s.fs f).yielding = false := by
    have := off.2.2.2
    rw [hs1] at this
    simpa using this
  have hcs := (hr.on s.cur (by rw [hst]; simp)).1
  have hd : deepest (upd s.fs f fun x => { x with transferred := true }) n 0 = s.cur := by
    rw [deepest_congr (fs := s.fs)]
    · rw [hst] at hl hn
      simp only [List.length_cons] at hn
      rw [Links_deepest hl n (by omega)]
      have : n - t.length = (n - t.length - 1) + 1 := by omega
      rw [this]
      simp [deepest, hr.curResuming]
    · intro x
      by_cases hx : x = f
      · subst hx; rw [upd_same]
      · rw [upd_ne _ _ hx]
  have e1 : step n s (.transfer f p) = .ok ⟨f, upd (upd (upd s.fs f fun x => { x with transferred := true })
      s.cur fun x => { x with waiting := some f }) f
        fun x => { x with st := .started, returnTo := some s.cur }, some p⟩ := by
    simp only [step, Fiber.transfer, off.2.1, hy, hs1, hfc, returnTarget, upd_same, off.1, hd]
    simp
  simp only [run, next, e1]
  have e2 : ∀ v : S P, v.cur = f → (v.fs f).returnTo = some s.cur → (v.fs s.cur).waiting = some f →
      (v.fs s.cur).st = .started → ∃ w, step n v (.finish q) = .ok w ∧ w.cur = s.cur ∧ w.got = some q ∧
        (w.fs f).st = .terminated := by
    intro v v1 v2 v3 v4
    refine ⟨{ cur := s.cur, got := some q,
              fs := upd (upd v.fs f fun x => { x with st := .terminated }) s.cur
                fun x => { x with resuming := none, waiting := none } }, ?_, rfl, rfl, ?_⟩
    · simp only [step, Fiber.finish, v1, hf0, if_false, v2, Option.some_or, arrive, upd_ne _ _ hcf, v3, v4,
        receive, upd_ne _ _ hfc, upd_same]
      simp
    · simp only; rw [upd_ne _ _ hfc, upd_same]
  obtain ⟨w, w1, w2, w3, w4⟩ := e2 ⟨f, upd (upd (upd s.fs f fun x => { x with transferred := true })
      s.cur fun x => { x with waiting := some f }) f
        fun x => { x with st := .started, returnTo := some s.cur }, some p⟩ rfl (by simp only; rw [upd_same])
    (by simp only; rw [upd_ne _ _ hcf, upd_same])
    (by simp only; rw [upd_ne _ _ hcf, upd_same, upd_ne _ _ hcf]; exact hcs)
  rw [w1]
  exact ⟨rfl, w2, w3, w4⟩

example : (run 3 init [Op.resume 1 "a", .resume 2 "b", .transfer 3 "c", .finish "d"]).1.cur = 2 := by
  decide +kernel

/-- With transfers a fiber can come to its end and be sent to a fiber that has ended: the one to return to
is fixed when the transfer happens.  (Ruby picks the root's innermost fiber when the fiber ends.)
The root resumes 1; 1 transfers to 2; 2 resumes 3; 3 transfers to 1; 1 ends; the root transfers to 3; 3 ends;
2 ends and is sent to 1. -/
theorem C154_return_fails : (run 10 init [Op.resume 1 (), .transfer 2 (), .resume 3 (), .transfer 1 (),
    .finish (), .transfer 3 (), .finish (), .finish ()]).2 =
    [none, none, none, none, none, none, none, some .crash] := by decide +kernel

/-- A fiber reached by `transfer` can resume the root, which has not yielded.  (Ruby: "attempt to resume a
transferring fiber".) -/
theorem C154_resume_root_fails : (run 10 init [Op.transfer 1 (), .resume 0 ()]).2 = [none, none] ∧
    (run 10 init [Op.transfer 1 (), .resume 0 ()]).1.cur = 0 := by decide +kernel

/-- A resumed fiber that was once transferred back to cannot be resumed after it yields.  (Ruby accepts: the
fiber is yielding.) -/
theorem C154_resume_after_transfer_fails : (run 10 init [Op.resume 1 (), .transfer 2 (), .transfer 1 (),
    .yield (), .resume 1 ()]).2 = [none, none, none, none, some .transferred] := by decide +kernel

end Verif.Fiber
