import Verif.Closure.Spec

/-!
# Moving frames to the heap: what it changes and what it keeps

`WF` is the invariant between operations.  Its heart is `zone`: while a block frame `i` runs whose
outer frame `o` is still in the stack, nothing above `i` refers to a stack frame between `o` and
`i`, or to `o` itself; so whatever moves `o` to the heap moves `i` with it.  `PW σ₀ σ` relates the
machine before an operation to the machine in the middle of it.
-/

namespace Verif.Closure

/-- The frame of control frame `i` is in the stack. -/
def Live (a : Act) (i : Nat) : Prop := a.lfp = .stk i ∧ a.cell.inv = false

/-- The call that control frame `i` belongs to. -/
def actEnv (σ : St) (i : Nat) : Nat := ((σ.acts[i]?).map (·.cell.env)).getD 0

/-- The call that a frame pointer belongs to. -/
def envOf (σ : St) : Ref → Nat
  | .stk i => actEnv σ i
  | .heap h => ((σ.heap[h]?).map (·.env)).getD 0

/-- The block that a handler found in control frame `i` stands for. -/
def absBlk (σ : St) (i : Nat) : Blk → Option (Nat × Nat)
  | .none => none
  | .word w => some (w / 65536, actEnv σ (i - w % 65536))
  | .clo fid r => some (fid, envOf σ r)

/-- `t` lies outside the part of the stack that block frame `i` with outer frame `o` shields. -/
def Good (t i o : Nat) : Prop := i ≤ t ∨ t < o

/-- Stack frame references held by control frame `k`. -/
inductive Edge (σ : St) : Nat → Nat → Prop where
  | outer {k t a} : σ.acts[k]? = some a → Live a k → a.cell.outer = some (.stk t) → Edge σ k t
  | blk {k w a} : σ.acts[k]? = some a → Live a k → a.cell.blk = .word w → Edge σ k (k - w % 65536)
  | cache {k t fid a} : σ.acts[k]? = some a → a.cache = some (fid, .stk t) → Edge σ k t

/-- The invariant between operations. -/
structure WF (σ : St) : Prop where
  ne : 0 < σ.acts.length
  act : ∀ (i : Nat) (a : Act), σ.acts[i]? = some a → Live a i ∨
    ∃ (h : Nat) (f : Frame), a.lfp = .heap h ∧ a.cell.inv = true ∧ σ.heap[h]? = some f ∧ f.env = a.cell.env
  envA : ∀ (i : Nat) (a : Act), σ.acts[i]? = some a → a.cell.env < σ.next
  envH : ∀ (h : Nat) (f : Frame), σ.heap[h]? = some f → f.env < σ.next
  inc : ∀ (i : Nat) (j : Nat) (a : Act) (b : Act), i < j → σ.acts[i]? = some a → σ.acts[j]? = some b → a.cell.env < b.cell.env
  hinj : ∀ (h : Nat) (h' : Nat) (f : Frame) (f' : Frame), σ.heap[h]? = some f → σ.heap[h']? = some f' → f.env = f'.env → h = h'
  disj : ∀ (i : Nat) (a : Act) (h : Nat) (f : Frame), σ.acts[i]? = some a → Live a i → σ.heap[h]? = some f → f.env ≠ a.cell.env
  louter : ∀ (i : Nat) (a : Act) (o : Nat), σ.acts[i]? = some a → Live a i → a.cell.outer = some (.stk o) →
    ∃ (b : Act), σ.acts[o]? = some b ∧ Live b o
  louterh : ∀ (i : Nat) (a : Act) (h : Nat), σ.acts[i]? = some a → Live a i → a.cell.outer = some (.heap h) →
    ∃ (f : Frame), σ.heap[h]? = some f ∧ f.env < a.cell.env
  lblk : ∀ (i : Nat) (a : Act) (w : Nat), σ.acts[i]? = some a → Live a i → a.cell.blk = .word w →
    1 ≤ w % 65536 ∧ w % 65536 ≤ i
  lclo : ∀ (i : Nat) (a : Act) (fid : Nat) (r : Ref), σ.acts[i]? = some a → Live a i → a.cell.blk = .clo fid r →
    ∃ (h : Nat) (f : Frame), r = .heap h ∧ σ.heap[h]? = some f
  edge : ∀ (k : Nat) (t : Nat), Edge σ k t → t < k
  zown : ∀ (i : Nat) (a : Act) (o : Nat), σ.acts[i]? = some a → Live a i → a.cell.outer = some (.stk o) →
    (∀ (w : Nat), a.cell.blk ≠ .word w) ∧ (∀ (fid : Nat) (t : Nat), a.cache ≠ some (fid, .stk t))
  zone : ∀ (i : Nat) (a : Act) (o : Nat), σ.acts[i]? = some a → Live a i → a.cell.outer = some (.stk o) →
    ∀ (k : Nat) (t : Nat), i < k → Edge σ k t → Good t i o
  cacheh : ∀ (k : Nat) (a : Act) (fid : Nat) (h : Nat), σ.acts[k]? = some a → a.cache = some (fid, .heap h) →
    ∃ (f : Frame), σ.heap[h]? = some f
  houter : ∀ (h : Nat) (f : Frame) (r : Ref), σ.heap[h]? = some f → f.outer = some r →
    ∃ (h' : Nat) (f' : Frame), r = .heap h' ∧ σ.heap[h']? = some f' ∧ f'.env < f.env
  hblk : ∀ (h : Nat) (f : Frame) (w : Nat), σ.heap[h]? = some f → f.blk ≠ .word w
  hclo : ∀ (h : Nat) (f : Frame) (fid : Nat) (r : Ref), σ.heap[h]? = some f → f.blk = .clo fid r →
    ∃ (h' : Nat) (f' : Frame), r = .heap h' ∧ σ.heap[h']? = some f'
  hand : ∀ (fid : Nat) (r : Ref), (fid, r) ∈ σ.hand → ∃ (h : Nat) (f : Frame), r = .heap h ∧ σ.heap[h]? = some f
  binds : ∀ (r : Ref), r ∈ σ.binds → ∃ (h : Nat) (f : Frame), r = .heap h ∧ σ.heap[h]? = some f

/-- `f` is the heap copy of stack frame `c` of control frame `i`. -/
structure Copy (σ : St) (i : Nat) (c f : Frame) : Prop where
  slots : f.slots = c.slots
  env : f.env = c.env
  outer : f.outer.map (envOf σ) = c.outer.map (envOf σ)
  outerv : ∀ (h : Nat), f.outer = some (.heap h) → ∃ (g : Frame), σ.heap[h]? = some g
  outers : ∀ (t : Nat), f.outer = some (.stk t) → c.outer = some (.stk t)
  blk : absBlk σ i f.blk = absBlk σ i c.blk
  blkc : f.blk = c.blk ∨ ∃ (fid : Nat) (h : Nat) (g : Frame), f.blk = .clo fid (.heap h) ∧ σ.heap[h]? = some g

/-- Control frame `a₀` after its frame went to heap frame `h`. -/
def Act.moved (a₀ : Act) (h : Nat) : Act :=
  { a₀ with lfp := .heap h, cell := { a₀.cell with inv := true } }

/-- The machine `σ` in the middle of an operation that started in `σ₀`: some frames have moved. -/
structure PW (σ₀ σ : St) : Prop where
  len : σ.acts.length = σ₀.acts.length
  hand : σ.hand = σ₀.hand
  binds : σ.binds = σ₀.binds
  next : σ.next = σ₀.next
  old : ∀ (h : Nat) (f : Frame), σ₀.heap[h]? = some f → σ.heap[h]? = some f
  act : ∀ (i : Nat) (a₀ : Act), σ₀.acts[i]? = some a₀ → σ.acts[i]? = some a₀ ∨
    (Live a₀ i ∧ ∃ (h : Nat) (f : Frame), σ₀.heap.length ≤ h ∧ σ.acts[i]? = some (a₀.moved h) ∧
      σ.heap[h]? = some f ∧ Copy σ i a₀.cell f)
  new : ∀ (h : Nat) (f : Frame), σ₀.heap.length ≤ h → σ.heap[h]? = some f →
    ∃ (i : Nat) (a : Act), σ.acts[i]? = some a ∧ a.lfp = .heap h
  zone : ∀ (i : Nat) (a : Act) (o : Nat), σ.acts[i]? = some a → Live a i → a.cell.outer = some (.stk o) →
    ∀ (k : Nat) (a₀ : Act), σ₀.acts[k]? = some a₀ → Live a₀ k → σ.acts[k]? ≠ some a₀ → Good k i o

theorem not_live_moved (a : Act) (h i : Nat) : ¬ Live (a.moved h) i := by
  intro hl; cases hl.1

theorem PW.refl {σ : St} (w : WF σ) : PW σ σ where
  len := rfl
  hand := rfl
  binds := rfl
  next := rfl
  old := fun _ _ h => h
  act := fun _ _ h => .inl h
  new := fun h f hh hf => by
    have := List.getElem?_eq_some_iff.mp hf
    obtain ⟨hl, _⟩ := this
    omega
  zone := fun _ _ _ _ _ _ _ _ h0 _ hn => absurd h0 hn

theorem getElem?_lt {α : Type} {l : List α} {i : Nat} {a : α} (h : l[i]? = some a) :
    i < l.length := (List.getElem?_eq_some_iff.mp h).1

theorem exists_getElem? {α : Type} {l : List α} {i : Nat} (h : i < l.length) :
    ∃ a, l[i]? = some a := ⟨l[i], List.getElem?_eq_getElem h⟩

theorem PW.hlen {σ₀ σ : St} (p : PW σ₀ σ) : σ₀.heap.length ≤ σ.heap.length := by
  rcases Nat.eq_zero_or_pos σ₀.heap.length with h | h
  · omega
  · obtain ⟨f, hf⟩ := exists_getElem? (show σ₀.heap.length - 1 < σ₀.heap.length by omega)
    have := getElem?_lt (p.old _ _ hf)
    omega

/-- A control frame that is still in the stack has not changed. -/
theorem PW.live {σ₀ σ : St} (p : PW σ₀ σ) {i : Nat} {a : Act} (h : σ.acts[i]? = some a)
    (hl : Live a i) : σ₀.acts[i]? = some a := by
  have hlt : i < σ₀.acts.length := by rw [← p.len]; exact getElem?_lt h
  obtain ⟨a0, h0⟩ := exists_getElem? hlt
  rcases p.act i a0 h0 with h1 | ⟨_, hh, f, _, h1, _⟩
  · rw [h] at h1; cases h1; exact h0
  · rw [h] at h1; cases h1; exact absurd hl (not_live_moved _ _ _)

theorem PW.actEnv {σ₀ σ : St} (p : PW σ₀ σ) (i : Nat) : actEnv σ i = Verif.Closure.actEnv σ₀ i := by
  unfold Verif.Closure.actEnv
  rcases Nat.lt_or_ge i σ₀.acts.length with hlt | hge
  · obtain ⟨a0, h0⟩ := exists_getElem? hlt
    rcases p.act i a0 h0 with h1 | ⟨_, hh, f, _, h1, _⟩
    · rw [h0, h1]
    · rw [h0, h1]; rfl
  · rw [List.getElem?_eq_none hge, List.getElem?_eq_none (by rw [p.len]; exact hge)]

/-- What later steps of the same operation keep of the heap. -/
structure Ext (σ σ' : St) : Prop where
  heap : ∀ (h : Nat) (f : Frame), σ.heap[h]? = some f → ∃ (f' : Frame), σ'.heap[h]? = some f' ∧ f'.env = f.env ∧
    f'.outer = f.outer
  env : ∀ (i : Nat), actEnv σ' i = actEnv σ i

theorem Ext.refl (σ : St) : Ext σ σ := ⟨fun _ f h => ⟨f, h, rfl, rfl⟩, fun _ => rfl⟩

theorem Ext.trans {a b c : St} (x : Ext a b) (y : Ext b c) : Ext a c where
  heap := fun h f hf => by
    obtain ⟨f1, h1, e1, o1⟩ := x.heap h f hf
    obtain ⟨f2, h2, e2, o2⟩ := y.heap h f1 h1
    exact ⟨f2, h2, e2.trans e1, o2.trans o1⟩
  env := fun i => (y.env i).trans (x.env i)

/-- A pointer that is not dangling. -/
def Valid (σ : St) : Ref → Prop
  | .stk _ => True
  | .heap h => ∃ f, σ.heap[h]? = some f

theorem Ext.envOf {σ σ' : St} (x : Ext σ σ') {r : Ref} (v : Valid σ r) :
    envOf σ' r = Verif.Closure.envOf σ r := by
  cases r with
  | stk i => exact x.env i
  | heap h =>
    obtain ⟨f, hf⟩ := v
    obtain ⟨f', hf', e, _⟩ := x.heap h f hf
    simp only [Verif.Closure.envOf, hf, hf', Option.map_some, Option.getD_some, e]

theorem Ext.valid {σ σ' : St} (x : Ext σ σ') {r : Ref} (v : Valid σ r) : Valid σ' r := by
  cases r with
  | stk i => trivial
  | heap h =>
    obtain ⟨f, hf⟩ := v
    obtain ⟨f', hf', _⟩ := x.heap h f hf
    exact ⟨f', hf'⟩

theorem Ext.absBlk {σ σ' : St} (x : Ext σ σ') {b : Blk} {i : Nat}
    (v : ∀ fid r, b = .clo fid r → Valid σ r) :
    absBlk σ' i b = Verif.Closure.absBlk σ i b := by
  cases b with
  | none => rfl
  | word w => simp only [Verif.Closure.absBlk, x.env]
  | clo fid r => simp only [Verif.Closure.absBlk, x.envOf (v fid r rfl)]

theorem PW.ext {σ₀ σ : St} (p : PW σ₀ σ) : Ext σ₀ σ :=
  ⟨fun h f hf => ⟨f, p.old h f hf, rfl, rfl⟩, p.actEnv⟩

/-- The frame of a control frame is a sound source of a copy. -/
theorem WF.valid_outer {σ : St} (w : WF σ) {i : Nat} {a : Act} (h : σ.acts[i]? = some a)
    (hl : Live a i) {r : Ref} (ho : a.cell.outer = some r) : Valid σ r := by
  cases r with
  | stk t => trivial
  | heap k =>
    obtain ⟨f, hf, _⟩ := w.louterh i a k h hl ho
    exact ⟨f, hf⟩

theorem WF.valid_blk {σ : St} (w : WF σ) {i : Nat} {a : Act} (h : σ.acts[i]? = some a)
    (hl : Live a i) : ∀ fid r, a.cell.blk = .clo fid r → Valid σ r := by
  intro fid r hb
  obtain ⟨k, f, rfl, hf⟩ := w.lclo i a fid r h hl hb
  exact ⟨f, hf⟩

theorem Copy.ext {σ σ' : St} (x : Ext σ σ') {i : Nat} {c f : Frame}
    (vo : ∀ r, c.outer = some r → Valid σ r) (vb : ∀ fid r, c.blk = .clo fid r → Valid σ r)
    (k : Copy σ i c f) : Copy σ' i c f where
  slots := k.slots
  env := k.env
  outer := by
    have h1 : f.outer.map (envOf σ') = f.outer.map (envOf σ) := by
      cases ho : f.outer with
      | none => rfl
      | some r =>
        have : Valid σ r := by
          cases r with
          | stk t => trivial
          | heap h => exact k.outerv h ho
        simp only [Option.map_some, x.envOf this]
    have h2 : c.outer.map (envOf σ') = c.outer.map (envOf σ) := by
      cases ho : c.outer with
      | none => rfl
      | some r => simp only [Option.map_some, x.envOf (vo r ho)]
    rw [h1, h2, k.outer]
  outerv := fun h ho => by
    obtain ⟨g, hg⟩ := k.outerv h ho
    obtain ⟨g', hg', _⟩ := x.heap h g hg
    exact ⟨g', hg'⟩
  outers := k.outers
  blk := by
    have vf : ∀ fid r, f.blk = .clo fid r → Valid σ r := by
      intro fid r hb
      rcases k.blkc with h | ⟨fid', h, g, h1, h2⟩
      · exact vb fid r (h ▸ hb)
      · rw [h1] at hb; cases hb; exact ⟨g, h2⟩
    rw [x.absBlk vf, x.absBlk vb, k.blk]
  blkc := by
    rcases k.blkc with h | ⟨fid', h, g, h1, h2⟩
    · exact .inl h
    · obtain ⟨g', hg', _⟩ := x.heap h g h2
      exact .inr ⟨fid', h, g', h1, hg'⟩

/-! ## Single steps -/

theorem modify_get {α : Type} (l : List α) (i j : Nat) (f : α → α) :
    (l.modify i f)[j]? = if i = j then (l[j]?).map f else l[j]? := by
  rw [List.getElem?_modify]
  split <;> simp [*]

theorem append_get {α : Type} (l : List α) (x : α) (j : Nat) (y : α) :
    (l ++ [x])[j]? = some y ↔ l[j]? = some y ∨ (j = l.length ∧ x = y) := by
  rcases Nat.lt_trichotomy j l.length with h | h | h
  · rw [List.getElem?_append_left h]
    constructor
    · exact .inl
    · rintro (h1 | ⟨h1, _⟩)
      · exact h1
      · omega
  · subst h
    simp [List.getElem?_append_right]
  · rw [List.getElem?_eq_none (by simp; omega)]
    constructor
    · intro h1; cases h1
    · rintro (h1 | ⟨h1, _⟩)
      · have := getElem?_lt h1; omega
      · omega

theorem promote_ext {σ : St} {i : Nat} {a : Act} (ha : σ.acts[i]? = some a) :
    Ext σ (σ.promote i a.cell) where
  heap := fun h f hf => ⟨f, by
    show (σ.heap ++ [a.cell])[h]? = some f
    exact (append_get _ _ _ _).mpr (.inl hf), rfl, rfl⟩
  env := fun j => by
    unfold actEnv
    show ((List.modify σ.acts i _)[j]?.map _).getD 0 = _
    rw [modify_get]
    split
    · next h => subst h; rw [ha]; rfl
    · rfl

theorem promote_act {σ : St} {i : Nat} {a : Act} (j : Nat) (ha : σ.acts[i]? = some a) :
    (σ.promote i a.cell).acts[j]? = if i = j then some (a.moved σ.heap.length) else σ.acts[j]? := by
  show (List.modify σ.acts i _)[j]? = _
  rw [modify_get]
  split
  · next h => subst h; rw [ha]; rfl
  · rfl

theorem PW.promote {σ₀ σ : St} (w : WF σ₀) (p : PW σ₀ σ) {i : Nat} {a : Act}
    (ha : σ.acts[i]? = some a) (hl : Live a i)
    (hg : ∀ i' a' o, σ.acts[i']? = some a' → Live a' i' → a'.cell.outer = some (.stk o) →
      Good i i' o) : PW σ₀ (σ.promote i a.cell) where
  len := by
    show (List.modify σ.acts i _).length = _
    rw [List.length_modify]; exact p.len
  hand := p.hand
  binds := p.binds
  next := p.next
  old := fun h f hf => (append_get _ _ _ _).mpr (.inl (p.old h f hf))
  act := by
    intro j b0 hb0
    have x := promote_ext (σ := σ) ha
    rw [promote_act j ha]
    split
    · next h =>
      subst h
      have h0 := p.live ha hl
      rw [hb0] at h0; cases h0
      refine .inr ⟨hl, σ.heap.length, a.cell, p.hlen, rfl, ?_, ?_⟩
      · exact (append_get _ _ _ _).mpr (.inr ⟨rfl, rfl⟩)
      · refine ⟨rfl, rfl, rfl, ?_, fun _ h => h, rfl, .inl rfl⟩
        intro h ho
        obtain ⟨f, hf, _⟩ := w.louterh _ _ h hb0 hl ho
        exact ⟨f, (append_get _ _ _ _).mpr (.inl (p.old h f hf))⟩
    · rcases p.act j b0 hb0 with h1 | ⟨hl0, h, f, hh, h1, h2, hc⟩
      · exact .inl h1
      · refine .inr ⟨hl0, h, f, hh, h1, (append_get _ _ _ _).mpr (.inl h2), ?_⟩
        refine hc.ext x ?_ ?_
        · intro r ho; exact p.ext.valid (w.valid_outer hb0 hl0 ho)
        · intro fid r hb; exact p.ext.valid (w.valid_blk hb0 hl0 fid r hb)
  new := by
    intro h f hh hf
    rcases (append_get _ _ _ _).mp hf with h1 | ⟨h1, _⟩
    · obtain ⟨j, b, hb, hr⟩ := p.new h f hh h1
      refine ⟨j, b, ?_, hr⟩
      rw [promote_act j ha]
      split
      · next h => subst h; rw [ha] at hb; cases hb; rw [hl.1] at hr; cases hr
      · exact hb
    · exact ⟨i, a.moved σ.heap.length, by rw [promote_act i ha]; simp, by rw [h1]; rfl⟩
  zone := by
    intro i' a' o ha' hl' ho k b0 hb0 hlb hn
    rw [promote_act i' ha] at ha'
    split at ha'
    · cases ha'; exact absurd hl' (not_live_moved _ _ _)
    · rw [promote_act k ha] at hn
      split at hn
      · next h => subst h; exact hg i' a' o ha' hl' ho
      · exact p.zone i' a' o ha' hl' ho k b0 hb0 hlb hn

/-- Two control frames do not share a frame in the heap. -/
theorem WF.owner_inj {σ₀ : St} (w : WF σ₀) {i j : Nat} {a b : Act} {f : Frame}
    (ha : σ₀.acts[i]? = some a) (hb : σ₀.acts[j]? = some b)
    (ea : f.env = a.cell.env) (eb : f.env = b.cell.env) : i = j := by
  rcases Nat.lt_trichotomy i j with h | h | h
  · have := w.inc i j a b h ha hb; omega
  · exact h
  · have := w.inc j i b a h hb ha; omega

/-- Changing outer pointer or block of the heap copy of control frame `c`, to something that means
the same. -/
theorem PW.upd {σ₀ σ : St} (w : WF σ₀) (p : PW σ₀ σ) {c h : Nat} {a₀ : Act} {f : Frame}
    (g : Frame → Frame) (hc0 : σ₀.acts[c]? = some a₀) (hlc : Live a₀ c)
    (hh : σ₀.heap.length ≤ h) (hf : σ.heap[h]? = some f) (hk : Copy σ c a₀.cell f)
    (he : (g f).env = f.env)
    (hk2 : Copy σ c a₀.cell (g f)) :
    PW σ₀ { σ with heap := σ.heap.modify h g } := by
  have hget : ∀ k, ({ σ with heap := σ.heap.modify h g } : St).heap[k]? =
      if h = k then (σ.heap[k]?).map g else σ.heap[k]? := fun k => modify_get _ _ _ _
  have hval : ∀ (k : Nat) (q : Frame), σ.heap[k]? = some q →
      ∃ q', ({ σ with heap := σ.heap.modify h g } : St).heap[k]? = some q' := by
    intro k q hq
    rw [hget, hq]
    split
    · exact ⟨_, rfl⟩
    · exact ⟨_, rfl⟩
  have hen : ∀ r, envOf ({ σ with heap := σ.heap.modify h g } : St) r = envOf σ r := by
    intro r
    cases r with
    | stk i => rfl
    | heap k =>
      unfold envOf
      simp only [hget]
      split
      · next e => subst e; rw [hf]; simp [he]
      · rfl
  have hab : ∀ i b, absBlk ({ σ with heap := σ.heap.modify h g } : St) i b = absBlk σ i b := by
    intro i b
    cases b with
    | none => rfl
    | word w => rfl
    | clo fid r => simp only [absBlk, hen]
  have hcp : ∀ i c' f', Copy σ i c' f' →
      Copy ({ σ with heap := σ.heap.modify h g } : St) i c' f' := by
    intro i c' f' k
    refine ⟨k.slots, k.env, ?_, ?_, k.outers, ?_, ?_⟩
    · have : envOf ({ σ with heap := σ.heap.modify h g } : St) = envOf σ := funext hen
      rw [this]; exact k.outer
    · intro h' ho
      obtain ⟨q, hq⟩ := k.outerv h' ho
      obtain ⟨q', hq'⟩ := hval h' q hq
      exact ⟨q', hq'⟩
    · rw [hab, hab]; exact k.blk
    · rcases k.blkc with e | ⟨fid, h', q, e, hq⟩
      · exact .inl e
      · obtain ⟨q', hq'⟩ := hval h' q hq
        exact .inr ⟨fid, h', q', e, hq'⟩
  refine ⟨p.len, p.hand, p.binds, p.next, ?_, ?_, ?_, p.zone⟩
  · intro k q hq
    rw [hget]
    have := getElem?_lt hq
    rw [if_neg (by omega)]
    exact p.old k q hq
  · intro i b0 hb0
    rcases p.act i b0 hb0 with h1 | ⟨hl0, h', f', hh', h1, h2, hc⟩
    · exact .inl h1
    · rcases Decidable.em (h = h') with e | e
      · subst e
        rw [hf] at h2; cases h2
        have : i = c := w.owner_inj hb0 hc0 hc.env hk.env
        subst this
        rw [hb0] at hc0; cases hc0
        refine .inr ⟨hl0, h, g f, hh', h1, ?_, hcp _ _ _ hk2⟩
        rw [hget, if_pos rfl, hf]; rfl
      · refine .inr ⟨hl0, h', f', hh', h1, ?_, hcp _ _ _ hc⟩
        rw [hget, if_neg e]; exact h2
  · intro k q hk1 hq
    rw [hget] at hq
    split at hq
    · next e =>
      subst e
      exact p.new h f hh hf
    · exact p.new k q hk1 hq

end Verif.Closure
