import Verif.Symbol.Model

/-!
# What holds of every table a history can produce
-/

namespace Verif.Symbol

instance : LawfulBEq ByteArray where
  eq_of_beq {a b} h := by
    obtain ⟨x⟩ := a
    obtain ⟨y⟩ := b
    have h' : (x == y) = true := h
    rw [eq_of_beq h']
  rfl {a} := by
    obtain ⟨x⟩ := a
    exact (beq_self_eq_true x : (x == x) = true)

/-- the five ids `new` leaves without a name -/
def Phantom (i : Nat) : Prop := 96 ≤ i ∧ i ≤ 100

instance (i : Nat) : Decidable (Phantom i) := inferInstanceAs (Decidable (_ ∧ _))

/-- The maps and the table agree. -/
structure Inv (t : Table) : Prop where
  len : 100 ≤ t.table.length
  small : t.table.length < 2 ^ 32
  rev : ∀ s i, t.rev.lookup s = some i →
    1 ≤ i ∧ i ≤ t.table.length ∧ t.name i = some (.utf8 s) ∧ ¬ Phantom i
  bytes : ∀ b e i, t.revBytes.lookup (b, e) = some i →
    1 ≤ i ∧ i ≤ t.table.length ∧ t.name i = some (.bytes b) ∧ t.encoding i = some e
  enc : ∀ i e, t.encoding i = some e →
    1 ≤ i ∧ i ≤ t.table.length ∧ ∃ b, t.name i = some (.bytes b)
  text : ∀ i s, 1 ≤ i → t.name i = some (.utf8 s) → ¬ Phantom i → t.rev.lookup s = some i
  bin : ∀ i b, 1 ≤ i → t.name i = some (.bytes b) →
    ∃ e, t.encoding i = some e ∧ t.revBytes.lookup (b, e) = some i
  phantom : ∀ i, Phantom i → t.name i = some (.utf8 "")

/-- `u` has everything `t` has. -/
structure Ext (t u : Table) : Prop where
  len : t.table.length ≤ u.table.length
  rev : ∀ s i, t.rev.lookup s = some i → u.rev.lookup s = some i
  bytes : ∀ k i, t.revBytes.lookup k = some i → u.revBytes.lookup k = some i
  name : ∀ i n, t.name i = some n → u.name i = some n
  enc : ∀ i, i ≤ t.table.length → u.encoding i = t.encoding i

theorem Ext.refl (t : Table) : Ext t t :=
  ⟨Nat.le_refl _, fun _ _ h => h, fun _ _ h => h, fun _ _ h => h, fun _ _ => rfl⟩

theorem Ext.trans {t u v : Table} (h : Ext t u) (k : Ext u v) : Ext t v :=
  ⟨Nat.le_trans h.len k.len, fun s i x => k.rev s i (h.rev s i x),
    fun s i x => k.bytes s i (h.bytes s i x), fun i n x => k.name i n (h.name i n x),
    fun i x => (k.enc i (Nat.le_trans x h.len)).trans (h.enc i x)⟩

theorem name_le {t : Table} {i : Nat} {n : Name} (h1 : 1 ≤ i) (h : t.name i = some n) :
    i ≤ t.table.length := by
  have := (List.getElem?_eq_some_iff.mp h).1
  omega

theorem mem_of_lookup {α β : Type} [BEq α] [LawfulBEq α] {l : List (α × β)} {a : α} {b : β}
    (h : l.lookup a = some b) : (a, b) ∈ l := by
  induction l with
  | nil => simp at h
  | cons p l ih =>
    obtain ⟨x, y⟩ := p
    rw [List.lookup_cons] at h
    by_cases hx : a == x
    · simp only [hx] at h
      simp only [Option.some.injEq] at h
      rw [eq_of_beq hx, h]
      exact List.mem_cons_self
    · simp only [hx] at h
      exact List.mem_cons_of_mem _ (ih h)

theorem new_len : Table.new.table.length = 100 := by decide +kernel

theorem new_rev : ∀ p ∈ Table.new.rev, 1 ≤ p.2 ∧ p.2 ≤ 95 ∧
    Table.new.table[p.2 - 1]? = some (.utf8 p.1) := by decide +kernel

theorem new_text : ∀ i < 95, ∃ s, Table.new.table[i]? = some (.utf8 s) ∧
    Table.new.rev.lookup s = some (i + 1) := by
  have h : ∀ i < 95, ∃ p ∈ Table.new.rev, Table.new.table[i]? = some (.utf8 p.1) ∧
      Table.new.rev.lookup p.1 = some (i + 1) := by decide +kernel
  intro i hi
  obtain ⟨p, _, h1, h2⟩ := h i hi
  exact ⟨p.1, h1, h2⟩

theorem new_phantom : ∀ i < 100, 95 ≤ i → Table.new.table[i]? = some (.utf8 "") := by
  decide +kernel

theorem new_encMap : Table.new.encMap = [] := by decide +kernel
theorem new_revBytes : Table.new.revBytes = [] := by decide +kernel

theorem new_inv : Inv Table.new := by
  refine ⟨by rw [new_len]; omega, by rw [new_len]; omega, ?_, ?_, ?_, ?_, ?_, ?_⟩
  · intro s i h
    obtain ⟨h1, h2, h3⟩ := new_rev _ (mem_of_lookup h)
    exact ⟨h1, by rw [new_len]; omega, h3, by unfold Phantom; omega⟩
  · intro b e i h
    rw [new_revBytes] at h; simp at h
  · intro i e h
    unfold Table.encoding at h
    rw [new_encMap] at h; simp at h
  · intro i s h1 h hp
    have hl := name_le h1 h
    rw [new_len] at hl
    by_cases hi : i ≤ 95
    · obtain ⟨s', e1, e2⟩ := new_text (i - 1) (by omega)
      unfold Table.name at h
      rw [e1] at h
      simp only [Option.some.injEq, Name.utf8.injEq] at h
      rw [← h, e2]
      congr 1; omega
    · exact absurd ⟨by omega, hl⟩ hp
  · intro i b h1 h
    have hl := name_le h1 h
    rw [new_len] at hl
    unfold Table.name at h
    by_cases hi : i ≤ 95
    · obtain ⟨s', e1, e2⟩ := new_text (i - 1) (by omega)
      rw [e1] at h; simp at h
    · rw [new_phantom (i - 1) (by omega) (by omega)] at h
      simp at h
  · intro i h
    obtain ⟨h1, h2⟩ := h
    exact new_phantom (i - 1) (by omega) (by omega)

theorem freshId_spec {t : Table} {i : Nat} (hi : Inv t) (h : t.freshId = some i) :
    i = t.table.length + 1 ∧ t.table.length + 1 < 2 ^ 32 := by
  have := hi.small
  unfold Table.freshId at h
  rw [Nat.mod_eq_of_lt this] at h
  dsimp only at h
  split at h
  · rename_i hl
    simp only [Option.some.injEq] at h
    exact ⟨h.symm, hl⟩
  · exact absurd h (by simp)

theorem freshId_eq {t : Table} (h : t.table.length + 1 < 2 ^ 32) :
    t.freshId = some (t.table.length + 1) := by
  unfold Table.freshId
  rw [Nat.mod_eq_of_lt (by omega)]
  simp [h]

theorem name_append_lt {t : Table} {l : List Name} {i : Nat} {n : Name}
    (h : t.name i = some n) : (t.table ++ l)[i - 1]? = some n := by
  have := (List.getElem?_eq_some_iff.mp h).1
  rw [List.getElem?_append_left this]; exact h

/-- the table after a new text name -/
def addText (t : Table) (s : String) : Table :=
  { t with rev := (s, t.table.length + 1) :: t.rev, table := t.table ++ [.utf8 s] }

/-- the table after a new binary name -/
def addBin (t : Table) (b : ByteArray) (e : Enc) : Table :=
  { t with revBytes := ((b, e), t.table.length + 1) :: t.revBytes, table := t.table ++ [.bytes b],
           encMap := (t.table.length + 1, e) :: t.encMap }

theorem getElem?_snoc {l : List Name} {x : Name} {i : Nat} {n : Name}
    (h : (l ++ [x])[i]? = some n) : l[i]? = some n ∨ (i = l.length ∧ n = x) := by
  by_cases hi : i < l.length
  · rw [List.getElem?_append_left hi] at h; exact .inl h
  · rw [List.getElem?_append_right (by omega)] at h
    obtain ⟨h1, h2⟩ := List.getElem?_eq_some_iff.mp h
    simp only [List.length_cons, List.length_nil] at h1
    have : i = l.length := by omega
    subst this
    exact .inr ⟨rfl, by simpa using h2.symm⟩

theorem enc_fresh {t : Table} (hi : Inv t) : t.encoding (t.table.length + 1) = none := by
  cases h : t.encoding (t.table.length + 1) with
  | none => rfl
  | some e => have := (hi.enc _ _ h).2.1; omega

theorem addText_inv {t : Table} {s : String} (hi : Inv t)
    (hf : t.table.length + 1 < 2 ^ 32) (hs : t.rev.lookup s = none) :
    Inv (addText t s) ∧ Ext t (addText t s) := by
  have hl := hi.len
  refine ⟨⟨?_, ?_, ?_, ?_, ?_, ?_, ?_, ?_⟩, ⟨?_, ?_, ?_, ?_, ?_⟩⟩
  · simp [addText]; omega
  · simp [addText]; omega
  · intro u i h
    simp only [addText, List.lookup_cons] at h
    by_cases hu : u == s
    · simp only [hu, Option.some.injEq] at h
      subst h
      rw [eq_of_beq hu]
      refine ⟨by omega, by simp [addText], ?_, by unfold Phantom; omega⟩
      simp [addText, Table.name]
    · simp only [hu] at h
      obtain ⟨a, b, c, d⟩ := hi.rev u i h
      refine ⟨a, ?_, name_append_lt c, d⟩
      simp [addText]; omega
  · intro b e i h
    obtain ⟨p, q, r, d⟩ := hi.bytes b e i h
    refine ⟨p, ?_, name_append_lt r, d⟩
    simp [addText]; omega
  · intro i e h
    obtain ⟨p, q, b, r⟩ := hi.enc i e h
    refine ⟨p, ?_, b, name_append_lt r⟩
    simp [addText]; omega
  · intro i u h1 h hp
    simp only [addText, List.lookup_cons]
    rcases getElem?_snoc h with h' | ⟨h', h''⟩
    · have hr := hi.text i u h1 h' hp
      have : (u == s) = false := by
        apply Bool.eq_false_iff.mpr
        intro hc
        rw [eq_of_beq hc, hs] at hr
        exact absurd hr (by simp)
      simp only [this]
      exact hr
    · simp only [Name.utf8.injEq] at h''
      subst h''
      simp only [beq_self_eq_true, Option.some.injEq]
      omega
  · intro i b h1 h
    rcases getElem?_snoc h with h' | ⟨_, h''⟩
    · exact hi.bin i b h1 h'
    · exact absurd h'' (by simp)
  · intro i hp
    exact name_append_lt (hi.phantom i hp)
  · simp [addText]
  · intro u i h
    simp only [addText, List.lookup_cons]
    have : (u == s) = false := by
      apply Bool.eq_false_iff.mpr
      intro hc
      rw [eq_of_beq hc, hs] at h
      exact absurd h (by simp)
    simp only [this]
    exact h
  · intro k i h; exact h
  · intro i n h; exact name_append_lt h
  · intro i _; rfl

theorem addBin_inv {t : Table} {b : ByteArray} {e : Enc} (hi : Inv t)
    (hf : t.table.length + 1 < 2 ^ 32)
    (hs : t.revBytes.lookup (b, e) = none) : Inv (addBin t b e) ∧ Ext t (addBin t b e) := by
  have hl := hi.len
  have henc : ∀ i, i ≤ t.table.length → (addBin t b e).encoding i = t.encoding i := by
    intro i h
    have : (i == t.table.length + 1) = false := by
      apply Bool.eq_false_iff.mpr
      intro hc
      have := eq_of_beq hc
      omega
    simp only [Table.encoding, addBin, List.lookup_cons, this]
  refine ⟨⟨?_, ?_, ?_, ?_, ?_, ?_, ?_, ?_⟩, ⟨?_, ?_, ?_, ?_, henc⟩⟩
  · simp [addBin]; omega
  · simp [addBin]; omega
  · intro u i h
    obtain ⟨p, q, r, d⟩ := hi.rev u i h
    refine ⟨p, ?_, name_append_lt r, d⟩
    simp [addBin]; omega
  · intro b' e' i h
    simp only [addBin, List.lookup_cons] at h
    by_cases hu : (b', e') == (b, e)
    · simp only [hu, Option.some.injEq] at h
      subst h
      have := eq_of_beq hu
      simp only [Prod.mk.injEq] at this
      rw [this.1, this.2]
      refine ⟨by omega, by simp [addBin], ?_, ?_⟩
      · simp [addBin, Table.name]
      · simp [addBin, Table.encoding]
    · simp only [hu] at h
      obtain ⟨p, q, r, d⟩ := hi.bytes b' e' i h
      refine ⟨p, ?_, name_append_lt r, ?_⟩
      · simp [addBin]; omega
      · rw [henc i q]; exact d
  · intro i e' h
    by_cases hx : i = t.table.length + 1
    · subst hx
      refine ⟨by omega, by simp [addBin], b, ?_⟩
      simp [addBin, Table.name]
    · have : (i == t.table.length + 1) = false := by simpa using hx
      simp only [Table.encoding, addBin, List.lookup_cons, this] at h
      obtain ⟨p, q, b', r⟩ := hi.enc i e' h
      refine ⟨p, ?_, b', name_append_lt r⟩
      simp [addBin]; omega
  · intro i u h1 h hp
    rcases getElem?_snoc h with h' | ⟨_, h''⟩
    · exact hi.text i u h1 h' hp
    · exact absurd h'' (by simp)
  · intro i b' h1 h
    rcases getElem?_snoc h with h' | ⟨h', h''⟩
    · obtain ⟨e', p, q⟩ := hi.bin i b' h1 h'
      refine ⟨e', ?_, ?_⟩
      · rw [henc i (name_le h1 h')]; exact p
      · simp only [addBin, List.lookup_cons]
        have : ((b', e') == (b, e)) = false := by
          apply Bool.eq_false_iff.mpr
          intro hc
          rw [eq_of_beq hc, hs] at q
          exact absurd q (by simp)
        simp only [this]
        exact q
    · simp only [Name.bytes.injEq] at h''
      subst h''
      have hx : i = t.table.length + 1 := by omega
      subst hx
      exact ⟨e, by simp [addBin, Table.encoding], by simp [addBin]⟩
  · intro i hp
    exact name_append_lt (hi.phantom i hp)
  · simp [addBin]
  · intro u i h; exact h
  · intro k i h
    simp only [addBin, List.lookup_cons]
    have : (k == (b, e)) = false := by
      apply Bool.eq_false_iff.mpr
      intro hc
      rw [eq_of_beq hc, hs] at h
      exact absurd h (by simp)
    simp only [this]
    exact h
  · intro i n h; exact name_append_lt h

/-- where a key is looked up -/
def find (t : Table) : Key → Option Nat
  | .text s => t.rev.lookup s
  | .bin b e => t.revBytes.lookup (b, e)

theorem Ext.find {t u : Table} (h : Ext t u) {k : Key} {i : Nat}
    (hk : Symbol.find t k = some i) : Symbol.find u k = some i := by
  cases k with
  | text s => exact h.rev s i hk
  | bin b e => exact h.bytes _ i hk

theorem find_inj {t : Table} (hi : Inv t) {k k' : Key} {i : Nat}
    (h : find t k = some i) (h' : find t k' = some i) : k = k' := by
  cases k with
  | text s =>
    have e := (hi.rev s i h).2.2.1
    cases k' with
    | text s' =>
      have e' := (hi.rev s' i h').2.2.1
      rw [e] at e'; simpa using e'
    | bin b' c' =>
      have e' := (hi.bytes b' c' i h').2.2.1
      rw [e] at e'; simp at e'
  | bin b c =>
    obtain ⟨_, _, e, f⟩ := hi.bytes b c i h
    cases k' with
    | text s' =>
      have e' := (hi.rev s' i h').2.2.1
      rw [e] at e'; simp at e'
    | bin b' c' =>
      obtain ⟨_, _, e', f'⟩ := hi.bytes b' c' i h'
      rw [e] at e'; rw [f] at f'
      simp only [Option.some.injEq, Name.bytes.injEq] at e' f'
      rw [e', f']

theorem getIdFromString_eq (t : Table) (s : String) : t.getIdFromString s = t.getId s := rfl

theorem getId_spec {t u : Table} {s : String} {i : Nat} (hi : Inv t)
    (h : t.getId s = some (i, u)) : Inv u ∧ Ext t u ∧ find u (.text s) = some i := by
  unfold Table.getId at h
  cases hs : t.rev.lookup s with
  | some j =>
    simp only [hs, Option.some.injEq, Prod.mk.injEq] at h
    obtain ⟨rfl, rfl⟩ := h
    exact ⟨hi, Ext.refl t, hs⟩
  | none =>
    simp only [hs] at h
    cases hf : t.freshId with
    | none => simp [hf] at h
    | some j =>
      obtain ⟨rfl, hl⟩ := freshId_spec hi hf
      simp only [hf, Option.bind_eq_bind, Option.bind_some, Option.some.injEq,
        Prod.mk.injEq] at h
      obtain ⟨rfl, rfl⟩ := h
      obtain ⟨a, b⟩ := addText_inv hi hl hs
      refine ⟨a, b, ?_⟩
      simp [find]

theorem getIdFromBytes_spec {t u : Table} {b : ByteArray} {e : Enc} {i : Nat} (hi : Inv t)
    (h : t.getIdFromBytes b e = some (i, u)) :
    Inv u ∧ Ext t u ∧ find u (.bin b e) = some i := by
  unfold Table.getIdFromBytes at h
  cases hs : t.revBytes.lookup (b, e) with
  | some j =>
    simp only [hs, Option.some.injEq, Prod.mk.injEq] at h
    obtain ⟨rfl, rfl⟩ := h
    exact ⟨hi, Ext.refl t, hs⟩
  | none =>
    simp only [hs] at h
    cases hf : t.freshId with
    | none => simp [hf] at h
    | some j =>
      obtain ⟨rfl, hl⟩ := freshId_spec hi hf
      simp only [hf, Option.bind_eq_bind, Option.bind_some, Option.some.injEq,
        Prod.mk.injEq] at h
      obtain ⟨rfl, rfl⟩ := h
      obtain ⟨p, q⟩ := addBin_inv hi hl hs
      refine ⟨p, q, ?_⟩
      simp [find]

theorem intern_spec {t u : Table} {k : Key} {i : Nat} (hi : Inv t)
    (h : t.intern k = some (i, u)) : Inv u ∧ Ext t u ∧ find u k = some i := by
  cases k with
  | text s => exact getId_spec hi h
  | bin b e => exact getIdFromBytes_spec hi h

/-- with an id left, interning succeeds and takes at most one -/
theorem intern_total {t : Table} (hl : t.table.length + 1 < 2 ^ 32) (k : Key) :
    ∃ i u, t.intern k = some (i, u) ∧ u.table.length ≤ t.table.length + 1 := by
  cases k with
  | text s =>
    simp only [Table.intern, Table.getId, freshId_eq hl]
    cases t.rev.lookup s with
    | some i => exact ⟨i, t, rfl, by omega⟩
    | none => exact ⟨_, _, rfl, by simp⟩
  | bin b e =>
    simp only [Table.intern, Table.getIdFromBytes, freshId_eq hl]
    cases t.revBytes.lookup (b, e) with
    | some i => exact ⟨i, t, rfl, by omega⟩
    | none => exact ⟨_, _, rfl, by simp⟩

/-- interning leaves the table alone when the key is there, and answers its id -/
theorem intern_found {t : Table} {k : Key} {i : Nat} (h : find t k = some i) :
    t.intern k = some (i, t) := by
  cases k with
  | text s =>
    simp only [find] at h
    simp only [Table.intern, Table.getId, h]
  | bin b e =>
    simp only [find] at h
    simp only [Table.intern, Table.getIdFromBytes, h]

theorem step_spec (lossy : ByteArray → String) {t u : Table} {s : Step}
    {a : Option (Key × Nat)} (hi : Inv t) (h : t.step lossy s = some (a, u)) :
    Inv u ∧ Ext t u ∧ ∀ p, a = some p → find u p.1 = some p.2 := by
  cases s with
  | peek n =>
    simp only [Table.step, Option.some.injEq, Prod.mk.injEq] at h
    obtain ⟨ha, rfl⟩ := h
    refine ⟨hi, Ext.refl _, ?_⟩
    intro p hp
    rw [hp] at ha
    cases hx : t.peek n with
    | none => rw [hx] at ha; simp at ha
    | some i =>
      rw [hx] at ha
      simp only [Option.map_some, Option.some.injEq] at ha
      rw [← ha]; exact hx
  | getId n =>
    cases e : t.getId n with
    | none => simp [Table.step, e] at h
    | some r =>
      obtain ⟨p, q, w⟩ := getId_spec hi e
      simp only [Table.step, e, Option.map_some, Option.some.injEq, Prod.mk.injEq] at h
      obtain ⟨rfl, rfl⟩ := h
      exact ⟨p, q, fun x hx => by cases hx; exact w⟩
  | fromString n =>
    cases e : t.getId n with
    | none => simp [Table.step, getIdFromString_eq, e] at h
    | some r =>
      obtain ⟨p, q, w⟩ := getId_spec hi e
      simp only [Table.step, getIdFromString_eq, e, Option.map_some, Option.some.injEq,
        Prod.mk.injEq] at h
      obtain ⟨rfl, rfl⟩ := h
      exact ⟨p, q, fun x hx => by cases hx; exact w⟩
  | fromBytes b c =>
    cases e : t.getIdFromBytes b c with
    | none => simp [Table.step, e] at h
    | some r =>
      obtain ⟨p, q, w⟩ := getIdFromBytes_spec hi e
      simp only [Table.step, e, Option.map_some, Option.some.injEq, Prod.mk.injEq] at h
      obtain ⟨rfl, rfl⟩ := h
      exact ⟨p, q, fun x hx => by cases hx; exact w⟩
  | ivarPrefix id =>
    cases hn : t.name id with
    | none => simp [Table.step, hn] at h
    | some n =>
      cases e : t.getId ("@" ++ Table.display lossy n) with
      | none => simp [Table.step, Table.addIvarPrefix, hn, getIdFromString_eq, e] at h
      | some r =>
        obtain ⟨p, q, w⟩ := getId_spec hi e
        simp only [Table.step, Table.addIvarPrefix, hn, getIdFromString_eq, e,
          Option.bind_eq_bind, Option.bind_some, Option.some.injEq, Prod.mk.injEq] at h
        obtain ⟨rfl, rfl⟩ := h
        exact ⟨p, q, fun x hx => by cases hx; exact w⟩
  | assignPostfix id =>
    cases hn : t.name id with
    | none => simp [Table.step, hn] at h
    | some n =>
      cases e : t.getId (Table.display lossy n ++ "=") with
      | none => simp [Table.step, Table.addAssignPostfix, hn, getIdFromString_eq, e] at h
      | some r =>
        obtain ⟨p, q, w⟩ := getId_spec hi e
        simp only [Table.step, Table.addAssignPostfix, hn, getIdFromString_eq, e,
          Option.bind_eq_bind, Option.bind_some, Option.some.injEq, Prod.mk.injEq] at h
        obtain ⟨rfl, rfl⟩ := h
        exact ⟨p, q, fun x hx => by cases hx; exact w⟩

theorem run_cons (lossy : ByteArray → String) {t w : Table} {s : Step} {ss : List Step}
    {as : List (Key × Nat)} (h : t.run lossy (s :: ss) = some (as, w)) :
    ∃ a u bs, t.step lossy s = some (a, u) ∧ u.run lossy ss = some (bs, w) ∧
      as = a.toList ++ bs := by
  rw [Table.run] at h
  cases hs : t.step lossy s with
  | none => simp [hs] at h
  | some p =>
    obtain ⟨a, u⟩ := p
    simp only [hs, Option.bind_eq_bind, Option.bind_some] at h
    cases hr : u.run lossy ss with
    | none => simp [hr] at h
    | some q =>
      obtain ⟨bs, v⟩ := q
      simp only [hr, Option.bind_some, Option.some.injEq, Prod.mk.injEq] at h
      obtain ⟨rfl, rfl⟩ := h
      exact ⟨a, u, bs, rfl, hr, rfl⟩

theorem run_spec (lossy : ByteArray → String) (ss : List Step) :
    ∀ {t w : Table} {as : List (Key × Nat)}, Inv t → t.run lossy ss = some (as, w) →
      Inv w ∧ Ext t w ∧ ∀ p ∈ as, find w p.1 = some p.2 := by
  induction ss with
  | nil =>
    intro t w as hi h
    simp only [Table.run, Option.some.injEq, Prod.mk.injEq] at h
    obtain ⟨rfl, rfl⟩ := h
    exact ⟨hi, Ext.refl _, by simp⟩
  | cons s ss ih =>
    intro t w as hi h
    obtain ⟨a, u, bs, h1, h2, rfl⟩ := run_cons lossy h
    obtain ⟨p, q, r⟩ := step_spec lossy hi h1
    obtain ⟨p', q', r'⟩ := ih p h2
    refine ⟨p', q.trans q', ?_⟩
    intro x hx
    rcases List.mem_append.mp hx with hx | hx
    · exact q'.find (r x (by simpa using hx))
    · exact r' x hx

theorem run_append (lossy : ByteArray → String) (ss ss' : List Step) :
    ∀ (t : Table), t.run lossy (ss ++ ss') =
      (t.run lossy ss).bind (fun r => (r.2.run lossy ss').map (fun q => (r.1 ++ q.1, q.2))) := by
  induction ss with
  | nil => intro t; simp [Table.run]
  | cons s ss ih =>
    intro t
    simp only [List.cons_append, Table.run, Option.bind_eq_bind]
    cases h : t.step lossy s with
    | none => simp
    | some p =>
      obtain ⟨a, u⟩ := p
      simp only [Option.bind_some]
      rw [ih u]
      cases hr : u.run lossy ss with
      | none => simp
      | some q =>
        simp only [Option.bind_some]
        cases hr' : q.2.run lossy ss' with
        | none => simp
        | some q' => simp

/-- ASCII bytes are valid UTF-8 -/
theorem valid_of_isAscii {b : ByteArray} (h : isAscii b = true) : b.IsValidUTF8 := by
  have key : ∀ l : List UInt8, l.all (· < 0x80) = true →
      (l.map (fun x => Char.ofNat x.toNat)).flatMap String.utf8EncodeChar = l := by
    intro l
    induction l with
    | nil => intro _; rfl
    | cons x l ih =>
      intro hl
      simp only [List.all_cons, Bool.and_eq_true, decide_eq_true_eq] at hl
      have hx : x.toNat < 128 := by
        have := UInt8.lt_iff_toNat_lt.mp hl.1
        simpa using this
      have hv : (Char.ofNat x.toNat).val.toNat = x.toNat := by
        have hval : x.toNat.isValidChar := Or.inl (by omega)
        simp only [Char.ofNat, hval, dif_pos]
        show (Char.ofNatAux x.toNat hval).val.toNat = x.toNat
        simp only [Char.ofNatAux]
        rfl
      have he : String.utf8EncodeChar (Char.ofNat x.toNat) = [x] := by
        unfold String.utf8EncodeChar
        simp only [hv]
        rw [if_pos (by omega)]
        simp
      rw [List.map_cons, List.flatMap_cons, he, ih hl.2]
      rfl
  refine ⟨b.data.toList.map (fun x => Char.ofNat x.toNat), ?_⟩
  unfold List.utf8Encode
  rw [key _ h]
  apply ByteArray.ext
  simp

end Verif.Symbol
