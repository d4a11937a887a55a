import Verif.Rubymap.Model
import Mathlib.Tactic.Cases
import Mathlib.Data.List.Basic

/-! # Lemmas about the index table -/

namespace Verif.Rubymap

variable {Tb : Table} {K V σ ε : Type}

/-- The table stores exactly one pair `(h, i)` for every `i` with `m i = some h`. -/
def Rep (t : Tb.T) (m : Nat → Option Nat) : Prop :=
  (Tb.items t).Nodup ∧ ∀ h i, (h, i) ∈ Tb.items t ↔ m i = some h

/-- Map update. -/
def upd (m : Nat → Option Nat) (i : Nat) (o : Option Nat) : Nat → Option Nat :=
  fun j => if j = i then o else m j

theorem Rep.congr {t : Tb.T} {m m' : Nat → Option Nat} (h : Rep t m) (e : ∀ i, m i = m' i) :
    Rep t m' := by
  have : m = m' := funext e
  rwa [← this]

theorem rep_of_perm {t t' : Tb.T} {m : Nat → Option Nat} (h : Rep t m)
    (p : (Tb.items t').Perm (Tb.items t)) : Rep t' m :=
  ⟨p.nodup_iff.2 h.1, fun a b => by rw [p.mem_iff]; exact h.2 a b⟩

theorem rep_empty : Rep (Tb := Tb) Tb.empty (fun _ => none) := by
  constructor <;> simp [Tb.items_empty]

theorem rep_clear (t : Tb.T) : Rep (Tb.clear t) (fun _ => none) := by
  constructor <;> simp [Tb.items_clear]

theorem rep_insert {t : Tb.T} {m : Nat → Option Nat} (r : Rep t m) {h i : Nat} (hm : m i = none) :
    Rep (Tb.insert t h i) (upd m i (some h)) := by
  have p := Tb.items_insert t h i
  constructor
  · rw [p.nodup_iff, List.nodup_cons]
    refine ⟨fun hmem => ?_, r.1⟩
    have := (r.2 h i).1 hmem
    rw [hm] at this; cases this
  · intro a j
    rw [p.mem_iff, List.mem_cons, Prod.mk.injEq, r.2]
    unfold upd
    by_cases hj : j = i
    · subst hj; simp [hm, eq_comm]
    · simp [hj]

theorem rep_erase {t : Tb.T} {m : Nat → Option Nat} (r : Rep t m) {h i : Nat}
    (hm : m i = some h) : Rep (Tb.erase t (h, i)) (upd m i none) := by
  have hmem := (r.2 h i).2 hm
  have p := Tb.items_erase t (h, i) hmem
  constructor
  · rw [p.nodup_iff]; exact r.1.erase _
  · intro a j
    rw [p.mem_iff, r.1.mem_erase_iff, r.2]
    unfold upd
    by_cases hj : j = i
    · subst hj
      simp only [hm, if_true, ne_eq, Prod.mk.injEq, and_true, Option.some.injEq]
      constructor
      · rintro ⟨h1, h2⟩; exact absurd h2.symm h1
      · intro h; cases h
    · simp [hj]

theorem rep_setIdx {t : Tb.T} {m : Nat → Option Nat} (r : Rep t m) {h i j : Nat}
    (hm : m i = some h) (hj : m j = none) :
    Rep (Tb.setIdx t (h, i) j) (upd (upd m i none) j (some h)) := by
  have hmem := (r.2 h i).2 hm
  have p := Tb.items_setIdx t (h, i) j hmem
  have hij : j ≠ i := by intro e; subst e; rw [hm] at hj; cases hj
  constructor
  · rw [p.nodup_iff, List.nodup_cons]
    refine ⟨fun hx => ?_, r.1.erase _⟩
    have := (r.2 h j).1 (List.mem_of_mem_erase hx)
    rw [hj] at this; cases this
  · intro a k
    rw [p.mem_iff, List.mem_cons, r.1.mem_erase_iff, r.2, Prod.mk.injEq]
    unfold upd
    by_cases hk : k = j
    · subst hk
      simp [hj, eq_comm]
    · by_cases hk2 : k = i
      · subst hk2
        simp only [hk, and_false, if_false, if_true, hm, false_or, ne_eq, Prod.mk.injEq, and_true,
          Option.some.injEq]
        constructor
        · rintro ⟨h1, h2⟩; exact absurd h2.symm h1
        · intro h; cases h
      · simp [hk, hk2]

theorem findIdx_eq {t : Tb.T} {m : Nat → Option Nat} (r : Rep t m) {h i : Nat}
    (hm : m i = some h) : findIdx Tb t h i = some (h, i) := by
  unfold findIdx
  have hmem := Tb.probe_all t h (h, i) ((r.2 h i).2 hm) rfl
  cases hf : (Tb.probe t h).find? (fun x => x.2 == i) with
  | none =>
    have := List.find?_eq_none.1 hf (h, i) hmem
    simp at this
  | some x =>
    have h1 := List.find?_some hf
    have h2 := Tb.probe_sub t h x (List.mem_of_find?_eq_some hf)
    obtain ⟨a, j⟩ := x
    have : j = i := by simpa using h1
    subst this
    have := (r.2 a j).1 h2
    rw [hm] at this
    cases this; rfl

theorem rep_eraseIndex {t : Tb.T} {m : Nat → Option Nat} (r : Rep t m) {h i : Nat}
    (hm : m i = some h) : ∃ t', eraseIndex t h i = some t' ∧ Rep t' (upd m i none) :=
  ⟨_, by rw [eraseIndex, findIdx_eq r hm]; rfl, rep_erase r hm⟩

theorem rep_updateIndex {t : Tb.T} {m : Nat → Option Nat} (r : Rep t m) {h i j : Nat}
    (hm : m i = some h) (hj : m j = none) :
    ∃ t', updateIndex t h i j = some t' ∧ Rep t' (upd (upd m i none) j (some h)) :=
  ⟨_, by rw [updateIndex, findIdx_eq r hm]; rfl, rep_setIdx r hm hj⟩

theorem rep_reserve {t : Tb.T} {m : Nat → Option Nat} (r : Rep t m) (n : Nat) (f : Nat → Nat)
    (hf : ∀ i h, m i = some h → f i = h) : Rep (Tb.reserve t n f) m := by
  rcases Tb.items_reserve t n f with p | p
  · exact rep_of_perm r p
  · refine rep_of_perm r (p.trans ?_)
    have : (Tb.items t).map (fun x => (f x.2, x.2)) = Tb.items t := by
      conv_rhs => rw [← List.map_id (Tb.items t)]
      apply List.map_congr_left
      rintro ⟨a, j⟩ hx
      simp [hf j a ((r.2 a j).1 hx)]
    rw [this]

theorem rep_mapIdx {t : Tb.T} {m m' : Nat → Option Nat} (r : Rep t m) (f : Nat → Option Nat)
    (inj : ∀ i j k, m i ≠ none → m j ≠ none → f i = some k → f j = some k → i = j)
    (hm' : ∀ h k, m' k = some h ↔ ∃ i, f i = some k ∧ m i = some h) :
    Rep (Tb.mapIdx t f) m' := by
  have p := Tb.items_mapIdx t f
  have hmem : ∀ a k, (a, k) ∈ (Tb.items t).filterMap (fun x => (f x.2).map (fun j => (x.1, j)))
      ↔ ∃ i, f i = some k ∧ m i = some a := by
    intro a k
    rw [List.mem_filterMap]
    constructor
    · rintro ⟨⟨b, i⟩, h1, h2⟩
      simp only [Option.map_eq_some_iff, Prod.mk.injEq] at h2
      obtain ⟨j, h3, rfl, rfl⟩ := h2
      exact ⟨i, h3, (r.2 _ _).1 h1⟩
    · rintro ⟨i, h1, h2⟩
      exact ⟨(a, i), (r.2 _ _).2 h2, by simp [h1]⟩
  constructor
  · rw [p.nodup_iff]
    rw [List.Nodup, List.pairwise_filterMap]
    refine List.Pairwise.imp_of_mem ?_ r.1
    rintro ⟨a, i⟩ ⟨b, j⟩ ha hb hne x hx y hy e
    simp only [Option.map_eq_some_iff] at hx hy
    obtain ⟨u, hu, rfl⟩ := hx
    obtain ⟨v, hv, rfl⟩ := hy
    simp only [Prod.mk.injEq] at e
    obtain ⟨rfl, rfl⟩ := e
    have h1 := (r.2 _ _).1 ha
    have h2 := (r.2 _ _).1 hb
    have := inj i j u (by simp [h1]) (by simp [h2]) hu hv
    subst this
    exact hne rfl
  · intro a k
    rw [p.mem_iff, hmem, hm']

/-! ## Bulk operations -/

/-- The index map of an entry vector. -/
def emap (es : List (Bucket K V)) : Nat → Option Nat := fun i => (es[i]?).map (·.hash)

theorem emap_cons_zero (b : Bucket K V) (bs : List (Bucket K V)) : emap (b :: bs) 0 = some b.hash :=
  rfl

theorem emap_cons_succ (b : Bucket K V) (bs : List (Bucket K V)) (i : Nat) :
    emap (b :: bs) (i + 1) = emap bs i := rfl

theorem emap_eq_none {es : List (Bucket K V)} {i : Nat} : emap es i = none ↔ es.length ≤ i := by
  simp [emap]

theorem hasher_emap {es : List (Bucket K V)} {i h : Nat} (e : emap es i = some h) :
    hasher es i = h := by
  unfold emap at e
  simp [hasher, e]

theorem items_length_insert (t : Tb.T) (h i : Nat) :
    (Tb.items (Tb.insert t h i)).length = (Tb.items t).length + 1 := by
  rw [(Tb.items_insert t h i).length_eq]; simp

theorem rep_bulkLoop : ∀ (es : List (Bucket K V)) (t : Tb.T) (m : Nat → Option Nat) (n : Nat),
    Rep t m → (Tb.items t).length = n → (∀ j, n ≤ j → m j = none) →
    Rep (bulkLoop t es) (fun j => if j < n then m j else emap es (j - n)) ∧
      (Tb.items (bulkLoop t es)).length = n + es.length
  | [], t, m, n, r, hn, hm => by
    refine ⟨r.congr ?_, by simpa [bulkLoop] using hn⟩
    intro i
    by_cases h : i < n
    · simp [h]
    · simp only [h, if_false]
      rw [hm i (by omega)]; rfl
  | b :: bs, t, m, n, r, hn, hm => by
    rw [bulkLoop]
    have r' : Rep (Tb.insert t b.hash (Tb.items t).length) _ :=
      rep_insert r (h := b.hash) (by rw [hn]; exact hm n (Nat.le_refl _))
    have := rep_bulkLoop bs _ _ (n + 1) r' (by rw [items_length_insert, hn]) (by
      intro j hj
      unfold upd
      rw [if_neg (by omega)]
      exact hm j (by omega))
    refine ⟨this.1.congr ?_, by rw [this.2]; simp; omega⟩
    intro j
    unfold upd
    rw [hn]
    by_cases h1 : j < n
    · rw [if_pos (by omega), if_neg (by omega), if_pos h1]
    · by_cases h2 : j = n
      · subst h2
        simp [emap_cons_zero]
      · rw [if_neg (by omega), if_neg (by omega)]
        have : j - n = (j - (n + 1)) + 1 := by omega
        rw [this, emap_cons_succ]

theorem cap_bulkLoop (es : List (Bucket K V)) (t : Tb.T) : Tb.cap t ≤ Tb.cap (bulkLoop t es) := by
  induction es generalizing t with
  | nil => exact Nat.le_refl _
  | cons b bs ih => exact Nat.le_trans (Tb.cap_insert _ _ _) (ih _)

/-- Bulk insertion into a table that holds the entries `pre` appends `es`. -/
theorem rep_insertBulk {t : Tb.T} {pre es : List (Bucket K V)} (r : Rep t (emap pre))
    (hl : (Tb.items t).length = pre.length) (hc : pre.length + es.length ≤ Tb.cap t) :
    ∃ t', insertBulkNoGrow t es = some t' ∧ Rep t' (emap (pre ++ es)) ∧
      (Tb.items t').length = (pre ++ es).length ∧ Tb.cap t ≤ Tb.cap t' := by
  unfold insertBulkNoGrow
  rw [if_pos (by omega)]
  have := rep_bulkLoop es t (emap pre) pre.length r hl (fun j hj => emap_eq_none.2 hj)
  refine ⟨_, rfl, this.1.congr ?_, by rw [this.2]; simp, cap_bulkLoop _ _⟩
  intro j
  by_cases h : j < pre.length
  · simp only [h, if_true, emap]
    rw [List.getElem?_append_left h]
  · simp only [h, if_false, emap]
    rw [List.getElem?_append_right (by omega)]

theorem rep_nil {t : Tb.T} (r : Rep t (fun _ => none)) :
    Rep t (emap ([] : List (Bucket K V))) ∧ (Tb.items t).length = 0 := by
  refine ⟨r.congr (fun i => by simp [emap]), ?_⟩
  rw [List.length_eq_zero_iff, List.eq_nil_iff_forall_not_mem]
  rintro ⟨a, j⟩ hx
  have := (r.2 a j).1 hx
  cases this

theorem emap_of_take_drop {es : List (Bucket K V)} {start stop k : Nat} {b : Bucket K V}
    (h : ((es.take stop).drop start)[k]? = some b) : emap es (start + k) = some b.hash := by
  rw [List.getElem?_drop, List.getElem?_take] at h
  unfold emap
  split at h
  · rw [h]; rfl
  · cases h

theorem rep_decLoop : ∀ (bs : List (Bucket K V)) (t : Tb.T) (m : Nat → Option Nat) (i : Nat),
    Rep t m → 1 ≤ i → m (i - 1) = none → (∀ k b, bs[k]? = some b → m (i + k) = some b.hash) →
    ∃ t', decLoop t bs i = some t' ∧ Rep t' (fun j =>
      if i ≤ j + 1 ∧ j + 1 < i + bs.length then m (j + 1)
      else if j + 1 = i + bs.length then none else m j)
  | [], t, m, i, r, hi, h1, _ => by
    refine ⟨t, rfl, r.congr ?_⟩
    intro j
    simp only [List.length_nil, Nat.add_zero]
    rw [if_neg (by omega)]
    split
    · rename_i h; rw [← h1]; congr 1; omega
    · rfl
  | b :: bs, t, m, i, r, hi, h1, h2 => by
    have hb := h2 0 b rfl
    rw [Nat.add_zero] at hb
    obtain ⟨t1, e1, r1⟩ := rep_updateIndex r hb h1
    obtain ⟨t', e2, r2⟩ := rep_decLoop bs t1 _ (i + 1) r1 (by omega)
      (by unfold upd; rw [if_neg (by omega), if_pos (by omega)])
      (by
        intro k b' hk
        unfold upd
        rw [if_neg (by omega), if_neg (by omega)]
        have := h2 (k + 1) b' (by simpa using hk)
        rw [← this]; congr 1; omega)
    refine ⟨t', by rw [decLoop, e1]; exact e2, r2.congr ?_⟩
    intro j
    have hl : (b :: bs).length = bs.length + 1 := rfl
    rw [hl]
    unfold upd
    by_cases c1 : j + 1 = i
    · have : j = i - 1 := by omega
      rw [if_neg (by omega), if_neg (by omega), if_pos this, if_pos (by omega)]
      rw [← hb]; congr 1; omega
    · by_cases c2 : i ≤ j ∧ j + 1 < i + 1 + bs.length
      · rw [if_pos (by omega), if_neg (by omega), if_neg (by omega), if_pos (by omega)]
      · rw [if_neg (by omega)]
        by_cases c3 : j + 1 = i + 1 + bs.length
        · rw [if_pos (by omega), if_neg (by omega), if_pos (by omega)]
        · rw [if_neg (by omega), if_neg (by omega), if_neg (by omega), if_neg (by omega),
            if_neg (by omega)]

theorem rep_incLoop : ∀ (bs : List (Bucket K V)) (t : Tb.T) (m : Nat → Option Nat) (i : Nat),
    Rep t m → bs.length ≤ i → m i = none →
    (∀ k b, bs[k]? = some b → m (i - 1 - k) = some b.hash) →
    ∃ t', incLoop t bs i = some t' ∧ Rep t' (fun j =>
      if i < j + bs.length ∧ j ≤ i then m (j - 1)
      else if j + bs.length = i then none else m j)
  | [], t, m, i, r, hi, h1, _ => by
    refine ⟨t, rfl, r.congr ?_⟩
    intro j
    simp only [List.length_nil, Nat.add_zero]
    rw [if_neg (by omega)]
    split
    · rename_i h; rw [← h1, h]
    · rfl
  | b :: bs, t, m, i, r, hi, h1, h2 => by
    have hl : (b :: bs).length = bs.length + 1 := rfl
    rw [hl] at hi
    have hb := h2 0 b rfl
    rw [Nat.sub_zero] at hb
    obtain ⟨t1, e1, r1⟩ := rep_updateIndex r hb h1
    obtain ⟨t', e2, r2⟩ := rep_incLoop bs t1 _ (i - 1) r1 (by omega)
      (by unfold upd; rw [if_neg (by omega), if_pos rfl])
      (by
        intro k b' hk
        unfold upd
        have hkl : k < bs.length := by
          by_contra hh
          rw [List.getElem?_eq_none (by omega)] at hk; cases hk
        rw [if_neg (by omega), if_neg (by omega)]
        have := h2 (k + 1) b' (by simpa using hk)
        rw [← this]; congr 1; omega)
    refine ⟨t', by rw [incLoop, e1]; exact e2, r2.congr ?_⟩
    intro j
    rw [hl]
    unfold upd
    by_cases c1 : j = i
    · subst c1
      rw [if_neg (by omega), if_neg (by omega), if_pos rfl, if_pos (by omega)]
      exact hb.symm
    · by_cases c2 : i < j + bs.length + 1 ∧ j < i
      · rw [if_pos (by omega), if_neg (by omega), if_neg (by omega), if_pos (by omega)]
      · rw [if_neg (by omega)]
        by_cases c3 : j + bs.length + 1 = i
        · rw [if_pos (by omega), if_neg (by omega), if_pos (by omega)]
        · rw [if_neg (by omega), if_neg (by omega), if_neg (by omega), if_neg (by omega),
            if_neg (by omega)]

theorem rep_eraseLoop : ∀ (bs : List (Bucket K V)) (t : Tb.T) (m : Nat → Option Nat) (i : Nat),
    Rep t m → (∀ k b, bs[k]? = some b → m (i + k) = some b.hash) →
    ∃ t', eraseLoop t bs i = some t' ∧
      Rep t' (fun j => if i ≤ j ∧ j < i + bs.length then none else m j)
  | [], t, m, i, r, _ => by
    refine ⟨t, rfl, r.congr ?_⟩
    intro j
    rw [if_neg (by simp)]
  | b :: bs, t, m, i, r, h2 => by
    have hl : (b :: bs).length = bs.length + 1 := rfl
    obtain ⟨t1, e1, r1⟩ := rep_eraseIndex r (h2 0 b rfl)
    obtain ⟨t', e2, r2⟩ := rep_eraseLoop bs t1 _ (i + 1) r1 (by
      intro k b' hk
      unfold upd
      rw [if_neg (by omega)]
      have := h2 (k + 1) b' (by simpa using hk)
      rw [← this]; congr 1; omega)
    refine ⟨t', by rw [eraseLoop]; rw [Nat.add_zero] at e1; rw [e1]; exact e2, r2.congr ?_⟩
    intro j
    rw [hl]
    unfold upd
    by_cases c1 : j = i
    · rw [if_neg (by omega), if_pos (by omega), if_pos (by omega)]
    · by_cases c2 : i + 1 ≤ j ∧ j < i + 1 + bs.length
      · rw [if_pos c2, if_pos (by omega)]
      · rw [if_neg c2, if_neg (by omega), if_neg (by omega)]

theorem rep_shiftLoop : ∀ (bs : List (Bucket K V)) (t : Tb.T) (m : Nat → Option Nat)
    (new old : Nat), Rep t m → new < old → (∀ j, new ≤ j → j < old → m j = none) →
    (∀ k b, bs[k]? = some b → m (old + k) = some b.hash) →
    ∃ t', shiftLoop t bs new old = some t' ∧ Rep t' (fun j =>
      if new ≤ j ∧ j < new + bs.length then m (j - new + old)
      else if new ≤ j ∧ j < old + bs.length then none else m j)
  | [], t, m, new, old, r, hlt, h1, _ => by
    refine ⟨t, rfl, r.congr ?_⟩
    intro j
    simp only [List.length_nil, Nat.add_zero]
    rw [if_neg (by omega)]
    split
    · rename_i h; exact h1 j h.1 h.2
    · rfl
  | b :: bs, t, m, new, old, r, hlt, h1, h2 => by
    have hl : (b :: bs).length = bs.length + 1 := rfl
    have hb := h2 0 b rfl
    rw [Nat.add_zero] at hb
    obtain ⟨t1, e1, r1⟩ := rep_updateIndex r hb (h1 new (Nat.le_refl _) hlt)
    obtain ⟨t', e2, r2⟩ := rep_shiftLoop bs t1 _ (new + 1) (old + 1) r1 (by omega)
      (by
        intro j hj1 hj2
        unfold upd
        rw [if_neg (by omega)]
        by_cases c : j = old
        · rw [if_pos c]
        · rw [if_neg c]; exact h1 j (by omega) (by omega))
      (by
        intro k b' hk
        unfold upd
        rw [if_neg (by omega), if_neg (by omega)]
        have := h2 (k + 1) b' (by simpa using hk)
        rw [← this]; congr 1; omega)
    refine ⟨t', by rw [shiftLoop, e1]; exact e2, r2.congr ?_⟩
    intro j
    rw [hl]
    unfold upd
    by_cases c1 : j = new
    · subst c1
      rw [if_neg (by omega), if_neg (by omega), if_pos rfl, if_pos (by omega)]
      rw [← hb]; congr 1; omega
    · by_cases c2 : new + 1 ≤ j ∧ j < new + 1 + bs.length
      · rw [if_pos c2, if_neg (by omega), if_neg (by omega), if_pos (by omega)]
        congr 1; omega
      · rw [if_neg c2]
        by_cases c3 : new + 1 ≤ j ∧ j < old + 1 + bs.length
        · rw [if_pos c3, if_neg (by omega), if_pos (by omega)]
        · rw [if_neg c3, if_neg (by omega), if_neg (by omega), if_neg (by omega),
            if_neg (by omega)]

theorem rep_decrement {t : Tb.T} {m : Nat → Option Nat} {es : List (Bucket K V)} {start stop : Nat}
    (r : Rep t m) (h1 : 1 ≤ start) (hle : start ≤ stop) (hlen : stop ≤ es.length)
    (hnone : m (start - 1) = none) (hm : ∀ j, start ≤ j → j < stop → m j = emap es j) :
    ∃ t', decrementIndices t es start stop = some t' ∧ Rep t' (fun j =>
      if start ≤ j + 1 ∧ j + 1 < stop then m (j + 1)
      else if j + 1 = stop then none else m j) := by
  have hl : ((es.take stop).drop start).length = stop - start := by simp; omega
  unfold decrementIndices
  simp only []
  split
  · refine ⟨_, rfl, rep_mapIdx r _ ?_ ?_⟩
    · intro i j k hi hj e1 e2
      simp only [Option.some.injEq] at e1 e2
      have hi' : i ≠ start - 1 := by intro e; rw [e, hnone] at hi; exact hi rfl
      have hj' : j ≠ start - 1 := by intro e; rw [e, hnone] at hj; exact hj rfl
      split at e1 <;> split at e2 <;> omega
    · intro h k
      simp only [Option.some.injEq]
      constructor
      · intro hk
        split at hk
        · exact ⟨k + 1, by rw [if_pos (by omega)]; omega, hk⟩
        · split at hk
          · cases hk
          · by_cases c : start ≤ k ∧ k < stop
            · rename_i a b
              exfalso; omega
            · exact ⟨k, by rw [if_neg c], hk⟩
      · rintro ⟨i, e1, e2⟩
        have hi' : i ≠ start - 1 := by intro e; rw [e, hnone] at e2; cases e2
        split at e1
        · have : i = k + 1 := by omega
          subst this
          rw [if_pos (by omega)]; exact e2
        · subst e1
          rw [if_neg (by omega), if_neg (by omega)]; exact e2
  · obtain ⟨t', e, r'⟩ := rep_decLoop ((es.take stop).drop start) t m start r h1 hnone (by
      intro k b hk
      have hk' : k < stop - start := by
        by_contra hh
        rw [List.getElem?_eq_none (by omega)] at hk; cases hk
      rw [hm _ (by omega) (by omega)]
      exact emap_of_take_drop hk)
    refine ⟨t', e, r'.congr ?_⟩
    intro j
    rw [hl]
    have : start + (stop - start) = stop := by omega
    rw [this]

theorem rep_increment {t : Tb.T} {m : Nat → Option Nat} {es : List (Bucket K V)} {start stop : Nat}
    (r : Rep t m) (hle : start ≤ stop) (hlen : stop ≤ es.length)
    (hnone : m stop = none) (hm : ∀ j, start ≤ j → j < stop → m j = emap es j) :
    ∃ t', incrementIndices t es start stop = some t' ∧ Rep t' (fun j =>
      if start < j ∧ j ≤ stop then m (j - 1)
      else if j = start then none else m j) := by
  have hl : ((es.take stop).drop start).length = stop - start := by simp; omega
  unfold incrementIndices
  simp only []
  split
  · refine ⟨_, rfl, rep_mapIdx r _ ?_ ?_⟩
    · intro i j k hi hj e1 e2
      simp only [Option.some.injEq] at e1 e2
      have hi' : i ≠ stop := by intro e; rw [e, hnone] at hi; exact hi rfl
      have hj' : j ≠ stop := by intro e; rw [e, hnone] at hj; exact hj rfl
      split at e1 <;> split at e2 <;> omega
    · intro h k
      simp only [Option.some.injEq]
      rename_i hgt
      constructor
      · intro hk
        split at hk
        · exact ⟨k - 1, by rw [if_pos (by omega)]; omega, hk⟩
        · split at hk
          · cases hk
          · exact ⟨k, by rw [if_neg (by omega)], hk⟩
      · rintro ⟨i, e1, e2⟩
        have hi' : i ≠ stop := by intro e; rw [e, hnone] at e2; cases e2
        split at e1
        · have : i = k - 1 := by omega
          subst this
          rw [if_pos (by omega)]; exact e2
        · subst e1
          rw [if_neg (by omega), if_neg (by omega)]; exact e2
  · obtain ⟨t', e, r'⟩ := rep_incLoop ((es.take stop).drop start).reverse t m stop r
      (by simp; omega) hnone (by
      intro k b hk
      have hk' : k < stop - start := by
        by_contra hh
        rw [List.getElem?_eq_none (by simp; omega)] at hk; cases hk
      rw [List.getElem?_reverse (by rw [hl]; exact hk'), hl] at hk
      have := emap_of_take_drop hk
      rw [hm _ (by omega) (by omega), ← this]
      congr 1; omega)
    refine ⟨t', e, r'.congr ?_⟩
    intro j
    simp only [List.length_reverse, hl]
    by_cases c1 : start < j ∧ j ≤ stop
    · rw [if_pos (by omega), if_pos c1]
    · rw [if_neg (by omega), if_neg c1]
      by_cases c2 : j = start
      · rw [if_pos (by omega), if_pos c2]
      · rw [if_neg (by omega), if_neg c2]

end Verif.Rubymap
