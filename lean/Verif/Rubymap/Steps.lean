import Verif.Rubymap.Ops
import Mathlib.Tactic.SplitIfs

/-! # Each operation: what it does to the entries, and that the index follows -/

namespace Verif.Rubymap

variable {Tb : Table} {K V σ ε : Type} {dead : K → Bool}

theorem ensureIndexed_ok {c : Core Tb K V} (hi : Idx dead c) :
    ∃ c', c.ensureIndexed = some c' ∧ c'.linear = false ∧ c'.entries = c.entries ∧ Idx dead c' := by
  unfold Core.ensureIndexed
  split
  · rename_i hl
    obtain ⟨r, hc⟩ := hi.repLinear hl
    have r1 : Rep (Tb.reserve c.indices c.entries.length (hasher c.entries)) (fun _ => none) :=
      rep_reserve r _ _ (by intro i h e; cases e)
    obtain ⟨r2, l2⟩ := rep_nil (K := K) (V := V) r1
    have hcap := Tb.cap_reserve c.indices c.entries.length (hasher c.entries)
    obtain ⟨t', e, r3, _, _⟩ := rep_insertBulk (es := c.entries) r2 (by rw [l2]; rfl)
      (by simp; omega)
    refine ⟨{ c with indices := t', linear := false }, by rw [e]; rfl, rfl, rfl,
      Idx.ofClean hc ?_⟩
    simpa using r3
  · rename_i hl
    exact ⟨c, rfl, by simpa using hl, rfl, hi⟩

theorem lmap_setVal (es : List (Bucket K V)) (i : Nat) (v : V) (j : Nat) :
    lmap dead (setVal es i v) j = lmap dead es j := by
  unfold lmap setVal
  rw [List.getElem?_modify]
  cases es[j]? with
  | none => rfl
  | some b => by_cases h : i = j <;> simp [h]

theorem clean_setVal {es : List (Bucket K V)} (hc : Clean dead es) (i : Nat) (v : V) :
    Clean dead (setVal es i v) := by
  intro b hb
  obtain ⟨j, hj⟩ := List.getElem?_of_mem hb
  unfold setVal at hj
  rw [List.getElem?_modify] at hj
  cases h : es[j]? with
  | none => rw [h] at hj; cases hj
  | some b' =>
    rw [h] at hj
    have := hc b' (List.mem_of_getElem? h)
    by_cases h : i = j <;> simp [h] at hj <;> subst hj <;> simpa using this

theorem lmap_append {es : List (Bucket K V)} {b : Bucket K V} (hd : dead b.key = false) (j : Nat) :
    lmap dead (es ++ [b]) j = upd (lmap dead es) es.length (some b.hash) j := by
  unfold lmap upd
  by_cases h1 : j < es.length
  · rw [List.getElem?_append_left h1, if_neg (by omega)]
  · by_cases h2 : j = es.length
    · subst h2; simp [hd]
    · rw [if_neg h2, List.getElem?_eq_none (by simp; omega)]
      beta_reduce
      rw [List.getElem?_eq_none (by omega)]

theorem lmap_length (es : List (Bucket K V)) : lmap dead es es.length = none := by
  unfold lmap; simp

/-- What an insertion does once the search has answered `r`. -/
def InsOk (dead : K → Bool) (eq : KeyEq σ ε K) (h : Nat) (k : K) (v : V) (es : List (Bucket K V))
    (c' : Core Tb K V) (res : Res ε (Nat × Option V)) : Prop :=
  Idx dead c' ∧ ∃ r, FindOk dead eq h k es r ∧
    match r with
    | .raise e => res = .raise e ∧ c'.entries = es
    | .ok (some i) => res = .ok (i, es[i]?.map (·.val)) ∧ c'.entries = setVal es i v
    | .ok none => res = .ok (es.length, none) ∧ c'.entries = es ++ [⟨h, k, v⟩]
    | .panic => False

theorem insertIndexed_ok {c : Core Tb K V} (hi : Idx dead c) (hl : c.linear = false)
    (eq : KeyEq σ ε K) (h : Nat) (k : K) (v : V) (s : σ) (hk : dead k = false) :
    InsOk dead eq h k v c.entries (c.insertIndexed eq h k v s).1
      (c.insertIndexed eq h k v s).2.2 := by
  have r1 : Rep (Tb.reserve c.indices 1 (hasher c.entries)) (lmap dead c.entries) := by
    apply rep_reserve (hi.repLive hl)
    intro i h e
    obtain ⟨b, hb, _, rfl⟩ := lmap_some e
    simp [hasher, hb]
  obtain ⟨s', o, e, ho, ok⟩ := probe_findOk r1 eq h k s
  unfold Core.insertIndexed
  simp only [e]
  cases o with
  | none =>
    refine ⟨?_, _, ok, rfl, rfl⟩
    unfold Idx
    simp only [hl, Bool.false_eq_true, if_false]
    refine (rep_insert (h := h) r1 (lmap_length _)).congr (fun j => ?_)
    rw [lmap_append (b := ⟨h, k, v⟩) hk]
  | some x =>
    refine ⟨?_, _, ok, rfl, rfl⟩
    unfold Idx
    simp only [hl, Bool.false_eq_true, if_false]
    exact r1.congr (fun j => (lmap_setVal _ _ _ _).symm)

theorem insertFull_ok {c : Core Tb K V} (hi : Idx dead c)
    (eq : KeyEq σ ε K) (h : Nat) (k : K) (v : V) (s : σ) (hk : dead k = false) :
    InsOk dead eq h k v c.entries (c.insertFull eq h k v s).1 (c.insertFull eq h k v s).2.2 := by
  unfold Core.insertFull
  split
  · rename_i hl
    obtain ⟨r, hc⟩ := hi.repLinear hl
    obtain ⟨s', ⟨o, e, ok⟩ | ⟨x, e, ok⟩⟩ := linear_findOk hc eq h k s
    · rw [e]
      cases o with
      | some i =>
        refine ⟨Idx.ofClean (clean_setVal hc i v) ?_, _, ok, rfl, rfl⟩
        simp only [hl, if_true]; exact r
      | none =>
        simp only []
        split
        · refine ⟨Idx.ofClean (hc.append (fun b hb => ?_)) ?_, _, ok, rfl, rfl⟩
          · rw [List.mem_singleton] at hb; subst hb; exact hk
          · simp only [hl, if_true]; exact r
        · obtain ⟨c', e', hl', he', hi'⟩ := ensureIndexed_ok hi
          rw [e']
          have := insertIndexed_ok hi' hl' eq h k v s' hk
          rw [he'] at this
          exact this
    · rw [e]
      exact ⟨hi, _, ok, rfl, rfl⟩
  · rename_i hl
    exact insertIndexed_ok hi (by simpa using hl) eq h k v s hk

/-- What a replacement does once the search has answered `r`. -/
def RepOk (dead : K → Bool) (eq : KeyEq σ ε K) (h : Nat) (k : K) (v : V) (es : List (Bucket K V))
    (c' : Core Tb K V) (res : Res ε (Nat × Option (K × V))) : Prop :=
  Idx dead c' ∧ ∃ r, FindOk dead eq h k es r ∧
    match r with
    | .raise e => res = .raise e ∧ c'.entries = es
    | .ok (some i) => res = .ok (i, es[i]?.map (fun b => (b.key, b.val))) ∧
        c'.entries = es.modify i (fun b => { b with key := k, val := v })
    | .ok none => res = .ok (es.length, none) ∧ c'.entries = es ++ [⟨h, k, v⟩]
    | .panic => False

theorem replaceFull_ok {c : Core Tb K V} (hi : Idx dead c)
    (eq : KeyEq σ ε K) (h : Nat) (k : K) (v : V) (s : σ) (hk : dead k = false) :
    RepOk dead eq h k v c.entries (c.replaceFull eq h k v s).1 (c.replaceFull eq h k v s).2.2 := by
  unfold Core.replaceFull
  obtain ⟨c', e', hl, he', hi'⟩ := ensureIndexed_ok hi
  rw [e', ← he']
  clear e' he' hi
  have r1 : Rep (Tb.reserve c'.indices 1 (hasher c'.entries)) (lmap dead c'.entries) := by
    apply rep_reserve (hi'.repLive hl)
    intro i h e
    obtain ⟨b, hb, _, rfl⟩ := lmap_some e
    simp [hasher, hb]
  obtain ⟨s', o, e, ho, ok⟩ := probe_findOk r1 eq h k s
  simp only [e]
  cases o with
  | none =>
    refine ⟨?_, _, ok, rfl, rfl⟩
    unfold Idx
    simp only [hl, Bool.false_eq_true, if_false]
    refine (rep_insert (h := h) r1 (lmap_length _)).congr (fun j => ?_)
    rw [lmap_append (b := ⟨h, k, v⟩) hk]
  | some x =>
    refine ⟨?_, _, ok, rfl, rfl⟩
    unfold Idx
    simp only [hl, Bool.false_eq_true, if_false]
    refine r1.congr (fun j => ?_)
    obtain ⟨b, hb, hd, _⟩ := lmap_some (ho x rfl)
    unfold lmap
    rw [List.getElem?_modify]
    by_cases hj : x.2 = j
    · subst hj; simp [hb, hd, hk]
    · simp [hj]

theorem pop_ok {c : Core Tb K V} (hi : Idx dead c) (hc : Clean dead c.entries) :
    ∃ c', c.pop = some (c', c.entries.getLast?.map (fun b => (b.key, b.val))) ∧
      c'.entries = c.entries.dropLast ∧ Idx dead c' := by
  unfold Core.pop
  cases hb : c.entries.getLast? with
  | none =>
    refine ⟨c, rfl, ?_, hi⟩
    rw [List.getLast?_eq_none_iff] at hb
    simp [hb]
  | some b =>
    have hc' : Clean dead c.entries.dropLast := hc.sub (fun x hx => List.dropLast_subset _ hx)
    simp only []
    split
    · rename_i hl
      refine ⟨_, rfl, rfl, Idx.ofClean hc' ?_⟩
      simp only [hl, if_true]; exact (hi.repLinear hl).1
    · rename_i hl
      have hl : c.linear = false := by simpa using hl
      have hb' : c.entries[c.entries.length - 1]? = some b := by
        rw [← List.getLast?_eq_getElem?]; exact hb
      obtain ⟨t', e, r⟩ := rep_eraseIndex (hi.repClean hl hc)
        (h := b.hash) (i := c.entries.length - 1) (by unfold emap; rw [hb']; rfl)
      refine ⟨_, by rw [e]; rfl, rfl, Idx.ofClean hc' ?_⟩
      simp only [hl, Bool.false_eq_true, if_false]
      refine r.congr (fun j => ?_)
      unfold upd emap
      rw [List.getElem?_dropLast]
      have hpos : 0 < c.entries.length := by
        by_contra h0
        have : c.entries = [] := List.length_eq_zero_iff.1 (by omega)
        rw [this] at hb; cases hb
      split_ifs with h1 h2 h2
      · omega
      · rfl
      · rfl
      · rw [List.getElem?_eq_none (by omega)]

theorem shiftFinish_ok {c : Core Tb K V} {t : Tb.T} {i : Nat} {b : Bucket K V}
    (hc : Clean dead c.entries) (hl : c.linear = false) (hb : c.entries[i]? = some b)
    (r : Rep t (upd (emap c.entries) i none)) :
    ∃ c', c.shiftFinish t i = some (c', b.key, b.val) ∧ c'.entries = c.entries.eraseIdx i ∧
      Idx dead c' := by
  obtain ⟨hil, _⟩ := List.getElem?_eq_some_iff.1 hb
  obtain ⟨t', e, r'⟩ := rep_decrement (es := c.entries) (start := i + 1)
    (stop := c.entries.length) r (by omega) (by omega) (Nat.le_refl _) (by simp [upd])
    (by intro j h1 h2; unfold upd; rw [if_neg (by omega)])
  unfold Core.shiftFinish
  rw [e, hb]
  refine ⟨_, rfl, rfl, Idx.ofClean (hc.sub (fun x hx => List.mem_of_mem_eraseIdx hx)) ?_⟩
  simp only [hl, Bool.false_eq_true, if_false]
  refine r'.congr (fun j => ?_)
  unfold upd emap
  rw [List.getElem?_eraseIdx]
  split_ifs <;> first | rfl | omega | (rw [List.getElem?_eq_none (by omega)]; rfl) |
    (rw [List.getElem?_eq_none (by omega), List.getElem?_eq_none (by omega)])

/-- What a removal does once the search has answered `r`; `f` says what happens to the
entries. -/
def RemOk (dead : K → Bool) (eq : KeyEq σ ε K) (h : Nat) (k : K) (es : List (Bucket K V))
    (f : List (Bucket K V) → Nat → List (Bucket K V))
    (c' : Core Tb K V) (res : Res ε (Option (Nat × K × V))) : Prop :=
  Idx dead c' ∧ ∃ r, FindOk dead eq h k es r ∧
    match r with
    | .raise e => res = .raise e ∧ c'.entries = es
    | .ok (some i) => res = .ok (es[i]?.map (fun b => (i, b.key, b.val))) ∧ c'.entries = f es i
    | .ok none => res = .ok none ∧ c'.entries = es
    | .panic => False

theorem shiftRemoveFull_ok {c : Core Tb K V} (hi : Idx dead c) (hc : Clean dead c.entries)
    (eq : KeyEq σ ε K) (h : Nat) (k : K) (s : σ) :
    RemOk dead eq h k c.entries List.eraseIdx (c.shiftRemoveFull eq h k s).1
      (c.shiftRemoveFull eq h k s).2.2 := by
  unfold Core.shiftRemoveFull
  split
  · rename_i hl
    obtain ⟨s', ⟨o, e, ok⟩ | ⟨x, e, ok⟩⟩ := linear_findOk hc eq h k s
    · rw [e]
      cases o with
      | none => exact ⟨hi, _, ok, rfl, rfl⟩
      | some i =>
        obtain ⟨b, hb, _⟩ := ok.live i rfl
        simp only [hb]
        refine ⟨Idx.ofClean (hc.sub (fun x hx => List.mem_of_mem_eraseIdx hx)) ?_, _, ok, ?_, rfl⟩
        · simp only [hl, if_true]; exact (hi.repLinear hl).1
        · simp [hb]
    · rw [e]; exact ⟨hi, _, ok, rfl, rfl⟩
  · rename_i hl
    have hl : c.linear = false := by simpa using hl
    obtain ⟨s', o, e, ho, ok⟩ := probe_findOk (hi.repLive hl) eq h k s
    rw [e]
    cases o with
    | none => exact ⟨hi, _, ok, rfl, rfl⟩
    | some x =>
      have hx := ho x rfl
      obtain ⟨b, hb, _, _⟩ := lmap_some hx
      rw [lmap_clean hc] at hx
      obtain ⟨c', e', he', hi'⟩ := shiftFinish_ok hc hl hb (rep_erase (hi.repClean hl hc) hx)
      simp only []
      rw [show Tb.erase c.indices x = Tb.erase c.indices (x.1, x.2) from rfl, e']
      exact ⟨hi', _, ok, by simp [hb], he'⟩

theorem shiftRemoveIndex_ok {c : Core Tb K V} (hi : Idx dead c) (hc : Clean dead c.entries)
    (i : Nat) :
    ∃ c', c.shiftRemoveIndex i = some (c', c.entries[i]?.map (fun b => (b.key, b.val))) ∧
      c'.entries = c.entries.eraseIdx i ∧ Idx dead c' := by
  unfold Core.shiftRemoveIndex
  cases hb : c.entries[i]? with
  | none =>
    refine ⟨c, rfl, ?_, hi⟩
    rw [List.getElem?_eq_none_iff] at hb
    rw [List.eraseIdx_of_length_le hb]
  | some b =>
    simp only []
    split
    · rename_i hl
      refine ⟨_, rfl, rfl, Idx.ofClean (hc.sub (fun x hx => List.mem_of_mem_eraseIdx hx)) ?_⟩
      simp only [hl, if_true]; exact (hi.repLinear hl).1
    · rename_i hl
      have hl : c.linear = false := by simpa using hl
      obtain ⟨t', e, r⟩ := rep_eraseIndex (hi.repClean hl hc) (h := b.hash) (i := i)
        (by unfold emap; rw [hb]; rfl)
      obtain ⟨c', e', he', hi'⟩ := shiftFinish_ok hc hl hb r
      rw [e]
      simp only [e']
      exact ⟨c', rfl, he', hi'⟩

/-! ### Swap removal -/

theorem swapRemove_getElem? {es : List (Bucket K V)} {i : Nat} (hi : i < es.length) (j : Nat) :
    (swapRemove es i)[j]? =
      if j + 1 < es.length then (if j = i then es[es.length - 1]? else es[j]?) else none := by
  unfold swapRemove
  cases hb : es.getLast? with
  | none => rw [List.getLast?_eq_none_iff] at hb; subst hb; simp at hi
  | some b =>
    simp only []
    rw [List.getElem?_dropLast, List.getElem?_set, List.length_set]
    rw [List.getLast?_eq_getElem?] at hb
    rw [hb]
    split_ifs <;> first | rfl | omega

theorem swapRemove_length {es : List (Bucket K V)} {i : Nat} (hi : i < es.length) :
    (swapRemove es i).length = es.length - 1 := by
  unfold swapRemove
  cases hb : es.getLast? with
  | none => rw [List.getLast?_eq_none_iff] at hb; subst hb; simp at hi
  | some b => simp

theorem swapRemove_sub {es : List (Bucket K V)} {i : Nat} (hi : i < es.length) :
    ∀ x ∈ swapRemove es i, x ∈ es := by
  intro x hx
  obtain ⟨j, hj⟩ := List.getElem?_of_mem hx
  rw [swapRemove_getElem? hi] at hj
  split_ifs at hj
  · exact List.mem_of_getElem? hj
  · exact List.mem_of_getElem? hj

theorem swapFinish_ok {c : Core Tb K V} {t : Tb.T} {i : Nat} {b : Bucket K V}
    (hc : Clean dead c.entries) (hl : c.linear = false) (hb : c.entries[i]? = some b)
    (r : Rep t (upd (emap c.entries) i none)) :
    ∃ c', c.swapFinish t i = some (c', b.key, b.val) ∧ c'.entries = swapRemove c.entries i ∧
      Idx dead c' := by
  obtain ⟨hil, _⟩ := List.getElem?_eq_some_iff.1 hb
  unfold Core.swapFinish
  rw [hb]
  simp only []
  have hlen := swapRemove_length hil
  have hc' : Clean dead (swapRemove c.entries i) := hc.sub (swapRemove_sub hil)
  have hg := swapRemove_getElem? hil
  cases hm : (swapRemove c.entries i)[i]? with
  | none =>
    refine ⟨_, rfl, rfl, Idx.ofClean hc' ?_⟩
    simp only [hl, Bool.false_eq_true, if_false]
    refine r.congr (fun j => ?_)
    have h1 : ¬ (i + 1 < c.entries.length) := by
      intro h
      rw [hg, if_pos h, if_pos rfl, List.getElem?_eq_getElem (by omega)] at hm
      cases hm
    unfold upd emap
    rw [hg]
    split_ifs <;> first | rfl | omega | (rw [List.getElem?_eq_none (by omega)])
  | some m =>
    rw [hg] at hm
    have h1 : i + 1 < c.entries.length := by
      by_contra h; rw [if_neg h] at hm; cases hm
    rw [if_pos h1, if_pos rfl] at hm
    obtain ⟨t', e, r'⟩ := rep_updateIndex (h := m.hash) (i := (swapRemove c.entries i).length)
      (j := i) r (by
        unfold upd emap
        rw [hlen, if_neg (by omega), hm]; rfl) (by simp [upd])
    simp only []
    refine ⟨_, by rw [e]; rfl, rfl, Idx.ofClean hc' ?_⟩
    simp only [hl, Bool.false_eq_true, if_false]
    refine r'.congr (fun j => ?_)
    unfold upd emap
    rw [hlen, hg]
    beta_reduce
    split_ifs <;> first | rfl | omega | (rw [hm]; rfl) | (rw [List.getElem?_eq_none (by omega)]; rfl) |
      (rw [List.getElem?_eq_none (by omega)])

theorem swapRemoveFull_ok {c : Core Tb K V} (hi : Idx dead c) (hc : Clean dead c.entries)
    (eq : KeyEq σ ε K) (h : Nat) (k : K) (s : σ) :
    RemOk dead eq h k c.entries swapRemove (c.swapRemoveFull eq h k s).1
      (c.swapRemoveFull eq h k s).2.2 := by
  unfold Core.swapRemoveFull
  split
  · rename_i hl
    obtain ⟨s', ⟨o, e, ok⟩ | ⟨x, e, ok⟩⟩ := linear_findOk hc eq h k s
    · rw [e]
      cases o with
      | none => exact ⟨hi, _, ok, rfl, rfl⟩
      | some i =>
        obtain ⟨b, hb, _⟩ := ok.live i rfl
        obtain ⟨hil, _⟩ := List.getElem?_eq_some_iff.1 hb
        simp only [hb]
        refine ⟨Idx.ofClean (hc.sub (swapRemove_sub hil)) ?_, _, ok, ?_, rfl⟩
        · simp only [hl, if_true]; exact (hi.repLinear hl).1
        · simp [hb]
    · rw [e]; exact ⟨hi, _, ok, rfl, rfl⟩
  · rename_i hl
    have hl : c.linear = false := by simpa using hl
    obtain ⟨s', o, e, ho, ok⟩ := probe_findOk (hi.repLive hl) eq h k s
    rw [e]
    cases o with
    | none => exact ⟨hi, _, ok, rfl, rfl⟩
    | some x =>
      have hx := ho x rfl
      obtain ⟨b, hb, _, _⟩ := lmap_some hx
      rw [lmap_clean hc] at hx
      obtain ⟨c', e', he', hi'⟩ := swapFinish_ok hc hl hb (rep_erase (hi.repClean hl hc) hx)
      simp only []
      rw [show Tb.erase c.indices x = Tb.erase c.indices (x.1, x.2) from rfl, e']
      exact ⟨hi', _, ok, by simp [hb], he'⟩

theorem swapRemoveIndex_ok {c : Core Tb K V} (hi : Idx dead c) (hc : Clean dead c.entries)
    {i : Nat} (hil : i < c.entries.length) :
    ∃ c', c.swapRemoveIndex i = some (c', c.entries[i]?.map (fun b => (b.key, b.val))) ∧
      c'.entries = swapRemove c.entries i ∧ Idx dead c' := by
  unfold Core.swapRemoveIndex
  obtain ⟨b, hb⟩ : ∃ b, c.entries[i]? = some b := ⟨_, List.getElem?_eq_getElem hil⟩
  rw [hb]
  simp only []
  split
  · rename_i hl
    refine ⟨_, rfl, rfl, Idx.ofClean (hc.sub (swapRemove_sub hil)) ?_⟩
    simp only [hl, if_true]; exact (hi.repLinear hl).1
  · rename_i hl
    have hl : c.linear = false := by simpa using hl
    obtain ⟨t', e, r⟩ := rep_eraseIndex (hi.repClean hl hc) (h := b.hash) (i := i)
      (by unfold emap; rw [hb]; rfl)
    obtain ⟨c', e', he', hi'⟩ := swapFinish_ok hc hl hb r
    rw [e]
    simp only [e']
    exact ⟨c', rfl, he', hi'⟩

/-! ### Moving, reversing -/

theorem moveList_getElem? {es : List (Bucket K V)} {i j : Nat} (hi : i < es.length)
    (hj : j < es.length) (l : Nat) :
    (moveList es i j)[l]? =
      if l = j then es[i]?
      else if i ≤ l ∧ l < j then es[l + 1]?
      else if j < l ∧ l ≤ i then es[l - 1]?
      else es[l]? := by
  unfold moveList
  rw [List.getElem?_eq_getElem hi]
  simp only []
  rw [List.getElem?_insertIdx]
  have hlen : (es.eraseIdx i).length = es.length - 1 := List.length_eraseIdx_of_lt hi
  simp only [List.getElem?_eraseIdx, hlen]
  split_ifs <;> first | rfl | omega | (congr 1; omega)

theorem moveList_sub {es : List (Bucket K V)} {i j : Nat} (hi : i < es.length)
    (hj : j < es.length) : ∀ x ∈ moveList es i j, x ∈ es := by
  intro x hx
  obtain ⟨l, hl⟩ := List.getElem?_of_mem hx
  rw [moveList_getElem? hi hj] at hl
  split_ifs at hl <;> exact List.mem_of_getElem? hl

theorem moveIndex_ok {c : Core Tb K V} (hi : Idx dead c) (hc : Clean dead c.entries)
    {i j : Nat} (hil : i < c.entries.length) (hjl : j < c.entries.length)
    (hmax : c.entries.length ≤ USIZE_MAX) :
    ∃ c', c.moveIndex i j = some c' ∧ c'.entries = moveList c.entries i j ∧ Idx dead c' := by
  unfold Core.moveIndex
  obtain ⟨b, hb⟩ : ∃ b, c.entries[i]? = some b := ⟨_, List.getElem?_eq_getElem hil⟩
  obtain ⟨b', hb'⟩ : ∃ b, c.entries[j]? = some b := ⟨_, List.getElem?_eq_getElem hjl⟩
  rw [hb, hb']
  simp only []
  have hc' : Clean dead (moveList c.entries i j) := hc.sub (moveList_sub hil hjl)
  have hg := moveList_getElem? hil hjl
  split
  · rename_i hl
    refine ⟨_, rfl, rfl, Idx.ofClean hc' ?_⟩
    simp only [hl, if_true]; exact (hi.repLinear hl).1
  · rename_i hl
    have hl : c.linear = false := by simpa using hl
    have hmi : emap c.entries i = some b.hash := by unfold emap; rw [hb]; rfl
    have hmm : emap c.entries USIZE_MAX = none := by
      rw [emap_eq_none]; exact hmax
    split
    · rename_i hij
      subst hij
      refine ⟨c, rfl, ?_, hi⟩
      apply List.ext_getElem?
      intro l
      rw [hg]
      split_ifs <;> first | rfl | omega | (congr 1)
    · rename_i hij
      obtain ⟨t1, e1, r1⟩ := rep_updateIndex (hi.repClean hl hc) hmi hmm
      rw [e1]
      simp only []
      have hiM : i ≠ USIZE_MAX := by omega
      by_cases hlt : i < j
      · rw [if_pos hlt]
        obtain ⟨t2, e2, r2⟩ := rep_decrement (es := c.entries) (start := i + 1) (stop := j + 1) r1
          (by omega) (by omega) (by omega)
          (by unfold upd; rw [if_neg (by omega), if_pos (by omega)])
          (by intro l h1 h2; unfold upd; rw [if_neg (by omega), if_neg (by omega)])
        rw [e2]
        simp only []
        obtain ⟨t3, e3, r3⟩ := rep_updateIndex (h := b.hash) (i := USIZE_MAX) (j := j) r2
          (by
            rw [if_neg (by omega), if_neg (by omega)]
            unfold upd
            rw [if_pos rfl])
          (by rw [if_neg (by omega), if_pos (by omega)])
        refine ⟨_, by rw [e3]; rfl, rfl, Idx.ofClean hc' ?_⟩
        simp only [hl, Bool.false_eq_true, if_false]
        refine r3.congr (fun l => ?_)
        unfold emap upd
        beta_reduce
        rw [hg]
        split_ifs <;> first | rfl | omega | (rw [hb]; rfl) |
          (rw [List.getElem?_eq_none (by omega)]; rfl)
      · rw [if_neg hlt]
        obtain ⟨t2, e2, r2⟩ := rep_increment (es := c.entries) (start := j) (stop := i) r1
          (by omega) (by omega)
          (by unfold upd; rw [if_neg (by omega), if_pos (by omega)])
          (by intro l h1 h2; unfold upd; rw [if_neg (by omega), if_neg (by omega)])
        rw [e2]
        simp only []
        obtain ⟨t3, e3, r3⟩ := rep_updateIndex (h := b.hash) (i := USIZE_MAX) (j := j) r2
          (by
            rw [if_neg (by omega), if_neg (by omega)]
            unfold upd
            rw [if_pos rfl])
          (by rw [if_neg (by omega), if_pos (by omega)])
        refine ⟨_, by rw [e3]; rfl, rfl, Idx.ofClean hc' ?_⟩
        simp only [hl, Bool.false_eq_true, if_false]
        refine r3.congr (fun l => ?_)
        unfold emap upd
        beta_reduce
        rw [hg]
        split_ifs <;> first | rfl | omega | (rw [hb]; rfl) |
          (rw [List.getElem?_eq_none (by omega)]; rfl)

theorem reverse_ok {c : Core Tb K V} (hi : Idx dead c) (hc : Clean dead c.entries) :
    Idx dead c.reverse := by
  refine Idx.ofClean (hc.sub (fun x hx => List.mem_reverse.1 hx)) ?_
  unfold Core.reverse
  simp only []
  split
  · rename_i hl
    refine rep_mapIdx (hi.repLinear hl).1 _ (by intro i j k h; exact absurd rfl h) ?_
    intro h k
    constructor
    · intro h; cases h
    · rintro ⟨i, _, h⟩; cases h
  · rename_i hl
    have r := hi.repClean (by simpa using hl) hc
    have inr : ∀ i, emap c.entries i ≠ none → i < c.entries.length := by
      intro i h
      by_contra hh
      exact h (emap_eq_none.2 (by omega))
    refine rep_mapIdx r _ ?_ ?_
    · intro i j k h1 h2 e1 e2
      have := inr i h1
      have := inr j h2
      simp only [Option.some.injEq] at e1 e2
      omega
    · intro h k
      constructor
      · intro hk
        have hkl : k < c.entries.length := by
          by_contra hh
          rw [emap_eq_none.2 (by simp; omega)] at hk; cases hk
        refine ⟨c.entries.length - k - 1, by simp only [Option.some.injEq]; omega, ?_⟩
        unfold emap at hk ⊢
        rw [List.getElem?_reverse hkl] at hk
        rw [← hk]; congr 2; omega
      · rintro ⟨i, e, h1⟩
        have := inr i (by rw [h1]; simp)
        simp only [Option.some.injEq] at e
        subst e
        unfold emap at h1 ⊢
        rw [List.getElem?_reverse (by omega)]
        rw [← h1]; congr 2; omega

theorem clear_ok (c : Core Tb K V) : Idx dead c.clear :=
  Idx.ofClean (fun b hb => by simp [Core.clear] at hb) (by simpa [Core.clear] using rep_clear _)

/-! ### Range removal -/

theorem eraseIndices_ok {c : Core Tb K V} (hi : Idx dead c) (hc : Clean dead c.entries)
    {start stop : Nat} (h1 : start ≤ stop) (h2 : stop ≤ c.entries.length) :
    ∃ t, c.eraseIndices start stop = some t ∧
      (if c.linear then Rep t (fun _ => none)
       else Rep t (emap (c.entries.take start ++ c.entries.drop stop))) := by
  unfold Core.eraseIndices
  split
  · rename_i hl
    exact ⟨_, rfl, (hi.repLinear hl).1⟩
  · rename_i hl
    have r := hi.repClean (by simpa using hl) hc
    have hlen := rep_length r
    simp only []
    have target : ∀ l, emap (c.entries.take start ++ c.entries.drop stop) l =
        if l < start then emap c.entries l else emap c.entries (l - start + stop) := by
      intro l
      unfold emap
      have hst : (c.entries.take start).length = start := by simp; omega
      split
      · rename_i hlt
        rw [List.getElem?_append_left (by omega), List.getElem?_take, if_pos hlt]
      · rename_i hlt
        rw [List.getElem?_append_right (by omega), List.getElem?_drop, hst]
        congr 2; omega
    split
    · rename_i h0
      refine ⟨_, rfl, r.congr (fun l => ?_)⟩
      rw [target]
      have : start = stop := by simp at h0; omega
      subst this
      split
      · rfl
      · congr 1; omega
    · rename_i h0
      have hlt : start < stop := by simp at h0; omega
      split
      · have hcap : c.entries.length ≤ Tb.cap (Tb.clear c.indices) := by
          have := Tb.len_le_cap c.indices
          have := Tb.cap_clear c.indices
          omega
        obtain ⟨rn, ln⟩ := rep_nil (K := K) (V := V) (rep_clear c.indices)
        obtain ⟨t1, e1, r1, l1, c1⟩ := rep_insertBulk (es := c.entries.take start) rn
          (by rw [ln]; rfl) (by simp; omega)
        rw [e1]
        simp only [List.nil_append] at r1 l1 ⊢
        obtain ⟨t2, e2, r2, _, _⟩ := rep_insertBulk (es := c.entries.drop stop) r1 l1
          (by simp; omega)
        exact ⟨t2, e2, r2⟩
      · split
        · have hl1 : ((c.entries.take stop).drop start).length = stop - start := by simp; omega
          obtain ⟨t1, e1, r1⟩ := rep_eraseLoop ((c.entries.take stop).drop start) c.indices _ start r
            (fun k b hk => emap_of_take_drop hk)
          rw [e1]
          simp only [hl1] at r1 ⊢
          obtain ⟨t2, e2, r2⟩ := rep_shiftLoop (c.entries.drop stop) t1 _ start stop r1 hlt
            (by intro j h3 h4; rw [if_pos (by omega)])
            (by
              intro k b hk
              rw [if_neg (by omega)]
              rw [List.getElem?_drop] at hk
              unfold emap; rw [hk]; rfl)
          refine ⟨t2, e2, r2.congr (fun l => ?_)⟩
          rw [target, List.length_drop]
          split_ifs <;> first | rfl | omega | (rw [emap_eq_none.2 (by omega)]; done) |
            (rw [eq_comm, emap_eq_none.2 (by omega)]; done) |
            (rw [emap_eq_none.2 (by omega), emap_eq_none.2 (by omega)])
        · refine ⟨_, rfl, rep_mapIdx r _ ?_ ?_⟩
          · intro i j k _ _ e1 e2
            split_ifs at e1 e2 <;> simp only [Option.some.injEq] at e1 e2 <;> omega
          · intro h k
            rw [target]
            constructor
            · intro hk
              split at hk
              · exact ⟨k, by rw [if_neg (by omega), if_pos (by assumption)], hk⟩
              · exact ⟨k - start + stop, by
                  rw [if_pos (by omega)]; simp only [Option.some.injEq]; omega, hk⟩
            · rintro ⟨i, e, h3⟩
              split_ifs at e <;> simp only [Option.some.injEq] at e <;> subst e
              · rw [if_neg (by omega)]
                rw [← h3]; congr 1; omega
              · rw [if_pos (by assumption)]; exact h3

theorem drain_ok {c : Core Tb K V} (hi : Idx dead c) (hc : Clean dead c.entries)
    {start stop : Nat} (h1 : start ≤ stop) (h2 : stop ≤ c.entries.length) :
    ∃ c', c.drain start stop = some c' ∧
      c'.entries = c.entries.take start ++ c.entries.drop stop ∧ Idx dead c' := by
  obtain ⟨t, e, r⟩ := eraseIndices_ok hi hc h1 h2
  unfold Core.drain
  rw [if_pos ⟨h1, h2⟩, e]
  refine ⟨_, rfl, rfl, Idx.ofClean ?_ r⟩
  exact (hc.sub (fun x hx => List.mem_of_mem_take hx)).append
    (hc.sub (fun x hx => List.mem_of_mem_drop hx))

theorem truncate_ok {c : Core Tb K V} (hi : Idx dead c) (hc : Clean dead c.entries) (n : Nat) :
    ∃ c', c.truncate n = some c' ∧ c'.entries = c.entries.take n ∧ Idx dead c' := by
  unfold Core.truncate
  split
  · rename_i hn
    obtain ⟨t, e, r⟩ := eraseIndices_ok hi hc (Nat.le_of_lt hn) (Nat.le_refl _)
    rw [e]
    refine ⟨_, rfl, rfl, Idx.ofClean (hc.sub (fun x hx => List.mem_of_mem_take hx)) ?_⟩
    rw [List.drop_length, List.append_nil] at r
    exact r
  · exact ⟨c, rfl, by rw [List.take_of_length_le (by omega)], hi⟩

theorem splitOff_ok {c : Core Tb K V} (hi : Idx dead c) (hc : Clean dead c.entries) {n : Nat}
    (hn : n ≤ c.entries.length) :
    ∃ a b, c.splitOff n = some (a, b) ∧ a.entries = c.entries.take n ∧
      b.entries = c.entries.drop n ∧ Idx dead a ∧ Idx dead b := by
  obtain ⟨t, e, r⟩ := eraseIndices_ok hi hc hn (Nat.le_refl _)
  unfold Core.splitOff
  rw [if_pos hn, e]
  rw [List.drop_length, List.append_nil] at r
  have ca : Clean dead (c.entries.take n) := hc.sub (fun x hx => List.mem_of_mem_take hx)
  have cb : Clean dead (c.entries.drop n) := hc.sub (fun x hx => List.mem_of_mem_drop hx)
  simp only []
  split
  · rename_i hl
    refine ⟨_, _, rfl, rfl, rfl, Idx.ofClean ca r, Idx.ofClean cb ?_⟩
    simpa using rep_empty
  · rename_i hl
    have r1 : Rep (Tb.reserve Tb.empty (c.entries.drop n).length (fun _ => 0)) (fun _ => none) :=
      rep_reserve rep_empty _ _ (by intro i h e; cases e)
    obtain ⟨r2, l2⟩ := rep_nil (K := K) (V := V) r1
    have hcap := Tb.cap_reserve Tb.empty (c.entries.drop n).length (fun _ => 0)
    obtain ⟨t', e', r3, _, _⟩ := rep_insertBulk (es := c.entries.drop n) r2 (by rw [l2]; rfl)
      (by simp only [List.length_nil]; omega)
    rw [e']
    refine ⟨_, _, rfl, rfl, rfl, Idx.ofClean ca r, Idx.ofClean cb ?_⟩
    simpa using r3

/-! ### Rewriting the whole vector -/

theorem rebuild_ok {c : Core Tb K V} (hl : c.linear = false) (hc : Clean dead c.entries)
    (hcap : c.entries.length ≤ Tb.cap c.indices) :
    ∃ c', c.rebuild = some c' ∧ c'.entries = c.entries ∧ Idx dead c' := by
  unfold Core.rebuild
  rw [if_neg (by simp [hl])]
  obtain ⟨rn, ln⟩ := rep_nil (K := K) (V := V) (rep_clear c.indices)
  have := Tb.cap_clear c.indices
  obtain ⟨t', e', r3, _, _⟩ := rep_insertBulk (es := c.entries) rn (by rw [ln]; rfl)
    (by simp only [List.length_nil]; omega)
  rw [e']
  refine ⟨_, rfl, rfl, Idx.ofClean hc ?_⟩
  simp only [hl, Bool.false_eq_true, if_false]
  simpa using r3

theorem withEntries_ok {c : Core Tb K V} (hi : Idx dead c) (hc : Clean dead c.entries)
    {es : List (Bucket K V)} (hp : es.Perm c.entries) :
    ∃ c', c.withEntries es = some c' ∧ c'.entries = es ∧ Idx dead c' := by
  have hc' : Clean dead es := hc.sub (fun x hx => hp.mem_iff.1 hx)
  unfold Core.withEntries
  cases hl : c.linear with
  | true =>
    refine ⟨{ c with entries := es }, by simp [Core.rebuild, hl], rfl, Idx.ofClean hc' ?_⟩
    simp only [hl, if_true]; exact (hi.repLinear hl).1
  | false =>
    refine rebuild_ok (c := { c with linear := false, entries := es }) rfl hc' ?_
    have := rep_length (hi.repClean hl hc)
    have := Tb.len_le_cap c.indices
    have := hp.length_eq
    simp only []
    omega

theorem filterMap_len_le (f : Bucket K V → Option (Bucket K V)) (es : List (Bucket K V)) :
    (es.filterMap f).length ≤ es.length := List.length_filterMap_le f es

theorem emap_filterMap_full (f : Bucket K V → Option (Bucket K V))
    (hf : ∀ b b', f b = some b' → b'.hash = b.hash) :
    ∀ (es : List (Bucket K V)), es.length ≤ (es.filterMap f).length → ∀ i,
      emap (es.filterMap f) i = emap es i
  | [], _, _ => rfl
  | b :: bs, h, i => by
    rw [List.filterMap_cons] at h ⊢
    cases hb : f b with
    | none =>
      rw [hb] at h
      have := filterMap_len_le f bs
      simp only [List.length_cons] at h
      omega
    | some b' =>
      rw [hb] at h
      simp only [List.length_cons] at h
      cases i with
      | zero =>
        rw [emap_cons_zero, emap_cons_zero, hf b b' hb]
      | succ i =>
        rw [emap_cons_succ, emap_cons_succ]
        exact emap_filterMap_full f hf bs (by omega) i

theorem retain_ok {c : Core Tb K V} (hi : Idx dead c) (hc : Clean dead c.entries)
    (keep : K → V → Option V) :
    ∃ c', c.retain keep = some c' ∧
      c'.entries = c.entries.filterMap
        (fun b => (keep b.key b.val).map (fun v => { b with val := v })) ∧ Idx dead c' := by
  unfold Core.retain
  simp only []
  have hc' : Clean dead (c.entries.filterMap
      (fun b => (keep b.key b.val).map (fun v => { b with val := v }))) := by
    intro b hb
    obtain ⟨a, ha, e⟩ := List.mem_filterMap.1 hb
    obtain ⟨v, _, rfl⟩ := Option.map_eq_some_iff.1 e
    exact hc a ha
  split
  · rename_i h
    refine rebuild_ok (c := { c with entries := _ }) h.1 hc' ?_
    have := Tb.len_le_cap c.indices
    simp only []
    omega
  · rename_i h
    refine ⟨_, rfl, rfl, Idx.ofClean hc' ?_⟩
    cases hl : c.linear with
    | true => simpa using (hi.repLinear hl).1
    | false =>
      simp only [Bool.false_eq_true, if_false]
      have r := hi.repClean hl hc
      refine r.congr (fun i => (emap_filterMap_full _ ?_ _ ?_ i).symm)
      · intro b b' e
        obtain ⟨v, _, rfl⟩ := Option.map_eq_some_iff.1 e
        rfl
      · rw [rep_length r] at h
        by_contra hcon
        exact h ⟨hl, by omega⟩

theorem shiftInsertUnique_ok {c : Core Tb K V} (hi : Idx dead c) (hc : Clean dead c.entries)
    {i : Nat} (hil : i ≤ c.entries.length) (h : Nat) (k : K) (v : V) (hk : dead k = false) :
    ∃ c', c.shiftInsertUnique i h k v = some c' ∧
      c'.entries = c.entries.insertIdx i ⟨h, k, v⟩ ∧ Idx dead c' := by
  unfold Core.shiftInsertUnique
  obtain ⟨c', e', hl, he', hi'⟩ := ensureIndexed_ok hi
  rw [e']
  rw [← he'] at hil hc ⊢
  clear e' he' hi
  have r := hi'.repClean hl hc
  have hlen := rep_length r
  simp only [hlen, if_pos hil]
  obtain ⟨t, e, r1⟩ := rep_increment (es := c'.entries) (start := i) (stop := c'.entries.length) r
    hil (Nat.le_refl _) (emap_eq_none.2 (Nat.le_refl _)) (fun _ _ _ => rfl)
  rw [e]
  have r2 := rep_reserve r1 1 (fun j => hasher c'.entries (if j < i then j else j - 1)) (by
    intro j h' hj
    split_ifs at hj with h1 h2
    · rw [if_neg (by omega)]; exact hasher_emap hj
    · by_cases h3 : j < i
      · rw [if_pos h3]; exact hasher_emap hj
      · rw [emap_eq_none.2 (by omega)] at hj; cases hj)
  have r3 := rep_insert (h := h) (i := i) r2 (by
    rw [if_neg (by omega), if_pos rfl])
  refine ⟨_, rfl, rfl, Idx.ofClean ?_ ?_⟩
  · intro b hb
    rcases (List.mem_insertIdx hil).1 hb with rfl | hb
    · exact hk
    · exact hc b hb
  · simp only [hl, Bool.false_eq_true, if_false]
    refine r3.congr (fun j => ?_)
    unfold upd emap
    beta_reduce
    rw [List.getElem?_insertIdx]
    split_ifs <;> first | rfl | omega | (rw [List.getElem?_eq_none (by omega)]; rfl) |
      (rw [List.getElem?_eq_none (by omega), List.getElem?_eq_none (by omega)])

/-! ### Tombstones -/

theorem lmap_set_dead {es : List (Bucket K V)} {i : Nat} {b : Bucket K V} (hb : dead b.key = true)
    (hil : i < es.length) (j : Nat) :
    lmap dead (es.set i b) j = upd (lmap dead es) i none j := by
  unfold lmap upd
  rw [List.getElem?_set]
  split_ifs <;> first | rfl | omega | skip
  all_goals simp [hb]

theorem tombstoneRemoveFull_ok {c : Core Tb K V} (hi : Idx dead c)
    (eq : KeyEq σ ε K) (h : Nat) (k : K) (dk : K) (dv : V) (s : σ) (hdk : dead dk = true) :
    RemOk dead eq h k c.entries (fun es i => es.modify i (fun b => ⟨b.hash, dk, dv⟩))
      (c.tombstoneRemoveFull eq h k dk dv s).1 (c.tombstoneRemoveFull eq h k dk dv s).2.2 := by
  unfold Core.tombstoneRemoveFull
  obtain ⟨c', e', hl, he', hi'⟩ := ensureIndexed_ok hi
  rw [e', ← he']
  clear e' he' hi
  obtain ⟨s', o, e, ho, ok⟩ := probe_findOk (hi'.repLive hl) eq h k s
  simp only [e]
  cases o with
  | none => exact ⟨hi', _, ok, rfl, rfl⟩
  | some x =>
    have hx := ho x rfl
    obtain ⟨b, hb, _, _⟩ := lmap_some hx
    obtain ⟨hil, hbe⟩ := List.getElem?_eq_some_iff.1 hb
    simp only [hb]
    refine ⟨?_, _, ok, by simp [hb], ?_⟩
    · unfold Idx
      simp only [hl, Bool.false_eq_true, if_false]
      exact (rep_erase (hi'.repLive hl) hx).congr (fun j => (lmap_set_dead hdk hil j).symm)
    · simp only []
      rw [List.modify_eq_set_getElem?, hb]; rfl

theorem tombstoneIndex_ok {c : Core Tb K V} (hi : Idx dead c) {i : Nat} {b : Bucket K V}
    (hb : c.entries[i]? = some b) (hlive : dead b.key = false) (dk : K) (dv : V)
    (hdk : dead dk = true) :
    ∃ c', c.tombstoneIndex i dk dv = some (c', some (b.key, b.val)) ∧
      c'.entries = c.entries.modify i (fun b => ⟨b.hash, dk, dv⟩) ∧ Idx dead c' := by
  unfold Core.tombstoneIndex
  rw [hb]
  obtain ⟨c', e', hl, he', hi'⟩ := ensureIndexed_ok hi
  rw [e', ← he']
  rw [← he'] at hb
  clear e' he' hi
  obtain ⟨hil, hbe⟩ := List.getElem?_eq_some_iff.1 hb
  obtain ⟨t, e, r⟩ := rep_eraseIndex (hi'.repLive hl) (h := b.hash) (i := i) (by
    unfold lmap; rw [hb]; simp [hlive])
  simp only [e]
  refine ⟨_, rfl, ?_, ?_⟩
  · simp only []
    rw [List.modify_eq_set_getElem?, hb]; rfl
  · unfold Idx
    simp only [hl, Bool.false_eq_true, if_false]
    exact r.congr (fun j => (lmap_set_dead hdk hil j).symm)

theorem compactTombstones_ok {c : Core Tb K V} (hi : Idx dead c) :
    ∃ c', c.compactTombstones dead = some c' ∧
      c'.entries = c.entries.filter (fun b => !dead b.key) ∧ Idx dead c' := by
  unfold Core.compactTombstones
  simp only []
  have hc : Clean dead (c.entries.filter (fun b => !dead b.key)) := by
    intro b hb
    simpa using (List.mem_filter.1 hb).2
  split
  · rename_i hl
    refine ⟨_, rfl, rfl, Idx.ofClean hc ?_⟩
    simp only [hl, if_true]; exact (hi.repLinear hl).1
  · rename_i hl
    have hl : c.linear = false := by simpa using hl
    have r1 : Rep (Tb.reserve (Tb.clear c.indices) (c.entries.filter (fun b => !dead b.key)).length
        (hasher (c.entries.filter (fun b => !dead b.key)))) (fun _ => none) :=
      rep_reserve (rep_clear _) _ _ (by intro i h e; cases e)
    obtain ⟨r2, l2⟩ := rep_nil (K := K) (V := V) r1
    have hcap := Tb.cap_reserve (Tb.clear c.indices)
      (c.entries.filter (fun b => !dead b.key)).length
      (hasher (c.entries.filter (fun b => !dead b.key)))
    obtain ⟨t', e', r3, _, _⟩ := rep_insertBulk (es := c.entries.filter (fun b => !dead b.key)) r2
      (by rw [l2]; rfl) (by simp only [List.length_nil]; omega)
    rw [e']
    refine ⟨_, rfl, rfl, Idx.ofClean hc ?_⟩
    simp only [hl, Bool.false_eq_true, if_false]
    simpa using r3

end Verif.Rubymap
