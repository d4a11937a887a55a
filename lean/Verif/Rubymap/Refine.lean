import Verif.Rubymap.Steps
import Verif.Rubymap.Spec

/-! # The model follows the list specification -/

namespace Verif.Rubymap

variable {Tb : Table} {K V σ ε : Type} {dead : K → Bool} {eqb : K → K → Bool} {hf : K → Nat}
  {eq : KeyEq σ ε K}

/-! ## Keys -/

/-- A vector whose live entries come, one to one, from entries with the same hash and key. -/
theorem Keys.of_inj (law : Lawful eq eqb hf) {es es' : List (Bucket K V)}
    (h : Keys dead eqb hf es) (f : Nat → Nat)
    (inj : ∀ i j, i < es'.length → j < es'.length → f i = f j → i = j)
    (src : ∀ j b, es'[j]? = some b → dead b.key = false →
      ∃ a, es[f j]? = some a ∧ dead a.key = false ∧ a.hash = b.hash ∧ a.key = b.key) :
    Keys dead eqb hf es' := by
  constructor
  · intro b hb hd
    obtain ⟨j, hj⟩ := List.getElem?_of_mem hb
    obtain ⟨a, ha, da, e1, e2⟩ := src j b hj hd
    rw [← e1, ← e2]
    exact h.hash a (List.mem_of_getElem? ha) da
  · rw [List.pairwise_iff_getElem]
    intro i j hi hj hlt d1 d2
    obtain ⟨a, ha, da, _, ea⟩ := src i _ (List.getElem?_eq_getElem hi) d1
    obtain ⟨b, hb, db, _, eb⟩ := src j _ (List.getElem?_eq_getElem hj) d2
    rw [← ea, ← eb]
    by_contra hcon
    have hcon : eqb a.key b.key = true := by simpa using hcon
    have := inj i j hi hj (h.unique law ha hb da db (law.refl _) hcon)
    omega

theorem Keys.sublist {es es' : List (Bucket K V)} (h : Keys dead eqb hf es)
    (s : es'.Sublist es) : Keys dead eqb hf es' :=
  ⟨fun b hb => h.hash b (s.subset hb), h.uniq.sublist s⟩

theorem Keys.perm (law : Lawful eq eqb hf) {es es' : List (Bucket K V)}
    (h : Keys dead eqb hf es) (p : es'.Perm es) : Keys dead eqb hf es' := by
  refine ⟨fun b hb => h.hash b (p.mem_iff.1 hb), ?_⟩
  refine (p.pairwise_iff ?_).2 h.uniq
  intro a b hab d1 d2
  have := hab d2 d1
  by_contra hcon
  have hcon : eqb b.key a.key = true := by simpa using hcon
  rw [law.symm _ _ hcon] at this; cases this

theorem posOf_none {k : K} {es : List (Bucket K V)} (h : posOf dead eqb k es = none) :
    ∀ b ∈ es, dead b.key = false → eqb k b.key = false := by
  intro b hb hd
  have := (List.findIdx?_eq_none_iff.1 h) b hb
  simpa [hd] using this

theorem posOf_some {k : K} {es : List (Bucket K V)} {i : Nat}
    (h : posOf dead eqb k es = some i) :
    ∃ b, es[i]? = some b ∧ dead b.key = false ∧ eqb k b.key = true := by
  obtain ⟨hi, h1, _⟩ := List.findIdx?_eq_some_iff_getElem.1 h
  exact ⟨_, List.getElem?_eq_getElem hi, by simpa using h1⟩

theorem Keys.cons (law : Lawful eq eqb hf) {es : List (Bucket K V)} {k : K} {v : V}
    (h : Keys dead eqb hf es) (hp : posOf dead eqb k es = none) :
    Keys dead eqb hf (⟨hf k, k, v⟩ :: es) := by
  constructor
  · intro b hb hd
    rcases List.mem_cons.1 hb with rfl | hb
    · rfl
    · exact h.hash b hb hd
  · rw [List.pairwise_cons]
    exact ⟨fun b hb _ hd => posOf_none hp b hb hd, h.uniq⟩

theorem Keys.append (law : Lawful eq eqb hf) {es : List (Bucket K V)} {k : K} {v : V}
    (h : Keys dead eqb hf es) (hp : posOf dead eqb k es = none) :
    Keys dead eqb hf (es ++ [⟨hf k, k, v⟩]) :=
  (h.cons (v := v) law hp).perm law (List.perm_append_singleton _ _)

theorem Keys.insertIdx (law : Lawful eq eqb hf) {es : List (Bucket K V)} {k : K} {v : V} {i : Nat}
    (h : Keys dead eqb hf es) (hp : posOf dead eqb k es = none) (hi : i ≤ es.length) :
    Keys dead eqb hf (es.insertIdx i ⟨hf k, k, v⟩) :=
  (h.cons (v := v) law hp).perm law (List.perm_insertIdx _ _ hi)

theorem Keys.setVal (law : Lawful eq eqb hf) {es : List (Bucket K V)}
    (h : Keys dead eqb hf es) (i : Nat) (v : V) : Keys dead eqb hf (setVal es i v) := by
  refine h.of_inj law id (fun _ _ _ _ e => e) ?_
  intro j b hb hd
  unfold Rubymap.setVal at hb
  rw [List.getElem?_modify] at hb
  cases hj : es[j]? with
  | none => rw [hj] at hb; cases hb
  | some a =>
    rw [hj] at hb
    by_cases e : i = j <;> simp [e] at hb <;> subst hb <;> exact ⟨a, hj, hd, rfl, rfl⟩

theorem Keys.tomb (law : Lawful eq eqb hf) {es : List (Bucket K V)} {dk : K} {dv : V}
    (h : Keys dead eqb hf es) (i : Nat) (hdk : dead dk = true) :
    Keys dead eqb hf (es.modify i (fun b => ⟨b.hash, dk, dv⟩)) := by
  refine h.of_inj law id (fun _ _ _ _ e => e) ?_
  intro j b hb hd
  rw [List.getElem?_modify] at hb
  cases hj : es[j]? with
  | none => rw [hj] at hb; cases hb
  | some a =>
    rw [hj] at hb
    by_cases e : i = j
    · simp [e] at hb; subst hb; rw [hdk] at hd; cases hd
    · simp [e] at hb; subst hb; exact ⟨a, hj, hd, rfl, rfl⟩

theorem Keys.swap (law : Lawful eq eqb hf) {es : List (Bucket K V)} {i : Nat}
    (h : Keys dead eqb hf es) (hi : i < es.length) : Keys dead eqb hf (swapRemove es i) := by
  refine h.of_inj law (fun j => if j = i then es.length - 1 else j) ?_ ?_
  · intro a b ha hb e
    rw [swapRemove_length hi] at ha hb
    split_ifs at e <;> omega
  · intro j b hb hd
    rw [swapRemove_getElem? hi] at hb
    by_cases h1 : j + 1 < es.length
    · rw [if_pos h1] at hb
      refine ⟨b, ?_, hd, rfl, rfl⟩
      by_cases h2 : j = i
      · rw [if_pos h2] at hb ⊢; exact hb
      · rw [if_neg h2] at hb ⊢; exact hb
    · rw [if_neg h1] at hb; cases hb

theorem Keys.move (law : Lawful eq eqb hf) {es : List (Bucket K V)} {i j : Nat}
    (h : Keys dead eqb hf es) (hi : i < es.length) (hj : j < es.length) :
    Keys dead eqb hf (moveList es i j) := by
  refine h.of_inj law (fun l => if l = j then i else if i ≤ l ∧ l < j then l + 1
    else if j < l ∧ l ≤ i then l - 1 else l) ?_ ?_
  · intro a b _ _ e
    split_ifs at e <;> omega
  · intro l b hb hd
    rw [moveList_getElem? hi hj] at hb
    refine ⟨b, ?_, hd, rfl, rfl⟩
    rw [← hb]
    split_ifs <;> rfl

theorem Keys.retain {es : List (Bucket K V)} (h : Keys dead eqb hf es)
    (keep : K → V → Option V) : Keys dead eqb hf (es.filterMap
      (fun b => (keep b.key b.val).map (fun v => { b with val := v }))) := by
  constructor
  · intro b hb hd
    obtain ⟨a, ha, e⟩ := List.mem_filterMap.1 hb
    obtain ⟨v, _, rfl⟩ := Option.map_eq_some_iff.1 e
    exact h.hash a ha hd
  · rw [List.pairwise_filterMap]
    refine h.uniq.imp ?_
    intro a b hab a' ha b' hb d1 d2
    obtain ⟨v, _, rfl⟩ := Option.map_eq_some_iff.1 ha
    obtain ⟨w, _, rfl⟩ := Option.map_eq_some_iff.1 hb
    exact hab d1 d2

theorem Keys.replace (law : Lawful eq eqb hf) {es : List (Bucket K V)} {i : Nat} {k : K} {v : V}
    {b : Bucket K V} (h : Keys dead eqb hf es) (hb : es[i]? = some b) (hd : dead b.key = false)
    (he : eqb k b.key = true) :
    Keys dead eqb hf (es.modify i (fun b => { b with key := k, val := v })) := by
  have get : ∀ j, (es.modify i (fun b => { b with key := k, val := v }))[j]? =
      if i = j then some ⟨b.hash, k, v⟩ else es[j]? := by
    intro j
    rw [List.getElem?_modify]
    by_cases e : i = j
    · subst e; simp [hb]
    · simp [e]
  have bh := h.hash b (List.mem_of_getElem? hb) hd
  have no : ∀ j a, es[j]? = some a → dead a.key = false → j ≠ i → eqb k a.key = false := by
    intro j a ha da hne
    by_contra hcon
    exact hne (h.unique law ha hb da hd (by simpa using hcon) he)
  constructor
  · intro a ha da
    obtain ⟨j, hj⟩ := List.getElem?_of_mem ha
    rw [get] at hj
    split at hj
    · cases hj
      simp only []
      rw [bh, law.hash _ _ he]
    · exact h.hash a (List.mem_of_getElem? hj) da
  · rw [List.pairwise_iff_getElem]
    intro x y hx hy hlt
    have ex := get x
    have ey := get y
    rw [List.getElem?_eq_getElem hx] at ex
    rw [List.getElem?_eq_getElem hy] at ey
    generalize (es.modify i (fun b => { b with key := k, val := v }))[x] = A at ex
    generalize (es.modify i (fun b => { b with key := k, val := v }))[y] = B at ey
    intro d1 d2
    by_cases e1 : i = x
    · rw [if_pos e1] at ex
      rw [if_neg (by omega)] at ey
      cases ex
      exact no y B ey.symm d2 (by omega)
    · rw [if_neg e1] at ex
      by_cases e2 : i = y
      · rw [if_pos e2] at ey
        cases ey
        have := no x A ex.symm d1 (by omega)
        by_contra hcon
        have hcon : eqb A.key k = true := by simpa using hcon
        rw [law.symm _ _ hcon] at this; cases this
      · rw [if_neg e2] at ey
        obtain ⟨h1, h1'⟩ := List.getElem?_eq_some_iff.1 ex.symm
        obtain ⟨h2, h2'⟩ := List.getElem?_eq_some_iff.1 ey.symm
        have := List.pairwise_iff_getElem.1 h.uniq x y h1 h2 hlt
        rw [h1', h2'] at this
        exact this d1 d2

/-! ## Contents -/

/-- The pairs of an entry vector. -/
def pairs (es : List (Bucket K V)) : List (K × V) := es.map (fun b => (b.key, b.val))

theorem pairs_get (es : List (Bucket K V)) (i : Nat) :
    (pairs es)[i]? = es[i]?.map (fun b => (b.key, b.val)) := by
  unfold pairs; rw [List.getElem?_map]

theorem pairs_length (es : List (Bucket K V)) : (pairs es).length = es.length := by
  unfold pairs; simp

theorem find_pairs (k : K) (es : List (Bucket K V)) :
    find dead eqb k (pairs es) = posOf dead eqb k es := by
  unfold find pairs posOf
  rw [List.findIdx?_map]; rfl

theorem clean_pairs {es : List (Bucket K V)} (h : ∀ p ∈ pairs es, dead p.1 = false) :
    Clean dead es := by
  intro b hb
  exact h (b.key, b.val) (List.mem_map.2 ⟨b, hb, rfl⟩)

theorem pairs_setVal (es : List (Bucket K V)) (i : Nat) (v : V) :
    pairs (setVal es i v) = (pairs es).modify i (fun p => (p.1, v)) := by
  apply List.ext_getElem?
  intro j
  unfold setVal
  rw [pairs_get, List.getElem?_modify, List.getElem?_modify, pairs_get]
  cases es[j]? with
  | none => rfl
  | some b => by_cases h : i = j <;> simp [h]

theorem pairs_modify (es : List (Bucket K V)) (i : Nat) (f : Bucket K V → Bucket K V) (p : K × V)
    (hf : ∀ b, ((f b).key, (f b).val) = p) :
    pairs (es.modify i f) = (pairs es).set i p := by
  apply List.ext_getElem?
  intro j
  rw [pairs_get, List.getElem?_modify, List.getElem?_set, pairs_get, pairs_length]
  by_cases h : i = j
  · subst h
    cases hb : es[i]? with
    | none =>
      rw [List.getElem?_eq_none_iff] at hb
      simp; omega
    | some b =>
      obtain ⟨hi, _⟩ := List.getElem?_eq_some_iff.1 hb
      simp [hi, hf]
  · simp [h]

theorem pairs_append (a b : List (Bucket K V)) : pairs (a ++ b) = pairs a ++ pairs b := by
  unfold pairs; simp

theorem pairs_eraseIdx (es : List (Bucket K V)) (i : Nat) :
    pairs (es.eraseIdx i) = (pairs es).eraseIdx i := by
  apply List.ext_getElem?
  intro j
  rw [pairs_get, List.getElem?_eraseIdx, List.getElem?_eraseIdx, pairs_get, pairs_get]
  split_ifs <;> rfl

theorem pairs_insertIdx (es : List (Bucket K V)) (i : Nat) (b : Bucket K V) :
    pairs (es.insertIdx i b) = (pairs es).insertIdx i (b.key, b.val) := by
  apply List.ext_getElem?
  intro j
  rw [pairs_get, List.getElem?_insertIdx, List.getElem?_insertIdx, pairs_get, pairs_get,
    pairs_length]
  split_ifs <;> rfl

theorem pairs_swap (es : List (Bucket K V)) (i : Nat) (hi : i < es.length) :
    pairs (swapRemove es i) = swapOut (pairs es) i := by
  unfold swapOut swapRemove
  have : (pairs es).getLast? = es.getLast?.map (fun b => (b.key, b.val)) := by
    unfold pairs; rw [List.getLast?_map]
  rw [this]
  cases hb : es.getLast? with
  | none => rfl
  | some b =>
    simp only [Option.map_some]
    apply List.ext_getElem?
    intro j
    rw [pairs_get, List.getElem?_dropLast, List.getElem?_set, List.getElem?_set,
      List.getElem?_dropLast, List.length_dropLast, pairs_length, pairs_get, List.length_set]
    split_ifs <;> first | rfl | omega

theorem pairs_move (es : List (Bucket K V)) (i j : Nat) :
    pairs (moveList es i j) = moveTo (pairs es) i j := by
  unfold moveTo moveList
  rw [pairs_get]
  cases hb : es[i]? with
  | none => rfl
  | some b => simp only [Option.map_some]; rw [pairs_insertIdx, pairs_eraseIdx]

theorem pairs_sort (es : List (Bucket K V)) (le : K × V → K × V → Bool) :
    pairs (es.mergeSort (fun a b => le (a.key, a.val) (b.key, b.val))) =
      (pairs es).mergeSort le := by
  unfold pairs
  rw [List.map_mergeSort]
  intros; rfl

/-! ## One step -/

/-- What a step must satisfy. -/
structure StepOk (dead : K → Bool) (dk : K) (dv : V) (eq : KeyEq σ ε K) (hf : σ → K → Nat)
    (es : List (Bucket K V)) (op : Op K V) (c' : Core Tb K V) (r : Res ε (Out K V)) : Prop where
  idx : Idx dead c'
  noPanic : r ≠ .panic
  follows : ∀ eqb hf0, Lawful eq eqb hf0 → (∀ s k, hf s k = hf0 k) → Keys dead eqb hf0 es →
    Fresh dead eqb (pairs es) op →
    r = .ok (spec dead dk dv eqb (pairs es) op).2 ∧
    contents c' = (spec dead dk dv eqb (pairs es) op).1 ∧ Keys dead eqb hf0 c'.entries
  raised : ∀ e, r = .raise e → c'.entries = es

theorem mapRes_ne_panic {α : Type} {f : α → Out K V} {r : Res ε α} (h : r ≠ .panic) :
    mapRes f r ≠ .panic := by
  cases r with
  | ok a => simp [mapRes]
  | raise e => simp [mapRes]
  | panic => exact absurd rfl h

/-- Positional operations. -/
theorem stepOk_plain {dk : K} {dv : V} {hf : σ → K → Nat} {es : List (Bucket K V)} {op : Op K V}
    {c' : Core Tb K V} {o : Out K V} (hi : Idx dead c')
    (h : ∀ eqb hf0, Lawful eq eqb hf0 → Keys dead eqb hf0 es → (∀ s k, hf s k = hf0 k) →
      Fresh dead eqb (pairs es) op →
      (spec dead dk dv eqb (pairs es) op) = (pairs c'.entries, o) ∧ Keys dead eqb hf0 c'.entries) :
    StepOk dead dk dv eq hf es op c' (.ok o) where
  idx := hi
  noPanic := by simp
  follows := fun eqb hf0 law hh hk hfr => by
    obtain ⟨h1, h2⟩ := h eqb hf0 law hk hh hfr
    rw [h1]
    exact ⟨rfl, rfl, h2⟩
  raised := by intro e h; cases h

theorem exec_ok {dk : K} {dv : V} {hf : σ → K → Nat} {c : Core Tb K V} (hdk : dead dk = true)
    (hi : Idx dead c) (op : Op K V) (hv : Valid dead (contents c) op) (s : σ) :
    StepOk dead dk dv eq hf c.entries op (exec dead dk dv eq hf c s op).1
      (exec dead dk dv eq hf c s op).2.2 := by
  have hv : Valid dead (pairs c.entries) op := hv
  cases op with
  | get k =>
    have ok := getIndexOf_ok hi eq (hf s k) k s
    refine ⟨hi, mapRes_ne_panic ok.noPanic, ?_, fun _ _ => rfl⟩
    intro eqb hf0 law hh hk _
    refine ⟨?_, rfl, hk⟩
    simp only [exec]
    rw [ok.lawful eqb hf0 law hk (hh s k)]
    simp [mapRes, spec, find_pairs]
  | insert k v =>
    obtain ⟨hi', r, ok, hr⟩ := insertFull_ok hi eq (hf s k) k v s hv
    simp only [exec]
    generalize c.insertFull eq (hf s k) k v s = z at hi' hr ⊢
    obtain ⟨c', s', res⟩ := z
    refine ⟨hi', ?_, ?_, ?_⟩
    · apply mapRes_ne_panic
      rcases r with (_ | i) | e | _ <;> simp only [] at hr
      · rw [hr.1]; simp
      · rw [hr.1]; simp
      · rw [hr.1]; simp
    · intro eqb hf0 law hh hk _
      have := ok.lawful eqb hf0 law hk (hh s k)
      subst this
      simp only [spec, find_pairs]
      cases hp : posOf dead eqb k c.entries with
      | none =>
        rw [hp] at hr
        obtain ⟨rfl, e2⟩ := hr
        refine ⟨by simp [mapRes, pairs_length], ?_, ?_⟩
        · show pairs c'.entries = _
          rw [e2, pairs_append]; rfl
        · rw [e2, hh]; exact hk.append law hp
      | some i =>
        rw [hp] at hr
        obtain ⟨rfl, e2⟩ := hr
        refine ⟨by simp [mapRes, pairs_get, Function.comp_def], ?_, ?_⟩
        · show pairs c'.entries = _
          rw [e2, pairs_setVal]
        · rw [e2]; exact hk.setVal law i v
    · intro e he
      rcases r with (_ | i) | e | _ <;> simp only [] at hr
      · obtain ⟨rfl, _⟩ := hr; cases he
      · obtain ⟨rfl, _⟩ := hr; cases he
      · exact hr.2
  | replace k v =>
    obtain ⟨hi', r, ok, hr⟩ := replaceFull_ok hi eq (hf s k) k v s hv
    simp only [exec]
    generalize c.replaceFull eq (hf s k) k v s = z at hi' hr ⊢
    obtain ⟨c', s', res⟩ := z
    refine ⟨hi', ?_, ?_, ?_⟩
    · apply mapRes_ne_panic
      rcases r with (_ | i) | e | _ <;> simp only [] at hr
      · rw [hr.1]; simp
      · rw [hr.1]; simp
      · rw [hr.1]; simp
    · intro eqb hf0 law hh hk _
      have := ok.lawful eqb hf0 law hk (hh s k)
      subst this
      simp only [spec, find_pairs]
      cases hp : posOf dead eqb k c.entries with
      | none =>
        rw [hp] at hr
        obtain ⟨rfl, e2⟩ := hr
        refine ⟨by simp [mapRes, pairs_length], ?_, ?_⟩
        · show pairs c'.entries = _
          rw [e2, pairs_append]; rfl
        · rw [e2, hh]; exact hk.append law hp
      | some i =>
        rw [hp] at hr
        obtain ⟨rfl, e2⟩ := hr
        obtain ⟨b, hb, hd, he⟩ := posOf_some hp
        refine ⟨by simp [mapRes, pairs_get], ?_, ?_⟩
        · show pairs c'.entries = _
          rw [e2]; exact pairs_modify _ _ _ _ (fun _ => rfl)
        · rw [e2]; exact hk.replace law hb hd he
    · intro e he
      rcases r with (_ | i) | e | _ <;> simp only [] at hr
      · obtain ⟨rfl, _⟩ := hr; cases he
      · obtain ⟨rfl, _⟩ := hr; cases he
      · exact hr.2
  | shiftRemove k =>
    obtain ⟨hi', r, ok, hr⟩ := shiftRemoveFull_ok hi (clean_pairs hv) eq (hf s k) k s
    simp only [exec]
    generalize c.shiftRemoveFull eq (hf s k) k s = z at hi' hr ⊢
    obtain ⟨c', s', res⟩ := z
    refine ⟨hi', ?_, ?_, ?_⟩
    · apply mapRes_ne_panic
      rcases r with (_ | i) | e | _ <;> simp only [] at hr
      · rw [hr.1]; simp
      · rw [hr.1]; simp
      · rw [hr.1]; simp
    · intro eqb hf0 law hh hk _
      have := ok.lawful eqb hf0 law hk (hh s k)
      subst this
      simp only [spec, find_pairs]
      cases hp : posOf dead eqb k c.entries with
      | none =>
        rw [hp] at hr
        obtain ⟨rfl, e2⟩ := hr
        refine ⟨rfl, ?_, ?_⟩
        · show pairs c'.entries = _
          rw [e2]
        · rw [e2]; exact hk
      | some i =>
        rw [hp] at hr
        obtain ⟨rfl, e2⟩ := hr
        refine ⟨by simp [mapRes, pairs_get, Function.comp_def], ?_, ?_⟩
        · show pairs c'.entries = _
          rw [e2, pairs_eraseIdx]
        · rw [e2]; exact hk.sublist (List.eraseIdx_sublist _ _)
    · intro e he
      rcases r with (_ | i) | e | _ <;> simp only [] at hr
      · obtain ⟨rfl, _⟩ := hr; cases he
      · obtain ⟨rfl, _⟩ := hr; cases he
      · exact hr.2
  | swapRemove k =>
    obtain ⟨hi', r, ok, hr⟩ := swapRemoveFull_ok hi (clean_pairs hv) eq (hf s k) k s
    simp only [exec]
    generalize c.swapRemoveFull eq (hf s k) k s = z at hi' hr ⊢
    obtain ⟨c', s', res⟩ := z
    refine ⟨hi', ?_, ?_, ?_⟩
    · apply mapRes_ne_panic
      rcases r with (_ | i) | e | _ <;> simp only [] at hr
      · rw [hr.1]; simp
      · rw [hr.1]; simp
      · rw [hr.1]; simp
    · intro eqb hf0 law hh hk _
      have := ok.lawful eqb hf0 law hk (hh s k)
      subst this
      simp only [spec, find_pairs]
      cases hp : posOf dead eqb k c.entries with
      | none =>
        rw [hp] at hr
        obtain ⟨rfl, e2⟩ := hr
        refine ⟨rfl, ?_, ?_⟩
        · show pairs c'.entries = _
          rw [e2]
        · rw [e2]; exact hk
      | some i =>
        rw [hp] at hr
        obtain ⟨rfl, e2⟩ := hr
        obtain ⟨b, hb, _, _⟩ := posOf_some hp
        obtain ⟨hil, _⟩ := List.getElem?_eq_some_iff.1 hb
        refine ⟨by simp [mapRes, pairs_get, Function.comp_def], ?_, ?_⟩
        · show pairs c'.entries = _
          rw [e2, pairs_swap _ _ hil]
        · rw [e2]; exact hk.swap law hil
    · intro e he
      rcases r with (_ | i) | e | _ <;> simp only [] at hr
      · obtain ⟨rfl, _⟩ := hr; cases he
      · obtain ⟨rfl, _⟩ := hr; cases he
      · exact hr.2
  | shiftRemoveAt i =>
    obtain ⟨c', e, he, hi'⟩ := shiftRemoveIndex_ok hi (clean_pairs hv) i
    simp only [exec, e, lift]
    refine stepOk_plain hi' (fun eqb hf0 law hk _ _ => ⟨?_, ?_⟩)
    · simp only [spec]; rw [he, pairs_eraseIdx, pairs_get]
    · rw [he]; exact hk.sublist (List.eraseIdx_sublist _ _)
  | swapRemoveAt i =>
    obtain ⟨hcl, hil⟩ := hv
    rw [pairs_length] at hil
    obtain ⟨c', e, he, hi'⟩ := swapRemoveIndex_ok hi (clean_pairs hcl) hil
    simp only [exec, e, lift]
    refine stepOk_plain hi' (fun eqb hf0 law hk _ _ => ⟨?_, ?_⟩)
    · simp only [spec]; rw [he, pairs_swap _ _ hil, pairs_get]
    · rw [he]; exact hk.swap law hil
  | pop =>
    obtain ⟨c', e, he, hi'⟩ := pop_ok hi (clean_pairs hv)
    simp only [exec, e, lift]
    refine stepOk_plain hi' (fun eqb hf0 law hk _ _ => ⟨?_, ?_⟩)
    · simp only [spec]; rw [he]; unfold pairs; rw [List.map_dropLast, List.getLast?_map]
    · rw [he]; exact hk.sublist (List.dropLast_sublist _)
  | move i j =>
    obtain ⟨hcl, hil, hjl, hmax⟩ := hv
    rw [pairs_length] at hil hjl hmax
    obtain ⟨c', e, he, hi'⟩ := moveIndex_ok hi (clean_pairs hcl) hil hjl (by unfold USIZE_MAX; omega)
    simp only [exec, e, lift, Option.map_some]
    refine stepOk_plain hi' (fun eqb hf0 law hk _ _ => ⟨?_, ?_⟩)
    · simp only [spec]; rw [he, pairs_move]
    · rw [he]; exact hk.move law hil hjl
  | reverse =>
    refine stepOk_plain (reverse_ok hi (clean_pairs hv)) (fun eqb hf0 law hk _ _ => ⟨?_, ?_⟩)
    · simp [spec, exec, Core.reverse, pairs]
    · exact hk.perm law (List.reverse_perm _)
  | clear =>
    refine stepOk_plain (clear_ok c) (fun eqb hf0 law hk _ _ => ⟨rfl, ?_⟩)
    exact hk.sublist (List.nil_sublist _)
  | truncate n =>
    obtain ⟨c', e, he, hi'⟩ := truncate_ok hi (clean_pairs hv) n
    simp only [exec, e, lift, Option.map_some]
    refine stepOk_plain hi' (fun eqb hf0 law hk _ _ => ⟨?_, ?_⟩)
    · simp only [spec]; rw [he]; unfold pairs; rw [List.map_take]
    · rw [he]; exact hk.sublist (List.take_sublist _ _)
  | drain i j =>
    obtain ⟨hcl, h1, h2⟩ := hv
    rw [pairs_length] at h2
    obtain ⟨c', e, he, hi'⟩ := drain_ok hi (clean_pairs hcl) h1 h2
    simp only [exec, e, lift, Option.map_some]
    refine stepOk_plain hi' (fun eqb hf0 law hk _ _ => ⟨?_, ?_⟩)
    · simp only [spec]; rw [he]; unfold pairs; rw [List.map_append, List.map_take, List.map_drop]
    · rw [he]
      apply hk.sublist
      conv_rhs => rw [← List.take_append_drop i c.entries]
      refine List.Sublist.append (List.Sublist.refl _) ?_
      exact List.drop_sublist_drop_left _ h1
  | splitHead n =>
    obtain ⟨hcl, h1⟩ := hv
    rw [pairs_length] at h1
    obtain ⟨a, b, e, he, _, hi', _⟩ := splitOff_ok hi (clean_pairs hcl) h1
    simp only [exec, e, lift]
    refine stepOk_plain hi' (fun eqb hf0 law hk _ _ => ⟨?_, ?_⟩)
    · simp only [spec]; rw [he]; unfold pairs; rw [List.map_take]
    · rw [he]; exact hk.sublist (List.take_sublist _ _)
  | splitTail n =>
    obtain ⟨hcl, h1⟩ := hv
    rw [pairs_length] at h1
    obtain ⟨a, b, e, _, he, _, hi'⟩ := splitOff_ok hi (clean_pairs hcl) h1
    simp only [exec, e, lift, Option.map_some]
    refine stepOk_plain hi' (fun eqb hf0 law hk _ _ => ⟨?_, ?_⟩)
    · simp only [spec]; rw [he]; unfold pairs; rw [List.map_drop]
    · rw [he]; exact hk.sublist (List.drop_sublist _ _)
  | retain keep =>
    obtain ⟨c', e, he, hi'⟩ := retain_ok hi (clean_pairs hv) keep
    simp only [exec, e, lift, Option.map_some]
    refine stepOk_plain hi' (fun eqb hf0 law hk _ _ => ⟨?_, ?_⟩)
    · simp only [spec]; rw [he]; unfold pairs
      rw [List.filterMap_map, List.map_filterMap]
      congr 2
      funext b
      simp [Function.comp_def]
    · rw [he]; exact hk.retain keep
  | sort le =>
    have hp := List.mergeSort_perm c.entries (fun a b => le (a.key, a.val) (b.key, b.val))
    obtain ⟨c', e, he, hi'⟩ := withEntries_ok hi (clean_pairs hv) hp
    simp only [exec, e, lift, Option.map_some]
    refine stepOk_plain hi' (fun eqb hf0 law hk _ _ => ⟨?_, ?_⟩)
    · simp only [spec]; rw [he, pairs_sort]
    · rw [he]; exact hk.perm law hp
  | shiftInsert i k v =>
    obtain ⟨hcl, hil, hdk⟩ := hv
    rw [pairs_length] at hil
    obtain ⟨c', e, he, hi'⟩ := shiftInsertUnique_ok hi (clean_pairs hcl) hil (hf s k) k v hdk
    simp only [exec, e, lift, Option.map_some]
    refine stepOk_plain hi' (fun eqb hf0 law hk hh hfr => ⟨?_, ?_⟩)
    · simp only [spec]; rw [he, pairs_insertIdx]
    · rw [he, hh]
      simp only [Fresh, find_pairs] at hfr
      exact hk.insertIdx law hfr hil
  | tombstone k =>
    obtain ⟨hi', r, ok, hr⟩ := tombstoneRemoveFull_ok hi eq (hf s k) k dk dv s hdk
    simp only [exec]
    generalize c.tombstoneRemoveFull eq (hf s k) k dk dv s = z at hi' hr ⊢
    obtain ⟨c', s', res⟩ := z
    refine ⟨hi', ?_, ?_, ?_⟩
    · apply mapRes_ne_panic
      rcases r with (_ | i) | e | _ <;> simp only [] at hr
      · rw [hr.1]; simp
      · rw [hr.1]; simp
      · rw [hr.1]; simp
    · intro eqb hf0 law hh hk _
      have := ok.lawful eqb hf0 law hk (hh s k)
      subst this
      simp only [spec, find_pairs]
      cases hp : posOf dead eqb k c.entries with
      | none =>
        rw [hp] at hr
        obtain ⟨rfl, e2⟩ := hr
        refine ⟨rfl, ?_, ?_⟩
        · show pairs c'.entries = _
          rw [e2]
        · rw [e2]; exact hk
      | some i =>
        rw [hp] at hr
        obtain ⟨rfl, e2⟩ := hr
        refine ⟨by simp [mapRes, pairs_get, Function.comp_def], ?_, ?_⟩
        · show pairs c'.entries = _
          rw [e2]; exact pairs_modify _ _ _ _ (fun _ => rfl)
        · rw [e2]; exact hk.tomb law i hdk
    · intro e he
      rcases r with (_ | i) | e | _ <;> simp only [] at hr
      · obtain ⟨rfl, _⟩ := hr; cases he
      · obtain ⟨rfl, _⟩ := hr; cases he
      · exact hr.2
  | tombstoneAt i =>
    obtain ⟨p, hp, hd⟩ := hv
    rw [pairs_get] at hp
    obtain ⟨b, hb, rfl⟩ := Option.map_eq_some_iff.1 hp
    obtain ⟨c', e, he, hi'⟩ := tombstoneIndex_ok hi hb hd dk dv hdk
    simp only [exec, e, lift]
    refine stepOk_plain hi' (fun eqb hf0 law hk _ _ => ⟨?_, ?_⟩)
    · simp only [spec]; rw [he, pairs_modify _ _ _ (dk, dv) (fun _ => rfl), pairs_get, hb]; rfl
    · rw [he]; exact hk.tomb law i hdk
  | compact =>
    obtain ⟨c', e, he, hi'⟩ := compactTombstones_ok hi
    simp only [exec, e, lift, Option.map_some]
    refine stepOk_plain hi' (fun eqb hf0 law hk _ _ => ⟨?_, ?_⟩)
    · simp only [spec]; rw [he]; unfold pairs; rw [List.filter_map]; rfl
    · rw [he]; exact hk.sublist List.filter_sublist

theorem withCapacity_ok (n : Nat) : Idx (Tb := Tb) (V := V) dead (Core.withCapacity n) := by
  unfold Core.withCapacity
  split
  · exact Idx.ofClean (by intro b hb; cases hb) (by simpa using rep_empty)
  · refine Idx.ofClean (by intro b hb; cases hb) ?_
    simp only [Bool.false_eq_true, if_false]
    exact (rep_nil (rep_reserve rep_empty _ _ (by intro i h e; cases e))).1

theorem run_ok {dk : K} {dv : V} {hf : σ → K → Nat} {hf0 : K → Nat} (hdk : dead dk = true)
    (law : Lawful eq eqb hf0) (hh : ∀ s k, hf s k = hf0 k) :
    ∀ (ops : List (Op K V)) (c : Core Tb K V) (s : σ), Idx dead c → Keys dead eqb hf0 c.entries →
      ValidAll dead dk dv eqb (contents c) ops →
      ∃ c' s', run dead dk dv eq hf c s ops =
          some (c', s', (specRun dead dk dv eqb (contents c) ops).2) ∧
        contents c' = (specRun dead dk dv eqb (contents c) ops).1 ∧ Idx dead c' ∧
        Keys dead eqb hf0 c'.entries
  | [], c, s, hi, hk, _ => ⟨c, s, rfl, rfl, hi, hk⟩
  | op :: ops, c, s, hi, hk, hv => by
    obtain ⟨hv1, hv2, hv3⟩ := hv
    have st := exec_ok (eq := eq) (dk := dk) (dv := dv) (hf := hf) hdk hi op hv1 s
    obtain ⟨e1, e2, hk'⟩ := st.follows eqb hf0 law hh hk hv2
    have e2 : contents _ = (spec dead dk dv eqb (contents c) op).1 := e2
    rw [← e2] at hv3
    obtain ⟨c', s', r1, r2, r3, r4⟩ := run_ok hdk law hh ops _
      (exec dead dk dv eq hf c s op).2.1 st.idx hk' hv3
    refine ⟨c', s', ?_, ?_, r3, r4⟩
    · rw [run]
      rcases hx : exec dead dk dv eq hf c s op with ⟨c1, s1, o⟩
      rw [hx] at e1 r1 e2
      simp only at e1 e2 r1
      subst e1
      simp only [r1, Option.map_some, specRun]
      rw [← e2]; rfl
    · rw [r2, e2]; rfl

end Verif.Rubymap
