import Verif.ClassVar.Model
import Mathlib.Tactic.SplitIfs
import Mathlib.Tactic.ByContra
import Mathlib.Data.List.Nodup

/-! # C142: class variables -/

namespace Verif.ClassVar

variable {V : Type}

theorem lookup_put_self (n : String) (v : V) (l : List (String × V)) :
    lookup n (put n v l) = some v := by
  induction l with
  | nil => simp [put, lookup]
  | cons p r ih =>
    obtain ⟨m, w⟩ := p
    by_cases h : m = n
    · simp [put, lookup, h]
    · simp [put, lookup, h, ih]

theorem lookup_put_other {n m : String} (v : V) (l : List (String × V)) (h : m ≠ n) :
    lookup m (put n v l) = lookup m l := by
  induction l with
  | nil => simp [put, lookup, Ne.symm h]
  | cons p r ih =>
    obtain ⟨a, w⟩ := p
    by_cases ha : a = n
    · subst ha; simp [put, lookup, Ne.symm h]
    · simp [put, lookup, ha, ih]

theorem frontLoop_setAt (s : St V) (k : Nat) (n : String) (v : V) (f j : Nat) :
    frontLoop (setAt s k n v) f j = frontLoop s f j := by
  induction f generalizing j with
  | zero => rfl
  | succ f ih =>
    have h : ((setAt s k n v).cls j).attached = (s.cls j).attached := by
      simp only [setAt]; split_ifs <;> rfl
    simp only [frontLoop, h]
    cases (s.cls j).attached <;> simp [ih]

theorem front_setAt (s : St V) (k : Nat) (n : String) (v : V) (j : Nat) :
    front (setAt s k n v) j = front s j := frontLoop_setAt s k n v _ j

theorem own_setAt (s : St V) (k : Nat) (n m : String) (v : V) (j : Nat) :
    own (setAt s k n v) m j = if j = front s k ∧ m = n then some v else own s m j := by
  simp only [own, setAt]
  by_cases hj : j = front s k
  · by_cases hm : m = n
    · subst hm; simp [hj, lookup_put_self]
    · simp [hj, hm, lookup_put_other]
  · simp [hj]

theorem getLoop_some (s : St V) (n : String) (u : Nat) (w : V) (l : List Nat) :
    getLoop s n (some (u, w)) l = .ok (some (u, w)) ∧ (∀ j ∈ l, (own s n j).isSome → j = u) ∨
    getLoop s n (some (u, w)) l = .error .overtaken ∧ (∃ j ∈ l, (own s n j).isSome ∧ j ≠ u) := by
  induction l with
  | nil => left; simp [getLoop]
  | cons k r ih =>
    cases h : own s n k with
    | none =>
      rcases ih with ⟨e, hr⟩ | ⟨e, j, hj, hs, hu⟩
      · left
        refine ⟨by simp [getLoop, h, e], ?_⟩
        intro j hj hs
        rcases List.mem_cons.1 hj with rfl | hj
        · rw [h] at hs; exact absurd hs (by simp)
        · exact hr j hj hs
      · right; exact ⟨by simp [getLoop, h, e], j, List.mem_cons_of_mem _ hj, hs, hu⟩
    | some v =>
      by_cases hk : u = k
      · rcases ih with ⟨e, hr⟩ | ⟨e, j, hj, hs, hu⟩
        · left
          refine ⟨by simp [getLoop, h, hk]; rw [← hk]; exact e, ?_⟩
          intro j hj hs
          rcases List.mem_cons.1 hj with rfl | hj
          · exact hk.symm
          · exact hr j hj hs
        · right
          exact ⟨by simp [getLoop, h, hk]; rw [← hk]; exact e, j, List.mem_cons_of_mem _ hj, hs, hu⟩
      · right
        exact ⟨by simp [getLoop, h, hk], k, List.mem_cons_self, by simp [h], fun e => hk e.symm⟩

theorem getLoop_none (s : St V) (n : String) (l : List Nat) :
    getLoop s n none l = .ok none ∧ (∀ j ∈ l, own s n j = none) ∨
    (∃ u w, getLoop s n none l = .ok (some (u, w)) ∧ u ∈ l ∧ own s n u = some w ∧
      ∀ j ∈ l, (own s n j).isSome → j = u) ∨
    getLoop s n none l = .error .overtaken ∧
      (∃ i ∈ l, ∃ j ∈ l, i ≠ j ∧ (own s n i).isSome ∧ (own s n j).isSome) := by
  induction l with
  | nil => left; simp [getLoop]
  | cons k r ih =>
    cases h : own s n k with
    | none =>
      have e0 : getLoop s n none (k :: r) = getLoop s n none r := by simp [getLoop, h]
      rw [e0]
      rcases ih with ⟨e, hr⟩ | ⟨u, w, e, hu, hw, hr⟩ | ⟨e, i, hi, j, hj, hij, h1, h2⟩
      · left
        refine ⟨e, fun j hj => ?_⟩
        rcases List.mem_cons.1 hj with rfl | hj
        · exact h
        · exact hr j hj
      · right; left
        refine ⟨u, w, e, List.mem_cons_of_mem _ hu, hw, fun j hj hs => ?_⟩
        rcases List.mem_cons.1 hj with rfl | hj
        · rw [h] at hs; exact absurd hs (by simp)
        · exact hr j hj hs
      · right; right
        exact ⟨e, i, List.mem_cons_of_mem _ hi, j, List.mem_cons_of_mem _ hj, hij, h1, h2⟩
    | some v =>
      have e0 : getLoop s n none (k :: r) = getLoop s n (some (k, v)) r := by simp [getLoop, h]
      rw [e0]
      right
      rcases getLoop_some s n k v r with ⟨e, hr⟩ | ⟨e, j, hj, hs, hu⟩
      · left
        refine ⟨k, v, e, List.mem_cons_self, h, fun j hj hs => ?_⟩
        rcases List.mem_cons.1 hj with rfl | hj
        · rfl
        · exact hr j hj hs
      · right
        exact ⟨e, k, List.mem_cons_self, j, List.mem_cons_of_mem _ hj, fun e => hu e.symm,
          by simp [h], hs⟩

/-! ## Reading -/

/-- **C142.** Reading a class variable gives `v` exactly when one class of the ancestors, and only
one, has it, with the value `v`. -/
theorem C142_read (s : St V) (k : Nat) (n : String) (v : V) :
    get s k n = .ok v ↔ ∃ j ∈ s.anc (front s k), own s n j = some v ∧
      ∀ i ∈ s.anc (front s k), (own s n i).isSome → i = j := by
  unfold get
  rcases getLoop_none s n (s.anc (front s k)) with ⟨e, hr⟩ | ⟨u, w, e, hu, hw, hr⟩ |
    ⟨e, i, hi, j, hj, hij, h1, h2⟩
  · rw [e]
    refine ⟨fun h => by simp at h, ?_⟩
    rintro ⟨j, hj, hv, _⟩
    rw [hr j hj] at hv; exact absurd hv (by simp)
  · rw [e]
    simp only [Except.ok.injEq]
    refine ⟨fun h => ⟨u, hu, h ▸ hw, hr⟩, ?_⟩
    rintro ⟨j, hj, hv, _⟩
    have := hr j hj (by simp [hv])
    subst this
    rw [hw] at hv; exact Option.some.inj hv
  · rw [e]
    refine ⟨fun h => by simp at h, ?_⟩
    rintro ⟨q, _, _, hq⟩
    exact absurd ((hq i hi h1).trans (hq j hj h2).symm) hij

/-- **C142.** It raises NameError exactly when no ancestor has it. -/
theorem C142_uninitialized (s : St V) (k : Nat) (n : String) :
    get s k n = .error .name ↔ ∀ j ∈ s.anc (front s k), own s n j = none := by
  unfold get
  rcases getLoop_none s n (s.anc (front s k)) with ⟨e, hr⟩ | ⟨u, w, e, hu, hw, hr⟩ |
    ⟨e, i, hi, j, hj, hij, h1, h2⟩
  · rw [e]; exact ⟨fun _ => hr, fun _ => rfl⟩
  · rw [e]
    refine ⟨fun h => by simp at h, fun h => ?_⟩
    rw [h u hu] at hw; exact absurd hw (by simp)
  · rw [e]
    refine ⟨fun h => by simp at h, fun h => ?_⟩
    rw [h i hi] at h1; exact absurd h1 (by simp)

/-- **C142.** It raises RuntimeError ("overtaken") exactly when two different ancestors have it. -/
theorem C142_overtaken (s : St V) (k : Nat) (n : String) :
    get s k n = .error .overtaken ↔ ∃ i ∈ s.anc (front s k), ∃ j ∈ s.anc (front s k),
      i ≠ j ∧ (own s n i).isSome ∧ (own s n j).isSome := by
  unfold get
  rcases getLoop_none s n (s.anc (front s k)) with ⟨e, hr⟩ | ⟨u, w, e, hu, hw, hr⟩ |
    ⟨e, h⟩
  · rw [e]
    refine ⟨fun h => by simp at h, ?_⟩
    rintro ⟨i, hi, _, _, _, h1, _⟩
    rw [hr i hi] at h1; exact absurd h1 (by simp)
  · rw [e]
    refine ⟨fun h => by simp at h, ?_⟩
    rintro ⟨i, hi, j, hj, hij, h1, h2⟩
    exact absurd ((hr i hi h1).trans (hr j hj h2).symm) hij
  · rw [e]; exact ⟨fun _ => h, fun _ => rfl⟩

/-! ## Assigning -/

theorem front_of_plain (s : St V) (k : Nat) (h : (s.cls k).attached = none) : front s k = k := by
  simp [front, frontLoop, h]

/-- Ancestors of classes that are no singleton classes are none either, and a class is its own
ancestor. -/
structure Wf (s : St V) : Prop where
  self : ∀ k, k ∈ s.anc k
  plain : ∀ k, (s.cls k).attached = none → ∀ j ∈ s.anc k, (s.cls j).attached = none

/-- The class an assignment in `k` writes to: the first ancestor that has the variable, or `k`. -/
theorem target_spec (s : St V) (w : Wf s) (k : Nat) (hk : (s.cls k).attached = none) (n : String) :
    (∃ t, t ∈ s.anc k ∧ search s k n = some t ∧ (own s n t).isSome ∧ front s t = t) ∨
    (search s k n = none ∧ (∀ j ∈ s.anc k, own s n j = none)) := by
  unfold search
  cases h : (s.anc k).find? (fun j => (own s n j).isSome) with
  | some t =>
    left
    have hm := List.mem_of_find?_eq_some h
    have hs := List.find?_some h
    exact ⟨t, hm, rfl, hs, front_of_plain s t (w.plain k hk t hm)⟩
  | none =>
    right
    refine ⟨rfl, fun j hj => ?_⟩
    have := List.find?_eq_none.1 h j hj
    simpa using this

/-- **C142.** After `@@x = v` the class reads `v`, and so does every class for which the class that
has the variable is the only one among its ancestors.  Missing: singleton classes (see
`C142_singleton_set_fails`) and variables that are overtaken (`C142_set_overtaken_fails`). -/
theorem C142_assign_partial (s : St V) (w : Wf s) (k : Nat) (hk : (s.cls k).attached = none)
    (n : String) (v : V) (ho : get s k n ≠ .error .overtaken) :
    get (assign s k n v) k n = .ok v ∧
    ∀ d, (∃ t ∈ s.anc k, t ∈ s.anc (front s d) ∧ (own s n t).isSome) →
      get s d n ≠ .error .overtaken → get (assign s k n v) d n = .ok v := by
  have fk := front_of_plain s k hk
  rcases target_spec s w k hk n with ⟨t, ht, es, hs, ft⟩ | ⟨es, hno⟩
  · have ea : assign s k n v = setAt s t n v := by simp [assign, es]
    have key : ∀ d, t ∈ s.anc (front s d) → get s d n ≠ .error .overtaken →
        get (setAt s t n v) d n = .ok v := by
      intro d hd hov
      rw [C142_read, front_setAt]
      refine ⟨t, hd, by simp [own_setAt, ft], fun i hi h => ?_⟩
      by_contra hne
      refine hov ((C142_overtaken s d n).2 ⟨i, hi, t, hd, hne, ?_, hs⟩)
      rw [own_setAt, ft] at h
      simpa [hne] using h
    rw [ea]
    refine ⟨key k (fk.symm ▸ ht) ho, ?_⟩
    rintro d ⟨t', ht', hd, hs'⟩ hov
    have : t' = t := by
      by_contra hne
      exact ho ((C142_overtaken s k n).2 ⟨t', fk.symm ▸ ht', t, fk.symm ▸ ht, hne, hs', hs⟩)
    subst this
    exact key d hd hov
  · have ea : assign s k n v = setAt s k n v := by simp [assign, es]
    rw [ea]
    refine ⟨?_, ?_⟩
    · rw [C142_read, front_setAt, fk]
      refine ⟨k, w.self k, by simp [own_setAt, fk], fun i hi h => ?_⟩
      by_contra hne
      have hi' : i ∈ s.anc k := hi
      rw [own_setAt, fk, hno i hi'] at h
      simp [hne] at h
    · rintro d ⟨t, ht, _, hs⟩ _
      rw [hno t ht] at hs; exact absurd hs (by simp)

/-- **C142.** An assignment changes no other variable of any class, and this one only for classes that
have the class written to among their ancestors: an ancestor that had it, else the class itself. -/
theorem C142_frame (s : St V) (w : Wf s) (k : Nat) (hk : (s.cls k).attached = none) (n : String) (v : V) :
    (∀ d m, m ≠ n → get (assign s k n v) d m = get s d m) ∧
    ∃ t ∈ s.anc k, ((own s n t).isSome ∨ t = k ∧ ∀ j ∈ s.anc k, own s n j = none) ∧
      ∀ d, t ∉ s.anc (front s d) → get (assign s k n v) d n = get s d n := by
  have aux : ∀ t, front s t = t → ∀ d m, (m ≠ n ∨ t ∉ s.anc (front s d)) →
      get (setAt s t n v) d m = get s d m := by
    intro t ft d m h
    have hl : ∀ l res, (m ≠ n ∨ t ∉ l) → getLoop (setAt s t n v) m res l = getLoop s m res l := by
      intro l
      induction l with
      | nil => intro res _; rfl
      | cons a r ih =>
        intro res hh
        have ho : own (setAt s t n v) m a = own s m a := by
          rw [own_setAt, ft]
          rcases hh with hh | hh
          · simp [hh]
          · have : a ≠ t := fun e => hh (by simp [e])
            simp [this]
        have hr : m ≠ n ∨ t ∉ r := by
          rcases hh with hh | hh
          · exact .inl hh
          · exact .inr (fun e => hh (List.mem_cons_of_mem _ e))
        simp only [getLoop, ho, ih _ hr]
    have e : (setAt s t n v).anc (front (setAt s t n v) d) = s.anc (front s d) := by
      rw [front_setAt]; rfl
    unfold get
    rw [e, hl _ _ h]
  rcases target_spec s w k hk n with ⟨t, ht, es, hs, ft⟩ | ⟨es, hno⟩
  · have ea : assign s k n v = setAt s t n v := by simp [assign, es]
    rw [ea]
    exact ⟨fun d m h => aux t ft d m (.inl h), t, ht, .inl hs, fun d h => aux t ft d n (.inr h)⟩
  · have fk := front_of_plain s k hk
    have ea : assign s k n v = setAt s k n v := by simp [assign, es]
    rw [ea]
    exact ⟨fun d m h => aux k fk d m (.inl h), k, w.self k, .inr ⟨rfl, hno⟩,
      fun d h => aux k fk d n (.inr h)⟩

/-! ## Listing -/

theorem addNames_spec (l : List (String × V)) (seen : List String) (hn : seen.Nodup) :
    (addNames seen l).Nodup ∧ seen <+: addNames seen l ∧
    ∀ n, n ∈ addNames seen l ↔ n ∈ seen ∨ (lookup n l).isSome := by
  induction l generalizing seen with
  | nil => exact ⟨hn, List.prefix_refl _, by simp [addNames, lookup]⟩
  | cons p r ih =>
    obtain ⟨a, w⟩ := p
    by_cases h : a ∈ seen
    · have e : addNames seen ((a, w) :: r) = addNames seen r := by simp [addNames, h]
      rw [e]
      obtain ⟨h1, h2, h3⟩ := ih seen hn
      refine ⟨h1, h2, fun n => ?_⟩
      rw [h3]
      by_cases ha : a = n
      · subst ha; simp [h, lookup]
      · simp [lookup, ha]
    · have e : addNames seen ((a, w) :: r) = addNames (seen ++ [a]) r := by simp [addNames, h]
      rw [e]
      have hn' : (seen ++ [a]).Nodup := by
        rw [List.nodup_append]
        refine ⟨hn, by simp, ?_⟩
        intro x hx y hy
        simp at hy
        subst hy
        exact fun e => h (e ▸ hx)
      obtain ⟨h1, h2, h3⟩ := ih (seen ++ [a]) hn'
      refine ⟨h1, (List.prefix_append seen [a]).trans h2, fun n => ?_⟩
      rw [h3]
      by_cases ha : a = n
      · subst ha; simp [lookup]
      · simp [lookup, ha, Ne.symm ha]

theorem foldNames_spec (s : St V) (l : List Nat) (seen : List String) (hn : seen.Nodup) :
    (l.foldl (fun seen j => addNames seen (s.cls j).cvars) seen).Nodup ∧
    seen <+: l.foldl (fun seen j => addNames seen (s.cls j).cvars) seen ∧
    ∀ n, n ∈ l.foldl (fun seen j => addNames seen (s.cls j).cvars) seen ↔
      n ∈ seen ∨ ∃ j ∈ l, (own s n j).isSome := by
  induction l generalizing seen with
  | nil => simp [hn]
  | cons a r ih =>
    simp only [List.foldl_cons]
    obtain ⟨h1, h2, h3⟩ := addNames_spec (s.cls a).cvars seen hn
    obtain ⟨i1, i2, i3⟩ := ih _ h1
    refine ⟨i1, h2.trans i2, fun n => ?_⟩
    rw [i3, h3]
    simp [own, or_assoc]

theorem addNames_nodup (l : List (String × V)) (hn : (l.map Prod.fst).Nodup) (seen : List String)
    (hd : ∀ n ∈ seen, n ∉ l.map Prod.fst) : addNames seen l = seen ++ l.map Prod.fst := by
  induction l generalizing seen with
  | nil => simp [addNames]
  | cons p r ih =>
    obtain ⟨a, w⟩ := p
    simp only [List.map_cons, List.nodup_cons] at hn
    have h : a ∉ seen := fun h => hd a h (by simp)
    have e : addNames seen ((a, w) :: r) = addNames (seen ++ [a]) r := by simp [addNames, h]
    rw [e, ih hn.2]
    · simp
    · intro n hm
      rcases List.mem_append.1 hm with hm | hm
      · intro h'; exact hd n hm (by simp only [List.map_cons]; exact List.mem_cons_of_mem _ h')
      · simp at hm; subst hm; exact hn.1

/-- **C142.** `class_variables` lists, once each, the variables some ancestor has; the first ancestor's
own come first, in the order they were defined.  With `false` only those of the class itself. -/
theorem C142_names (s : St V) (k : Nat) :
    (classVariables s k true).Nodup ∧
    (∀ n, n ∈ classVariables s k true ↔ ∃ j ∈ s.anc (front s k), (own s n j).isSome) ∧
    ∀ c r, s.anc (front s k) = c :: r → ((s.cls c).cvars.map Prod.fst).Nodup →
      classVariables s k false = (s.cls c).cvars.map Prod.fst ∧
      (s.cls c).cvars.map Prod.fst <+: classVariables s k true := by
  obtain ⟨h1, _, h3⟩ := foldNames_spec s (s.anc (front s k)) [] (by simp)
  refine ⟨h1, fun n => by simpa [classVariables] using h3 n, ?_⟩
  intro c r hc hn
  have e := addNames_nodup (s.cls c).cvars hn [] (by simp)
  refine ⟨by simp [classVariables, hc, e], ?_⟩
  have := (foldNames_spec s r ((s.cls c).cvars.map Prod.fst) hn).2.1
  simpa [classVariables, hc, e] using this

/-- **C142.** `class_variable_defined?` (and `defined?`) agrees with `class_variables`.  Missing:
overtaken variables (`C142_defined_fails`). -/
theorem C142_defined_partial (s : St V) (k : Nat) (n : String) (ho : get s k n ≠ .error .overtaken) :
    isDefined s k n = true ↔ n ∈ classVariables s k true := by
  rw [(C142_names s k).2.1]
  unfold isDefined
  cases h : get s k n with
  | ok v =>
    obtain ⟨j, hj, hv, _⟩ := (C142_read s k n v).1 h
    simp only [true_iff]
    exact ⟨j, hj, by simp [hv]⟩
  | error e =>
    simp only [Bool.false_eq_true, false_iff]
    rintro ⟨j, hj, hs⟩
    cases e with
    | name => rw [(C142_uninitialized s k n).1 h j hj] at hs; exact absurd hs (by simp)
    | overtaken => exact ho h
    | toplevel =>
      unfold get at h
      rcases getLoop_none s n (s.anc (front s k)) with ⟨e, _⟩ | ⟨u, w, e, _⟩ | ⟨e, _⟩ <;>
        rw [e] at h <;> simp at h
    | frozen =>
      unfold get at h
      rcases getLoop_none s n (s.anc (front s k)) with ⟨e, _⟩ | ⟨u, w, e, _⟩ | ⟨e, _⟩ <;>
        rw [e] at h <;> simp at h

/-! ## Removing -/

theorem lookup_take (n m : String) (l : List (String × V)) (hn : (l.map Prod.fst).Nodup) :
    lookup m (take n l) = if m = n then none else lookup m l := by
  induction l with
  | nil => simp [take, lookup]
  | cons p r ih =>
    obtain ⟨a, w⟩ := p
    simp only [List.map_cons, List.nodup_cons] at hn
    have hno : ∀ (l : List (String × V)) (x : String), x ∉ l.map Prod.fst → lookup x l = none := by
      intro l x hx
      induction l with
      | nil => rfl
      | cons q t iq =>
        obtain ⟨b, c⟩ := q
        simp only [List.map_cons, List.mem_cons, not_or] at hx
        simp [lookup, Ne.symm hx.1, iq hx.2]
    by_cases h : a = n
    · subst h
      by_cases hm : m = a
      · subst hm; simp [take, hno r m hn.1]
      · simp [take, lookup, hm, Ne.symm hm]
    · by_cases hm : a = m
      · subst hm; simp [take, lookup, h]
      · simp [take, lookup, h, hm, ih hn.2]

theorem take_names (n : String) (l : List (String × V)) (hn : (l.map Prod.fst).Nodup) :
    (take n l).map Prod.fst = (l.map Prod.fst).filter (· ≠ n) := by
  induction l with
  | nil => rfl
  | cons p r ih =>
    obtain ⟨a, w⟩ := p
    simp only [List.map_cons, List.nodup_cons] at hn
    by_cases h : a = n
    · subst h
      have : (r.map Prod.fst).filter (· ≠ a) = r.map Prod.fst :=
        List.filter_eq_self.2 (fun x hx => by
          have : x ≠ a := fun e => hn.1 (e ▸ hx)
          simpa using this)
      simp only [take, if_true, List.map_cons]
      rw [List.filter_cons]
      simp only [ne_eq, not_true_eq_false, decide_false, Bool.false_eq_true, if_false]
      exact this.symm
    · simp only [take, h, if_false, List.map_cons, ih hn.2]
      rw [List.filter_cons]
      simp [h]

theorem put_names (n : String) (v : V) (l : List (String × V)) :
    (put n v l).map Prod.fst =
      if n ∈ l.map Prod.fst then l.map Prod.fst else l.map Prod.fst ++ [n] := by
  induction l with
  | nil => simp [put]
  | cons p r ih =>
    obtain ⟨a, w⟩ := p
    by_cases h : a = n
    · subst h; simp [put]
    · by_cases hm : n ∈ r.map Prod.fst
      · simp only [put, h, if_false, List.map_cons, ih, hm, if_true]
        rw [if_pos (List.mem_cons_of_mem _ hm)]
      · simp only [put, h, if_false, List.map_cons, ih, hm]
        rw [if_neg (by simp only [List.mem_cons, not_or]; exact ⟨fun e => h e.symm, hm⟩)]
        rfl

/-- **C142.** A class has a variable once: assignments anywhere, and removals, keep it so; a new one
comes last. -/
theorem C142_once (s : St V) (h : ∀ j, ((s.cls j).cvars.map Prod.fst).Nodup) (k : Nat) (n : String) (v : V) :
    (∀ j, (((assign s k n v).cls j).cvars.map Prod.fst).Nodup) ∧
    ∀ w s', remove s k n = .ok (w, s') → ∀ j, ((s'.cls j).cvars.map Prod.fst).Nodup := by
  constructor
  · intro j
    simp only [assign, setAt]
    split_ifs with hj
    · simp only [put_names]
      split_ifs with hm
      · exact h j
      · rw [List.nodup_append]
        refine ⟨h j, by simp, ?_⟩
        intro x hx y hy
        simp at hy
        subst hy
        exact fun e => hm (e ▸ hx)
    · exact h j
  · intro w s' e j
    unfold remove at e
    cases ho : own s n k with
    | none => rw [ho] at e; simp at e
    | some u =>
      rw [ho] at e
      simp only [Except.ok.injEq, Prod.mk.injEq] at e
      obtain ⟨_, rfl⟩ := e
      simp only
      split_ifs with hj
      · simp only [take_names n _ (h j)]
        exact (h j).sublist List.filter_sublist
      · exact h j

/-- **C142.** `remove_class_variable` gives the value the class itself had, or raises NameError; then
that class does not have it, its others are as they were and in their order, and so is every other
class. -/
theorem C142_remove (s : St V) (k : Nat) (hn : ((s.cls k).cvars.map Prod.fst).Nodup) (n : String) :
    (own s n k = none → remove s k n = .error .name) ∧
    ∀ v, own s n k = some v → ∃ s', remove s k n = .ok (v, s') ∧
      (∀ m j, own s' m j = if j = k ∧ m = n then none else own s m j) ∧
      (s'.cls k).cvars.map Prod.fst = ((s.cls k).cvars.map Prod.fst).filter (· ≠ n) := by
  refine ⟨fun h => by simp [remove, h], fun v h => ⟨_, by simp only [remove, h]; rfl, ?_, ?_⟩⟩
  · intro m j
    by_cases hj : j = k
    · subst hj; simp [own, lookup_take n m _ hn]
    · simp [own, hj]
  · simp only [if_true]; exact take_names n _ hn

/-! ## Where `@@x` looks -/

/-- **C142.** `@@x` in a body looks in the innermost class around it in the text that is no singleton
class, and raises RuntimeError when there is none. -/
theorem C142_lexical (s : St V) (ctx : List (List Nat)) :
    (∀ k, parent s ctx = .ok k ↔ ∃ a b, ctx.flatten = a ++ k :: b ∧ (s.cls k).single = false ∧
      ∀ j ∈ a, (s.cls j).single = true) ∧
    (parent s ctx = .error .toplevel ↔ ∀ j ∈ ctx.flatten, (s.cls j).single = true) := by
  have key : parent s ctx = match ctx.flatten.find? (fun k => !(s.cls k).single) with
      | some k => .ok k
      | none => .error .toplevel := by
    induction ctx with
    | nil => rfl
    | cons c r ih =>
      simp only [parent, List.flatten_cons, List.find?_append]
      cases c.find? (fun k => !(s.cls k).single) with
      | some k => rfl
      | none => simpa using ih
  rw [key]
  cases h : ctx.flatten.find? (fun k => !(s.cls k).single) with
  | some k =>
    obtain ⟨hk, a, b, e, ha⟩ := List.find?_eq_some_iff_append.1 h
    constructor
    · intro j
      simp only [Except.ok.injEq]
      constructor
      · rintro rfl
        exact ⟨a, b, e, by simpa using hk, fun i hi => by simpa using ha i hi⟩
      · rintro ⟨a', b', e', hj, ha'⟩
        have : ctx.flatten.find? (fun k => !(s.cls k).single) = some j :=
          List.find?_eq_some_iff_append.2 ⟨by simpa using hj, a', b', e',
            fun i hi => by simpa using ha' i hi⟩
        rw [h] at this; exact Option.some.inj this
    · simp only [reduceCtorEq, false_iff]
      intro hall
      have := hall k (by rw [e]; simp)
      rw [this] at hk; simp at hk
  | none =>
    have hall := List.find?_eq_none.1 h
    constructor
    · intro k
      simp only [reduceCtorEq, false_iff]
      rintro ⟨a, b, e, hk, _⟩
      exact hall k (by rw [e]; simp) (by simpa using hk)
    · simp only [true_iff]
      intro j hj
      simpa using hall j hj

/-! ## A program to look at -/

/-- `class A; @@a = 1; end; class B < A; end`, with Object (0), A (1), B (2), the singleton class of B
(3). -/
def demo : St Nat where
  cls := fun k => ⟨if k = 1 then [("@@a", 1)] else [], false, k == 3, if k = 3 then some 2 else none⟩
  anc := fun k => match k with
    | 0 => [0]
    | 1 => [1, 0]
    | 2 => [2, 1, 0]
    | 3 => [3, 0]
    | k => [k]

theorem demo_wf : Wf demo := by
  constructor
  · intro k
    match k with
    | 0 => simp [demo]
    | 1 => simp [demo]
    | 2 => simp [demo]
    | 3 => simp [demo]
    | k + 4 => simp [demo]
  · intro k hk j hj
    match k, hk, hj with
    | 0, _, hj => simp [demo] at hj; subst hj; rfl
    | 1, _, hj => simp [demo] at hj; rcases hj with rfl | rfl <;> rfl
    | 2, _, hj => simp [demo] at hj; rcases hj with rfl | rfl | rfl <;> rfl
    | 3, hk, _ => simp [demo] at hk
    | k + 4, hk, hj => simp [demo] at hj; subst hj; exact hk

example : get demo 2 "@@a" = .ok 1 ∧ get demo 3 "@@a" = .ok 1 ∧ get demo 0 "@@a" = .error .name :=
  ⟨rfl, rfl, rfl⟩

example : get (assign demo 2 "@@a" 7) 1 "@@a" = .ok 7 ∧ get (assign demo 2 "@@b" 7) 1 "@@b" = .error .name :=
  ⟨rfl, rfl⟩

example : classVariables (assign demo 2 "@@b" 7) 2 true = ["@@b", "@@a"] := by decide

example : get demo 2 "@@a" ≠ .error .overtaken := by
  rw [show get demo 2 "@@a" = .ok 1 from rfl]; simp

example : parent demo [[3, 2], []] = .ok 2 ∧ parent demo [[3]] = .error .toplevel := ⟨rfl, rfl⟩

/-- `demo`, and then Object gets `@@a` as well. -/
def demoOver : St Nat := assign demo 0 "@@a" 5

/-- **C142 fails.** A variable that is overtaken is listed, and an assignment to it succeeds, but
`class_variable_defined?` and `defined?` deny it. -/
theorem C142_defined_fails : "@@a" ∈ classVariables demoOver 2 true ∧ isDefined demoOver 2 "@@a" = false := by
  decide

/-- **C142 fails.** Assigning an overtaken variable raises nothing; reading it still does. -/
theorem C142_set_overtaken_fails :
    (classVariableSet demoOver 2 "@@a" 7).toOption.isSome = true ∧
    get (assign demoOver 2 "@@a" 7) 2 "@@a" = .error .overtaken := ⟨rfl, rfl⟩

/-- **C142 fails.** `@@a ||= v` of an overtaken variable that has a value assigns, where reading it
raises. -/
theorem C142_or_assign_fails :
    check demoOver 2 "@@a" = none ∧ get demoOver 2 "@@a" = .error .overtaken ∧
    own (assign demoOver 2 "@@a" 7) "@@a" 1 = some 7 ∧ own demoOver "@@a" 1 = some 1 :=
  ⟨rfl, rfl, rfl, rfl⟩

/-- **C142 fails.** `class_variable_set` on the singleton class of B does not see the variable that B
inherits from A: it defines another in B, and from then on reading it in B raises. -/
theorem C142_singleton_set_fails :
    get demo 3 "@@a" = .ok 1 ∧
    ∃ s, classVariableSet demo 3 "@@a" 7 = .ok s ∧ get s 3 "@@a" = .error .overtaken ∧
      get s 2 "@@a" = .error .overtaken ∧ own s "@@a" 1 = some 1 :=
  ⟨rfl, _, rfl, rfl, rfl, rfl⟩

/-- **C142** `class_variable_set` on a frozen class raises FrozenError, and on any other does what
the assignment in its body does. -/
theorem C142_class_variable_set {V : Type} (s : St V) (k : Nat) (n : String) (v : V) :
    ((s.cls k).frozen = true → classVariableSet s k n v = .error .frozen) ∧
    ((s.cls k).frozen = false → classVariableSet s k n v = .ok (assign s k n v)) := by
  unfold classVariableSet
  constructor <;> intro h <;> rw [h] <;> rfl

/-- `demo` with A frozen. -/
def demoFrozen : St Nat :=
  { demo with cls := fun k => { demo.cls k with frozen := k == 1 } }

/-- **C142 fails.** The variables of a frozen class can be changed: by `@@a = v` in its body, by
`class_variable_set` on a subclass, and by `remove_class_variable`. -/
theorem C142_frozen_fails :
    (demoFrozen.cls 1).frozen = true ∧
    own (assign demoFrozen 1 "@@a" 7) "@@a" 1 = some 7 ∧
    (∃ s, classVariableSet demoFrozen 2 "@@a" 7 = .ok s ∧ own s "@@a" 1 = some 7) ∧
    ∃ s, remove demoFrozen 1 "@@a" = .ok (1, s) ∧ own s "@@a" 1 = none :=
  ⟨rfl, rfl, ⟨_, rfl, rfl⟩, _, rfl, rfl⟩

example : (demoFrozen.cls 1).frozen = true ∧ (demoFrozen.cls 2).frozen = false := ⟨rfl, rfl⟩

end Verif.ClassVar
