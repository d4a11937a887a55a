import Verif.Env.Model
/-!
# ENV and the environment of the process (C165)
-/

namespace Verif.Env

theorem get_set (t : Tab) (k v x : String) :
    get (set t k v) x = if x = k then some v else get t x := by
  induction t with
  | nil => simp [set, get, eq_comm]
  | cons e t ih =>
    by_cases h : e.1 = k
    · by_cases hx : x = k
      · simp [set, get, h, hx]
      · simp [set, get, h, hx, Ne.symm hx]
    · by_cases hx : x = k
      · subst hx; simp [set, get, h, ih]
      · simp [set, get, h, ih, hx]

theorem get_del (t : Tab) (k x : String) :
    get (del t k) x = if x = k then none else get t x := by
  induction t with
  | nil => simp [del, get]
  | cons e t ih =>
    simp only [del] at ih ⊢
    by_cases h : e.1 = k
    · rw [List.filter_cons_of_neg (by simp [h]), ih]
      by_cases hx : x = k
      · simp [hx]
      · simp [get, h, hx, Ne.symm hx]
    · rw [List.filter_cons_of_pos (by simp [h])]
      by_cases hx : x = k
      · subst hx; simpa [get, h] using ih
      · simp only [get, ih, if_neg hx]

theorem get_append (t : Tab) (k v x : String) :
    get (del t k ++ [(k, v)]) x = if x = k then some v else get t x := by
  have h : ∀ (s : Tab), get (s ++ [(k, v)]) x =
      match get s x with
      | some y => some y
      | none => if x = k then some v else none := by
    intro s
    induction s with
    | nil => simp [get, eq_comm]
    | cons e s ih => by_cases he : e.1 = x <;> simp [get, he, ih]
  rw [h, get_del]
  by_cases hx : x = k
  · simp [hx]
  · cases hg : get t x <;> simp [hx]

/-- What Ruby code sees is the environment of the process. -/
def Agree (w : W) : Prop := ∀ k, get w.tab k = get w.os k

theorem agree_set {w : W} (h : Agree w) (k v : String) : Agree (setOne w k v) := fun x => by
  simp only [setOne, get_set, h x]

theorem agree_unset {w : W} (h : Agree w) (k : String) : Agree (unsetOne w k) := fun x => by
  simp only [unsetOne, get_del, h x]

theorem agree_merge (b) : ∀ (ps : List (String × Option String)) (w : W), Agree w →
    Agree (merge b w ps).2 := by
  intro ps
  induction ps with
  | nil => intro w h; exact h
  | cons p ps ih =>
    intro w h
    obtain ⟨k, v⟩ := p
    simp only [merge]
    split
    · exact h
    · cases v with
      | none => exact ih _ (agree_unset h k)
      | some v =>
        simp only
        split
        · exact h
        · split
          · exact h
          · split <;> split
            · exact h
            · exact ih _ (agree_set h k _)
            · exact h
            · exact ih _ (agree_set h k _)

theorem foldl_unset_tab (ks : List String) : ∀ (w : W) (x : String),
    get (ks.foldl unsetOne w).os x = if x ∈ ks then none else get w.os x := by
  induction ks with
  | nil => intro w x; simp
  | cons k ks ih =>
    intro w x
    rw [List.foldl_cons, ih]
    simp only [unsetOne, get_del, List.mem_cons]
    by_cases h1 : x ∈ ks <;> by_cases h2 : x = k <;> simp [h1, h2]

theorem get_none {t : Tab} {x : String} (h : x ∉ t.map (·.1)) : get t x = none := by
  induction t with
  | nil => rfl
  | cons e t ih =>
    simp only [List.map_cons, List.mem_cons, not_or] at h
    simp [get, Ne.symm h.1, ih h.2]

theorem wiped {w : W} (h : Agree w) (x : String) :
    get ((w.tab.map (·.1)).foldl unsetOne w).os x = none := by
  rw [foldl_unset_tab]
  split
  · rfl
  · rename_i hx
    rw [← h x, get_none hx]

theorem agree_sets (ps : List (String × String)) : ∀ (w : W), Agree w →
    Agree (ps.foldl (fun w p => setOne w p.1 p.2) w) := by
  induction ps with
  | nil => intro w h; exact h
  | cons p ps ih => intro w h; exact ih _ (agree_set h _ _)

theorem agree_step {w : W} (h : Agree w) (o : Op) : Agree (step w o) := by
  cases o with
  | assign k v =>
    simp only [step, assign]
    split
    · exact h
    · cases v with
      | none => exact agree_unset h k
      | some v =>
        simp only
        split
        · exact h
        · split
          · exact h
          · exact agree_set h k v
  | delete k =>
    simp only [step, delete]
    split
    · exact h
    · exact agree_unset h k
  | merge b ps => exact agree_merge b ps w h
  | replace ps =>
    simp only [step, replace]
    split
    · exact h
    · refine agree_sets ps _ ?_
      intro x
      simp only
      rw [wiped h x]; rfl

/-- C165.  After any sequence of assignments, deletions, merges and replacements,
also failed ones, ENV and the environment of the process agree.  Missing: the
methods that ENV has from Hash, for which this is false. -/
theorem C165_agree_partial (os : Tab) (ops : List Op) (k : String) :
    get (ops.foldl step (.start os)).tab k = get (ops.foldl step (.start os)).os k := by
  suffices h : ∀ (ops : List Op) (w : W), Agree w → Agree (ops.foldl step w) from
    h ops _ (fun _ => rfl) k
  intro ops
  induction ops with
  | nil => intro w h; exact h
  | cons o ops ih => intro w h; exact ih _ (agree_step h o)

/-- C165.  An assignment changes the one variable, in both places, or raises and
changes nothing; it raises exactly for names and values that cannot be. -/
theorem C165_assign (w : W) (k v : String) :
    ((assign w k (some v)).1 = true ↔
      k ≠ "" ∧ '=' ∉ k.toList ∧ '\x00' ∉ k.toList ∧ '\x00' ∉ v.toList) ∧
    ((assign w k (some v)).1 = false → (assign w k (some v)).2 = w) ∧
    ((assign w k (some v)).1 = true → ∀ x,
      get (assign w k (some v)).2.tab x = (if x = k then some v else get w.tab x) ∧
      get (assign w k (some v)).2.os x = if x = k then some v else get w.os x) := by
  simp only [assign]
  cases h1 : noNul k <;> cases h2 : validKey k <;> cases h3 : noNul v <;>
    simp only [noNul, validKey, Bool.not_eq_true', Bool.not_eq_false', Bool.or_eq_false_iff,
      Bool.or_eq_true, beq_eq_false_iff_ne, List.contains_eq_mem, decide_eq_false_iff_not,
      decide_eq_true_eq, beq_iff_eq] at h1 h2 h3 <;>
    simp_all [setOne, get_set]
  · rcases h2 with h | h
    · exact fun q => absurd h q
    · exact fun _ => h

/-- C165.  Assigning nil and `delete` remove the one variable from both. -/
theorem C165_delete (w : W) (k : String) (hk : '\x00' ∉ k.toList) (x : String) :
    delete w k = assign w k none ∧
    get (delete w k).2.tab x = (if x = k then none else get w.tab x) ∧
    get (delete w k).2.os x = if x = k then none else get w.os x := by
  simp [delete, assign, noNul, hk, unsetOne, get_del]

/-- A pair that can be. -/
def Possible (p : String × Option String) : Prop :=
  noNul p.1 = true ∧ ∀ v, p.2 = some v → validKey p.1 = true ∧ noNul v = true

/-- C165.  `merge!` gives every variable the value of its last pair, nil removes it,
and leaves the others. -/
theorem C165_merge (ps : List (String × Option String)) (hp : ∀ p ∈ ps, Possible p) (w : W)
    (x : String) : (merge none w ps).1 = true ∧
    get (merge none w ps).2.tab x =
      match ps.reverse.find? fun p => p.1 == x with
      | some p => p.2
      | none => get w.tab x := by
  induction ps generalizing w with
  | nil => exact ⟨rfl, rfl⟩
  | cons p ps ih =>
    have ih := ih fun q hq => hp q (List.mem_cons_of_mem _ hq)
    obtain ⟨k, v⟩ := p
    obtain ⟨h1, h2⟩ := hp (k, v) List.mem_cons_self
    simp only at h1 h2
    cases v with
    | none =>
      have e : merge none w ((k, none) :: ps) = merge none (unsetOne w k) ps := by
        simp [merge, h1]
      rw [e]
      refine ⟨(ih _).1, ?_⟩
      rw [(ih _).2]
      simp only [List.reverse_cons, List.find?_append, unsetOne, get_del]
      cases hq : ps.reverse.find? fun p => p.1 == x with
      | some y => simp
      | none =>
        by_cases hx : k = x
        · simp [hx]
        · simp [hx, Ne.symm hx]
    | some v =>
      obtain ⟨h2, h3⟩ := h2 v rfl
      have e : merge none w ((k, some v) :: ps) = merge none (setOne w k v) ps := by
        simp [merge, h1, h2, h3]
      rw [e]
      refine ⟨(ih _).1, ?_⟩
      rw [(ih _).2]
      simp only [List.reverse_cons, List.find?_append, setOne, get_set]
      cases hq : ps.reverse.find? fun p => p.1 == x with
      | some y => simp
      | none =>
        by_cases hx : k = x
        · simp [hx]
        · simp [hx, Ne.symm hx]

/-- C165.  With a block, the block decides for variables that exist, and only for
those. -/
theorem C165_merge_block (b : String → String → String → String) (w : W) (k v : String)
    (hp : Possible (k, some v)) (hb : ∀ x y z, noNul (b x y z) = true) :
    get (merge (some b) w [(k, some v)]).2.tab k =
      match get w.tab k with
      | some old => some (b k old v)
      | none => some v := by
  obtain ⟨h1, h2⟩ := hp
  obtain ⟨h2, h3⟩ := h2 v rfl
  simp only at h1 h2
  cases hg : get w.tab k <;> simp [merge, h1, h2, h3, hg, hb, setOne, get_set]

/-- The value that the last of the pairs gives. -/
def lastValue (ps : List (String × String)) (x : String) : Option String :=
  (ps.reverse.find? fun p => p.1 == x).map (·.2)

theorem sets_get (ps : List (String × String)) : ∀ (w : W) (x : String),
    get (ps.foldl (fun w p => setOne w p.1 p.2) w).os x =
      (match lastValue ps x with
       | some v => some v
       | none => get w.os x) := by
  induction ps with
  | nil => intro w x; rfl
  | cons p ps ih =>
    intro w x
    rw [List.foldl_cons, ih]
    simp only [lastValue, List.reverse_cons, List.find?_append, setOne, get_set]
    cases hq : ps.reverse.find? fun p => p.1 == x with
    | some y => simp
    | none =>
      by_cases hx : p.1 = x
      · simp [hx]
      · simp [hx, Ne.symm hx]

/-- C165.  `replace` changes everything or, when one of the pairs cannot be, nothing. -/
theorem C165_replace (os : Tab) (ops : List Op) (ps : List (String × String)) :
    let w := ops.foldl step (.start os)
    ((replace w ps).1 = false → (replace w ps).2 = w) ∧
    ((replace w ps).1 = true → ∀ x, get (replace w ps).2.tab x = lastValue ps x ∧
      get (replace w ps).2.os x = lastValue ps x) := by
  intro w
  have ag : Agree w := fun k => C165_agree_partial os ops k
  have ag' : Agree (replace w ps).2 := agree_step ag (.replace ps)
  refine ⟨?_, ?_⟩
  · simp only [replace]
    split
    · intro _; rfl
    · intro h; cases h
  · intro h x
    have : get (replace w ps).2.os x = lastValue ps x := by
      simp only [replace] at h ⊢
      split at h
      · cases h
      · rename_i hv
        rw [if_neg hv]
        simp only
        rw [sets_get]
        simp only [wiped ag x]
        cases lastValue ps x <;> rfl
    exact ⟨(ag' x).trans this, this⟩

/-- C165.  A child gets what ENV shows, with the changes asked for in the call. -/
theorem C165_child_partial (os : Tab) (ops : List Op) (un : Bool)
    (chg : List (String × Option String)) (x : String) :
    get (child (ops.foldl step (.start os)) un chg) x =
      match chg.reverse.find? fun o => o.1 == x with
      | some o => o.2
      | none => if un then none else get (ops.foldl step (.start os)).tab x := by
  rw [C165_agree_partial]
  have base : get (if un then [] else (ops.foldl step (.start os)).os) x =
      if un then none else get (ops.foldl step (.start os)).os x := by
    cases un <;> rfl
  rw [← base]
  simp only [child]
  generalize (if un then [] else (ops.foldl step (.start os)).os) = env
  induction chg generalizing env with
  | nil => rfl
  | cons o chg ih =>
    rw [List.foldl_cons, ih]
    simp only [List.reverse_cons, List.find?_append]
    cases hq : chg.reverse.find? fun o => o.1 == x with
    | some y => simp
    | none =>
      obtain ⟨k, v⟩ := o
      by_cases hx : k = x
      · subst hx
        cases v with
        | none => simp [get_del]
        | some v => simp [get_append]
      · cases v with
        | none => simp [get_del, hx, Ne.symm hx]
        | some v => simp [get_append, hx, Ne.symm hx]

/-- After `ENV.clear` a child still gets every variable: the method is the one of
Hash, and so are `delete_if`, `reject!`, `select!`, `keep_if` and `shift`. -/
theorem C165_clear_fails :
    ¬ ∀ (os : Tab) (x : String), get (child (clear (.start os)) false []) x =
      get (clear (.start os)).tab x := by
  intro h
  exact absurd (h [("TOKEN", "s")] "TOKEN") (by decide)

/-- For every variable that one of those methods drops. -/
theorem C165_dropped_fails (os : Tab) (p : String → String → Bool) (x v : String)
    (hx : get os x = some v) (hp : ∀ v, p x v = false) :
    get (keepOnly p (.start os)).tab x = none ∧
      get (child (keepOnly p (.start os)) false []) x = some v := by
  refine ⟨?_, hx⟩
  simp only [keepOnly, W.start]
  apply get_none
  intro hm
  obtain ⟨e, he, rfl⟩ := List.mem_map.1 hm
  have := (List.mem_filter.1 he).2
  rw [hp] at this
  cases this

example : (assign (.start [("A", "1")]) "B" (some "2")) =
      (true, ⟨[("A", "1"), ("B", "2")], [("A", "1"), ("B", "2")]⟩) ∧
    (assign (.start [("A", "1")]) "B=C" (some "2")).1 = false ∧
    (replace (.start [("A", "1")]) [("B", "2")]).2.os = [("B", "2")] ∧
    child (.start [("A", "1")]) false [("A", none), ("C", some "3")] = [("C", "3")] := by
  decide +kernel

end Verif.Env
