import Verif.ArrSet.Model

/-! # Lemmas for C157 -/

namespace Verif.ArrSet

variable {V K E σ : Type} [DecidableEq K]

/-- What a test with a state keeps, and what it removes last. -/
def run (f : σ → V → Except E (Bool × σ)) : σ → List V → Except E (List V × Option V)
  | _, [] => .ok ([], none)
  | s, v :: rest =>
    match f s v with
    | .error e => .error e
    | .ok (true, s) =>
      match run f s rest with
      | .error e => .error e
      | .ok (k, r) => .ok (v :: k, r)
    | .ok (false, s) =>
      match run f s rest with
      | .error e => .error e
      | .ok (k, r) => .ok (k, some (r.getD v))

theorem swap_mid (kept ds rest : List V) (d v : V) :
    swap (kept ++ (d :: ds) ++ (v :: rest)) kept.length (kept.length + (ds.length + 1)) =
      (kept ++ [v]) ++ (ds ++ [d]) ++ rest := by
  have h1 : (kept ++ (d :: ds) ++ (v :: rest))[kept.length]? = some d := by
    simp
  have h2 : (kept ++ (d :: ds) ++ (v :: rest))[kept.length + (ds.length + 1)]? = some v := by
    rw [List.getElem?_append_right (by simp)]
    simp
  simp only [swap, h1, h2]
  rw [List.append_assoc kept, List.cons_append, List.set_append_right _ _ (Nat.le_refl _), Nat.sub_self,
    List.set_cons_zero]
  rw [List.set_append_right _ _ (by omega)]
  rw [show kept.length + (ds.length + 1) - kept.length = ds.length + 1 by omega, List.set_cons_succ,
    List.set_append_right _ _ (Nat.le_refl _), Nat.sub_self, List.set_cons_zero]
  simp

/-- `retain` removes what the test refuses, keeps the others in their order; if the test raises, the array has
the same elements. -/
theorem retain_spec (f : σ → V → Except E (Bool × σ)) : ∀ (rest kept dels : List V) (removed : Option V) (s : σ),
    (∀ k r, run f s rest = .ok (k, r) →
      retain f rest.length (kept ++ dels ++ rest) (kept.length + dels.length) dels.length removed s =
        (kept ++ k, .ok (r.or removed))) ∧
    (∀ e, run f s rest = .error e →
      ∃ ys, ys.Perm (kept ++ dels ++ rest) ∧
        retain f rest.length (kept ++ dels ++ rest) (kept.length + dels.length) dels.length removed s =
          (ys, .error e)) := by
  intro rest
  induction rest with
  | nil =>
    intro kept dels removed s
    refine ⟨?_, fun e h => by simp [run] at h⟩
    intro k r h
    simp only [run, Except.ok.injEq, Prod.mk.injEq] at h
    obtain ⟨rfl, rfl⟩ := h
    simp only [List.length_nil, retain, List.append_nil, Option.none_or]
    congr 1
    split
    · rw [List.length_append, Nat.add_sub_cancel, List.take_left]
    · have : dels = [] := List.length_eq_zero_iff.1 (by omega)
      simp [this]
  | cons v rest ih =>
    intro kept dels removed s
    have hget : (kept ++ dels ++ v :: rest)[kept.length + dels.length]? = some v := by
      rw [List.getElem?_append_right (by simp)]; simp
    simp only [List.length_cons, retain, hget, run]
    cases hf : f s v with
    | error e => exact ⟨fun k r h => by simp at h, fun e' h => ⟨_, List.Perm.refl _, by simpa using h⟩⟩
    | ok q =>
      obtain ⟨b, s'⟩ := q
      cases b with
      | false =>
        have := ih kept (dels ++ [v]) (some v) s'
        have hl : kept ++ (dels ++ [v]) ++ rest = kept ++ dels ++ v :: rest := by simp
        rw [hl, List.length_append, List.length_singleton, ← Nat.add_assoc] at this
        obtain ⟨i1, i2⟩ := this
        simp only
        cases hr : run f s' rest with
        | error e =>
          refine ⟨fun k r h => by simp at h, fun e' h => ?_⟩
          simp only [Except.error.injEq] at h
          subst h
          exact i2 e hr
        | ok q =>
          obtain ⟨k, r⟩ := q
          refine ⟨fun k' r' h => ?_, fun e' h => by simp at h⟩
          simp only [Except.ok.injEq, Prod.mk.injEq] at h
          obtain ⟨rfl, rfl⟩ := h
          rw [i1 k r hr]
          cases r <;> simp
      | true =>
        have hx : ∃ ds', ds'.length = dels.length ∧ ds'.Perm dels ∧
            (if dels.length > 0 then swap (kept ++ dels ++ v :: rest) (kept.length + dels.length - dels.length)
              (kept.length + dels.length) else kept ++ dels ++ v :: rest) = (kept ++ [v]) ++ ds' ++ rest := by
          cases dels with
          | nil => exact ⟨[], rfl, List.Perm.refl _, by simp⟩
          | cons d ds =>
            refine ⟨ds ++ [d], by simp, ?_, ?_⟩
            · exact List.perm_append_comm (l₁ := ds) (l₂ := [d])
            · rw [if_pos (by simp), Nat.add_sub_cancel]
              exact swap_mid kept ds rest d v
        obtain ⟨ds', hl, hp, hsw⟩ := hx
        have := ih (kept ++ [v]) ds' removed s'
        rw [List.length_append, List.length_singleton, hl,
          show kept.length + 1 + dels.length = kept.length + dels.length + 1 by omega] at this
        obtain ⟨i1, i2⟩ := this
        simp only [hsw]
        cases hr : run f s' rest with
        | error e =>
          refine ⟨fun k r h => by simp at h, fun e' h => ?_⟩
          simp only [Except.error.injEq] at h
          subst h
          obtain ⟨ys, h1, h2⟩ := i2 e hr
          refine ⟨ys, h1.trans ?_, h2⟩
          have : (kept ++ [v] ++ ds' ++ rest).Perm (kept ++ ([v] ++ dels) ++ rest) := by
            rw [List.append_assoc kept [v] ds']
            exact ((hp.append_left [v]).append_left kept).append_right rest
          refine this.trans ?_
          have h3 : (kept ++ ([v] ++ dels) ++ rest).Perm (kept ++ (dels ++ [v]) ++ rest) :=
            ((List.perm_append_comm).append_left kept).append_right rest
          refine h3.trans ?_
          simp
        | ok q =>
          obtain ⟨k, r⟩ := q
          refine ⟨fun k' r' h => ?_, fun e' h => by simp at h⟩
          simp only [Except.ok.injEq, Prod.mk.injEq] at h
          obtain ⟨rfl, rfl⟩ := h
          rw [i1 k r hr]
          simp

theorem retain_ok (f : σ → V → Except E (Bool × σ)) {xs k : List V} {s : σ} {r : Option V}
    (h : run f s xs = .ok (k, r)) : retain f xs.length xs 0 0 none s = (k, .ok r) := by
  have := (retain_spec f xs [] [] none s).1 k r h
  simpa using this

theorem retain_error (f : σ → V → Except E (Bool × σ)) {xs : List V} {s : σ} {e : E}
    (h : run f s xs = .error e) : ∃ ys, ys.Perm xs ∧ retain f xs.length xs 0 0 none s = (ys, .error e) := by
  have := (retain_spec f xs [] [] none s).2 e h
  simpa using this

theorem run_pure (p : V → Bool) : ∀ xs : List V,
    run (E := Empty) (fun (_ : Unit) v => .ok (p v, ())) () xs =
      .ok (xs.filter p, (xs.filter (fun v => !p v)).getLast?) := by
  intro xs
  induction xs with
  | nil => rfl
  | cons v xs ih =>
    simp only [run, ih]
    cases hv : p v with
    | true => simp [hv]
    | false =>
      simp only [List.filter_cons, hv, Bool.false_eq_true, if_false, Bool.not_false, if_true,
        List.getLast?_cons]

theorem retainPure_eq (p : V → Bool) (xs : List V) :
    retainPure p xs = (xs.filter p, (xs.filter (fun v => !p v)).getLast?) := by
  simp only [retainPure, retain_ok _ (run_pure p xs)]

/-! ### First occurrences -/

/-- The elements that no earlier one is the same as. -/
def first (cls : V → K) (xs : List V) : List V :=
  ((xs.zipIdx).filter fun p => (xs.take p.2).all fun y => cls y ≠ cls p.1).map Prod.fst

theorem run_insert (cls : V → K) : ∀ (rest pre : List V) (s : List K), (∀ k, k ∈ s ↔ k ∈ pre.map cls) →
    ∃ r, run (E := E) (fun s v => ((Except.ok (cls v) : Except E K)).map (insert s)) s rest =
      .ok (((rest.zipIdx pre.length).filter fun p => ((pre ++ rest).take p.2).all fun y => cls y ≠ cls p.1).map
        Prod.fst, r) ∧ (r = none ↔ ((rest.zipIdx pre.length).filter fun p =>
          ((pre ++ rest).take p.2).all fun y => cls y ≠ cls p.1).map Prod.fst = rest) := by
  intro rest
  induction rest with
  | nil => intro pre s _; exact ⟨none, rfl, by simp⟩
  | cons v rest ih =>
    intro pre s hs
    have htake : ((pre ++ v :: rest).take pre.length) = pre := by simp
    have happ : pre ++ [v] ++ rest = pre ++ v :: rest := by simp
    have hlen : (pre ++ [v]).length = pre.length + 1 := by simp
    have hmem : s.contains (cls v) = !(pre.all fun y => cls y ≠ cls v) := by
      rw [Bool.eq_iff_iff]
      simp [hs]
    simp only [run, Except.map, List.zipIdx_cons]
    cases hc : s.contains (cls v) with
    | true =>
      have hall : (pre.all fun y => decide (cls y ≠ cls v)) = false := by
        rw [hc] at hmem; simpa using hmem.symm
      obtain ⟨r, h1, h2⟩ := ih (pre ++ [v]) s (by
        intro k
        simp only [List.map_append, List.map_cons, List.map_nil, List.mem_append, List.mem_singleton, hs]
        constructor
        · exact .inl
        · rintro (h | rfl)
          · exact h
          · rw [← hs]; simpa using hc)
      rw [happ, hlen] at h1 h2
      have hfil : ∀ l : List (V × Nat), List.filter (fun p => (List.take p.2 (pre ++ v :: rest)).all
          fun y => decide (cls y ≠ cls p.1)) ((v, pre.length) :: l) =
          List.filter (fun p => (List.take p.2 (pre ++ v :: rest)).all fun y => decide (cls y ≠ cls p.1)) l := by
        intro l
        rw [List.filter_cons, if_neg (by rw [htake, hall]; simp)]
      simp only [insert, hc, if_true, hfil]
      simp only [Except.map, insert] at h1
      rw [h1]
      refine ⟨some (r.getD v), rfl, ?_⟩
      constructor
      · intro h; simp at h
      · intro h
        exfalso
        have := congrArg List.length h
        simp only [List.length_map, List.length_cons] at this
        have hle := List.length_filter_le (fun p : V × Nat => (List.take p.2 (pre ++ v :: rest)).all
          fun y => decide (cls y ≠ cls p.1)) (rest.zipIdx (pre.length + 1))
        rw [List.length_zipIdx] at hle
        omega
    | false =>
      have hall : (pre.all fun y => decide (cls y ≠ cls v)) = true := by
        rw [hc] at hmem; simpa using hmem.symm
      obtain ⟨r, h1, h2⟩ := ih (pre ++ [v]) (s ++ [cls v]) (by intro k; simp [hs])
      rw [happ, hlen] at h1 h2
      have hfil : ∀ l : List (V × Nat), List.filter (fun p => (List.take p.2 (pre ++ v :: rest)).all
          fun y => decide (cls y ≠ cls p.1)) ((v, pre.length) :: l) = (v, pre.length) ::
          List.filter (fun p => (List.take p.2 (pre ++ v :: rest)).all fun y => decide (cls y ≠ cls p.1)) l := by
        intro l
        rw [List.filter_cons, if_pos (by rw [htake, hall])]
      simp only [insert, hc, Bool.false_eq_true, if_false, hfil, List.map_cons]
      simp only [Except.map, insert] at h1
      rw [h1]
      refine ⟨r, rfl, ?_⟩
      rw [h2]
      simp

theorem uniqIn_ok (cls : V → K) (xs : List V) :
    ∃ r, uniqIn (E := E) (fun v => .ok (cls v)) xs = (first cls xs, .ok r) ∧ (r = none ↔ first cls xs = xs) := by
  obtain ⟨r, h1, h2⟩ := run_insert (E := E) cls xs [] [] (by simp)
  simp only [List.length_nil, List.nil_append] at h1 h2
  exact ⟨r, retain_ok _ h1, h2⟩

theorem uniq_eq (cls : V → K) (xs : List V) : uniq cls xs = first cls xs := by
  obtain ⟨r, h, _⟩ := uniqIn_ok (E := Empty) cls xs
  simp [uniq, h]

theorem mem_setOf (cls : V → K) (ys : List V) (k : K) : (setOf cls ys).contains k = ys.any (fun y => cls y = k) := by
  have key : ∀ (ys : List V) (s : List K), k ∈ ys.foldl (fun s y => (insert s (cls y)).2) s ↔
      k ∈ s ∨ ∃ y ∈ ys, cls y = k := by
    intro ys
    induction ys with
    | nil => intro s; simp
    | cons y ys ih =>
      intro s
      rw [List.foldl_cons, ih]
      simp only [insert, List.mem_cons, exists_eq_or_imp]
      split
      · rename_i h
        constructor
        · rintro (h1 | h1)
          · exact .inl h1
          · exact .inr (.inr h1)
        · rintro (h1 | rfl | h1)
          · exact .inl h1
          · exact .inl (by simpa using h)
          · exact .inr h1
      · simp only [List.mem_append, List.mem_singleton]
        constructor
        · rintro ((h1 | rfl) | h1)
          · exact .inl h1
          · exact .inr (.inl rfl)
          · exact .inr (.inr h1)
        · rintro (h1 | rfl | h1)
          · exact .inl (.inl h1)
          · exact .inl (.inr rfl)
          · exact .inr h1
  rw [Bool.eq_iff_iff, List.contains_iff_mem, setOf, key]
  simp

theorem foldl_push (p : V → Bool) : ∀ (xs acc : List V),
    xs.foldl (fun v x => if p x then v else v ++ [x]) acc = acc ++ xs.filter (fun x => !p x) := by
  intro xs
  induction xs with
  | nil => intro acc; simp
  | cons x xs ih =>
    intro acc
    rw [List.foldl_cons, ih]
    cases h : p x <;> simp [h]

end Verif.ArrSet
