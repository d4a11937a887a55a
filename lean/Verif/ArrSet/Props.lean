import Verif.ArrSet.Lemmas

/-!
# C157: arrays as sets and tables
-/

namespace Verif.ArrSet

variable {V K E σ : Type} [DecidableEq K]

/-! ### Repetitions -/

/-- `uniq!` keeps exactly the first of each kind, in order, and returns nil exactly when nothing changed. -/
theorem C157_uniq (cls : V → K) (xs : List V) :
    uniqBang (E := E) (fun v => .ok (cls v)) xs =
      (first cls xs, .ok (!decide ((first cls xs).length = xs.length))) := by
  obtain ⟨r, h1, h2⟩ := uniqIn_ok (E := E) cls xs
  simp only [uniqBang, h1, Except.map]
  have hsub : (first cls xs).length = xs.length ↔ first cls xs = xs := by
    constructor
    · intro h
      have hf : List.Sublist (first cls xs) xs := by
        have := (List.filter_sublist (l := xs.zipIdx)
          (p := fun p : V × Nat => (xs.take p.2).all fun y => decide (cls y ≠ cls p.1))).map Prod.fst
        simpa [first, List.zipIdx_map_fst] using this
      exact hf.eq_of_length h
    · intro h; rw [h]
  congr 2
  cases r with
  | none => simp [hsub, h2.1 rfl]
  | some x =>
    have : ¬ (first cls xs = xs) := fun h => by simpa using h2.2 h
    simp [hsub, this]

example : first (fun n : Nat => n % 3) [4, 1, 5, 3, 2, 6] = [4, 5, 3] := by decide

theorem map_ok {α β : Type} (f : α → β) (a : α) : (Except.ok a : Except E α).map f = .ok (f a) := rfl

theorem map_error {α β : Type} (f : α → β) (e : E) : (Except.error e : Except E α).map f = .error e := rfl

theorem first_length (cls : V → K) (xs : List V) : (first cls xs).length = xs.length ↔ first cls xs = xs := by
  constructor
  · intro h
    have hf : List.Sublist (first cls xs) xs := by
      have := (List.filter_sublist (l := xs.zipIdx)
        (p := fun p : V × Nat => (xs.take p.2).all fun y => decide (cls y ≠ cls p.1))).map Prod.fst
      simpa [first, List.zipIdx_map_fst] using this
    exact hf.eq_of_length h
  · intro h; rw [h]

theorem uniqBlock_run (blk : V → Except E K) : ∀ (rest : List V) (h : List K) (acc : List V),
    uniqBlock blk rest h acc = (run (fun s v => (blk v).map (insert s)) h rest).map (fun q => acc ++ q.1) := by
  intro rest
  induction rest with
  | nil => intro h acc; simp [uniqBlock, run, Except.map]
  | cons v rest ih =>
    intro h acc
    simp only [uniqBlock, run]
    cases hb : blk v with
    | error e => rfl
    | ok k =>
      simp only [bind, Except.bind, map_ok, ih]
      cases hi : insert h k with
      | mk b s =>
        cases b <;> simp only [Bool.false_eq_true, if_false, if_true] <;>
          cases run (fun s v => Except.map (insert s) (blk v)) s rest <;> simp [map_ok, map_error]

theorem uniqBangBlock_run (blk : V → Except E K) : ∀ (rest kept junk : List V) (h : List K) (k : List V)
    (r : Option V), run (fun s v => (blk v).map (insert s)) h rest = .ok (k, r) →
    uniqBangBlock blk rest.length (kept ++ junk ++ rest) (kept.length + junk.length) junk.length h =
      (kept ++ k, .ok (decide (junk.length > 0) || r.isSome)) := by
  intro rest
  induction rest with
  | nil =>
    intro kept junk h k r hr
    simp only [run, Except.ok.injEq, Prod.mk.injEq] at hr
    obtain ⟨rfl, rfl⟩ := hr
    simp only [List.length_nil, uniqBangBlock, List.append_nil, Option.isSome_none, Bool.or_false]
    congr 1
    split
    · rw [List.length_append, Nat.add_sub_cancel, List.take_left]
    · have : junk = [] := List.length_eq_zero_iff.1 (by omega)
      simp [this]
  | cons v rest ih =>
    intro kept junk h k r hr
    have hget : (kept ++ junk ++ v :: rest)[kept.length + junk.length]? = some v := by
      rw [List.getElem?_append_right (by simp)]; simp
    simp only [List.length_cons, uniqBangBlock, hget]
    simp only [run] at hr
    cases hb : blk v with
    | error e => simp [hb, Except.map] at hr
    | ok key =>
      simp only [hb, Except.map] at hr
      cases hi : insert h key with
      | mk b s =>
        simp only [hi] at hr
        cases b with
        | false =>
          simp only [hi, Bool.false_eq_true, if_false]
          simp only at hr
          split at hr
          · simp at hr
          · rename_i k' r' hr'
            simp only [Except.ok.injEq, Prod.mk.injEq] at hr
            obtain ⟨rfl, rfl⟩ := hr
            have := ih kept (junk ++ [v]) s k' r' hr'
            have hl : kept ++ (junk ++ [v]) ++ rest = kept ++ junk ++ v :: rest := by simp
            rw [hl, List.length_append, List.length_singleton, ← Nat.add_assoc] at this
            rw [this]
            simp
        | true =>
          simp only [hi, if_true]
          simp only at hr
          split at hr
          · simp at hr
          · rename_i k' r' hr'
            simp only [Except.ok.injEq, Prod.mk.injEq] at hr
            obtain ⟨rfl, rfl⟩ := hr
            have hx : ∃ j', j'.length = junk.length ∧
                (if junk.length > 0 then (kept ++ junk ++ v :: rest).set (kept.length + junk.length - junk.length) v
                  else kept ++ junk ++ v :: rest) = (kept ++ [v]) ++ j' ++ rest := by
              cases junk with
              | nil => exact ⟨[], rfl, by simp⟩
              | cons d ds =>
                refine ⟨ds ++ [v], by simp, ?_⟩
                rw [if_pos (by simp), Nat.add_sub_cancel, List.append_assoc kept, List.cons_append,
                  List.set_append_right _ _ (Nat.le_refl _), Nat.sub_self, List.set_cons_zero]
                simp
            obtain ⟨j', hj, hset⟩ := hx
            rw [hset]
            have := ih (kept ++ [v]) j' s k' r' hr'
            rw [List.length_append, List.length_singleton, hj,
              show kept.length + 1 + junk.length = kept.length + junk.length + 1 by omega] at this
            rw [this]
            simp

/-- With a block that does not raise, `uniq` and `uniq!` keep the first element of each block value, and
`uniq!` returns nil exactly when nothing changed. -/
theorem C157_uniq_block (key : V → K) (xs : List V) :
    uniqBlock (E := E) (fun v => .ok (key v)) xs [] [] = .ok (first key xs) ∧
    uniqBangBlock (E := E) (fun v => .ok (key v)) xs.length xs 0 0 [] =
      (first key xs, .ok (!decide ((first key xs).length = xs.length))) := by
  obtain ⟨r, h1, h2⟩ := run_insert (E := E) key xs [] [] (by simp)
  simp only [List.length_nil, List.nil_append] at h1 h2
  constructor
  · rw [uniqBlock_run, h1]; simp [Except.map, first]
  · have := uniqBangBlock_run (E := E) (fun v => .ok (key v)) xs [] [] [] _ r h1
    simp only [List.nil_append, List.length_nil, Nat.add_zero, Nat.lt_irrefl, decide_false, Bool.false_or,
      gt_iff_lt] at this
    rw [this]
    congr 2
    cases r with
    | none =>
      have : first key xs = xs := h2.1 rfl
      simp [this]
    | some x =>
      have : ¬ (first key xs = xs) := fun h => by simpa using h2.2 h
      simp [first_length, this]

/-- When an element's `hash` raises, `uniq!` has lost no element. -/
theorem C157_uniq_raise_partial (cls : V → Except E K) (xs ys : List V) (e : E)
    (h : uniqBang cls xs = (ys, .error e)) : ys.Perm xs := by
  simp only [uniqBang, uniqIn] at h
  cases hr : run (fun s v => (cls v).map (insert s)) [] xs with
  | error e' =>
    obtain ⟨zs, hz, heq⟩ := retain_error _ hr
    simp only [heq, map_error, Prod.mk.injEq] at h
    rw [← h.1]; exact hz
  | ok q =>
    obtain ⟨k, r⟩ := q
    simp [retain_ok _ hr, map_ok] at h

/-- …but it may have moved some: `uniq!` that raises is not without effect. -/
theorem C157_uniq_raise_fails :
    uniqBang (fun n : Nat => if n = 9 then .error () else .ok (n % 5)) [1, 6, 2, 9] = ([1, 2, 6, 9], .error ()) := by
  rfl

/-- With a block that raises (or is left by break), an element is gone and another is there twice. -/
theorem C157_uniq_block_raise_fails :
    uniqBangBlock (fun n : Nat => if n = 9 then .error () else .ok (n % 5)) 4 [1, 6, 2, 9] 0 0 [] =
      ([1, 2, 2, 9], .error ()) := by
  rfl

/-! ### Set operations -/

/-- `-` and `difference` keep what no argument has; with several arguments `difference` is `-` of all. -/
theorem C157_difference (cls : V → K) (xs ys : List V) (others : List (List V)) :
    sub cls xs ys = xs.filter (fun x => !ys.any fun y => cls y = cls x) ∧
    difference cls xs others = sub cls xs others.flatten := by
  have h1 : ∀ ys, sub cls xs ys = xs.filter (fun x => !ys.any fun y => cls y = cls x) := by
    intro ys
    simp only [sub]
    rw [foldl_push (fun x => (setOf cls ys).contains (cls x))]
    simp only [List.nil_append, mem_setOf]
  refine ⟨h1 ys, ?_⟩
  rw [h1, difference, foldl_push (fun x => others.any (fun o => o.any fun y => cls x = cls y))]
  simp only [List.nil_append]
  congr 1
  funext x
  rw [List.any_flatten]
  simp only [eq_comm (a := cls x)]

/-- `&` and `intersection` keep the first of each kind that every argument has; `intersect?` says whether `&`
gives anything. -/
theorem C157_intersection (cls : V → K) (xs ys : List V) (others : List (List V)) :
    and cls xs ys = (first cls xs).filter (fun x => ys.any fun y => cls y = cls x) ∧
    intersection cls xs others =
      (first cls xs).filter (fun x => others.all fun o => o.any fun y => cls y = cls x) ∧
    intersection cls xs [ys] = and cls xs ys := by
  have h1 : and cls xs ys = (first cls xs).filter (fun x => ys.any fun y => cls y = cls x) := by
    simp only [and, retainPure_eq, uniq_eq, mem_setOf]
  have h2 : ∀ others, intersection cls xs others =
      (first cls xs).filter (fun x => others.all fun o => o.any fun y => cls y = cls x) := by
    intro others
    simp only [intersection, retainPure_eq, uniq_eq]
    congr 1
    funext x
    rw [List.all_map]
    simp only [Function.comp_def, mem_setOf]
  refine ⟨h1, h2 others, ?_⟩
  rw [h1, h2]
  simp

theorem mem_first_class (cls : V → K) (xs : List V) (x : V) (hx : x ∈ xs) :
    ∃ y ∈ first cls xs, cls y = cls x := by
  obtain ⟨i, hi, rfl⟩ := List.mem_iff_getElem.1 hx
  induction i using Nat.strongRecOn with
  | ind i ih =>
    by_cases h : (xs.take i).all (fun y => decide (cls y ≠ cls xs[i])) = true
    · refine ⟨xs[i], ?_, rfl⟩
      simp only [first, List.mem_map, List.mem_filter]
      exact ⟨(xs[i], i), ⟨by rw [List.mem_zipIdx_iff_getElem?]; simp [hi], h⟩, rfl⟩
    · simp only [List.all_eq_true, decide_eq_true_eq] at h
      have : ∃ j, ∃ hj : j < xs.length, j < i ∧ cls xs[j] = cls xs[i] := by
        refine Classical.byContradiction fun hn => h ?_
        intro y hy heq
        obtain ⟨j, hj, rfl⟩ := List.mem_iff_getElem.1 hy
        rw [List.length_take] at hj
        exact hn ⟨j, by omega, by omega, by simpa using heq⟩
      obtain ⟨j, hj, hji, hc⟩ := this
      obtain ⟨y, hy, hyc⟩ := ih j hji hj (List.getElem_mem hj)
      exact ⟨y, hy, hyc.trans hc⟩

theorem mem_of_mem_first (cls : V → K) (xs : List V) (x : V) (hx : x ∈ first cls xs) : x ∈ xs := by
  simp only [first, List.mem_map, List.mem_filter] at hx
  obtain ⟨p, ⟨hp, _⟩, rfl⟩ := hx
  rw [List.mem_zipIdx_iff_getElem?] at hp
  exact List.mem_of_getElem? hp

/-- `intersect?` says whether `&` gives anything. -/
theorem C157_intersect (cls : V → K) (xs ys : List V) :
    intersects cls xs ys = true ↔ and cls xs ys ≠ [] := by
  rw [(C157_intersection cls xs ys []).1]
  simp only [intersects, List.any_eq_true, decide_eq_true_eq, ne_eq, List.filter_eq_nil_iff]
  constructor
  · rintro ⟨y, hy, x, hx, hc⟩ h
    obtain ⟨z, hz, hzc⟩ := mem_first_class cls xs x hx
    exact h z hz ⟨y, hy, (hzc.trans hc).symm⟩
  · intro h
    refine Classical.byContradiction fun hn => h ?_
    rintro x hx ⟨y, hy, hc⟩
    exact hn ⟨y, hy, x, mem_of_mem_first cls xs x hx, hc.symm⟩

/-- `|` and `union` keep the first of each kind of all arguments, in order. -/
theorem C157_union (cls : V → K) (xs ys : List V) (others : List (List V)) :
    or cls xs ys = first cls (xs ++ ys) ∧ union cls xs others = first cls (xs ++ others.flatten) := by
  refine ⟨uniq_eq _ _, ?_⟩
  rw [union, uniq_eq]
  congr 1
  induction others generalizing xs with
  | nil => simp
  | cons o others ih => simp [ih]

example : and (fun n : Nat => n % 3) [4, 1, 5, 3] [7, 8] = [4, 5] := by decide

/-- `delete` removes what is equal to the argument and returns the last of it; `compact!` removes nil and
returns nil exactly when there was none. -/
theorem C157_delete (eq : V → Bool) (xs : List V) (ys : List (Option V)) :
    delete eq xs = (xs.filter (fun v => !eq v), (xs.filter eq).getLast?) ∧
    compactBang ys = (ys.filter Option.isSome, ys.any Option.isNone) := by
  constructor
  · simp only [delete]
    split
    · rw [retainPure_eq]; simp
    · rename_i h
      simp only [List.any_eq_true, not_exists, not_and, Bool.not_eq_true] at h
      have h1 : xs.filter (fun v => !eq v) = xs := List.filter_eq_self.2 (by simpa using h)
      have h2 : xs.filter eq = [] := List.filter_eq_nil_iff.2 (by simpa using h)
      rw [h1, h2]; rfl
  · simp only [compactBang, retainPure_eq]
    congr 1
    rw [Bool.eq_iff_iff]
    simp only [List.getLast?_isSome, ne_eq, List.filter_eq_nil_iff, List.any_eq_true]
    constructor
    · intro h
      refine Classical.byContradiction fun hn => h ?_
      intro a ha hs
      exact hn ⟨a, ha, by cases a <;> simp_all⟩
    · rintro ⟨a, ha, hn⟩ h
      exact h a ha (by cases a <;> simp_all)

/-! ### Tables -/

theorem column_ok {rows : List (List V)} {len i : Nat} (hi : i < len) (h : ∀ r ∈ rows, r.length = len) :
    ∃ c, column rows len i = some c ∧ c.length = rows.length ∧
      ∀ j (hj : j < rows.length), c[j]? = (rows[j])[i]? := by
  induction rows with
  | nil => exact ⟨[], rfl, rfl, fun j hj => by simp at hj⟩
  | cons r rows ih =>
    obtain ⟨c, hc, hl, hg⟩ := ih (fun x hx => h x (List.mem_cons_of_mem _ hx))
    have hr : r.length = len := h r (by simp)
    have hri : r[i]? = some (r[i]'(by omega)) := List.getElem?_eq_getElem (by omega)
    refine ⟨r[i]'(by omega) :: c, ?_, by simp [hl], ?_⟩
    · simp only [column] at hc
      simp only [column, List.mapM_cons, hr, ne_eq, not_true_eq_false, if_false, hri, hc]
      rfl
    · intro j hj
      cases j with
      | zero => simp [hri]
      | succ j => simpa using hg j (by simpa using hj)

theorem mapM_some {α β : Type} {f : α → Option β} : ∀ {xs : List α}, (∀ x ∈ xs, ∃ y, f x = some y) →
    ∃ ys, xs.mapM f = some ys ∧ ys.length = xs.length ∧ ∀ i (h : i < xs.length), ys[i]? = f xs[i] := by
  intro xs
  induction xs with
  | nil => intro _; exact ⟨[], rfl, rfl, fun i h => by simp at h⟩
  | cons x xs ih =>
    intro h
    obtain ⟨y, hy⟩ := h x (by simp)
    obtain ⟨ys, h1, h2, h3⟩ := ih (fun z hz => h z (List.mem_cons_of_mem _ hz))
    refine ⟨y :: ys, by simp [List.mapM_cons, hy, h1], by simp [h2], ?_⟩
    intro i hi
    cases i with
    | zero => simp [hy]
    | succ i => simpa using h3 i (by simpa using hi)

theorem mapM_none {α β : Type} {f : α → Option β} : ∀ {xs : List α}, (∃ x ∈ xs, f x = none) →
    xs.mapM f = none := by
  intro xs
  induction xs with
  | nil => rintro ⟨x, hx, _⟩; simp at hx
  | cons x xs ih =>
    rintro ⟨z, hz, hn⟩
    rw [List.mapM_cons]
    rcases List.mem_cons.1 hz with rfl | hz
    · rw [hn]; rfl
    · rw [ih ⟨z, hz, hn⟩]
      cases f x <;> rfl

/-- Rows of one length are turned into columns: place `(i, j)` of the result is place `(j, i)`.  Rows of
different lengths are refused, if the first row is not empty. -/
theorem C157_transpose_partial (r : List V) (rows : List (List V)) :
    ((∀ x ∈ rows, x.length = r.length) → ∃ t, transpose (r :: rows) = some t ∧ t.length = r.length ∧
      ∀ i (hi : i < t.length), t[i].length = rows.length + 1 ∧
        ∀ j (hj : j < (r :: rows).length), t[i][j]? = ((r :: rows)[j])[i]?) ∧
    (r ≠ [] → (∃ x ∈ rows, x.length ≠ r.length) → transpose (r :: rows) = none) := by
  constructor
  · intro h
    have hall : ∀ x ∈ r :: rows, x.length = r.length := by
      intro x hx
      rcases List.mem_cons.1 hx with rfl | hx
      · rfl
      · exact h x hx
    obtain ⟨t, h1, h2, h3⟩ := mapM_some (f := column (r :: rows) r.length) (xs := List.range r.length)
      (fun i hi => by
        obtain ⟨c, hc, _⟩ := column_ok (List.mem_range.1 hi) hall
        exact ⟨c, hc⟩)
    rw [List.length_range] at h2
    refine ⟨t, h1, h2, ?_⟩
    intro i hi
    obtain ⟨c, hc, hcl, hcg⟩ := column_ok (i := i) (by omega) hall
    have := h3 i (by rw [List.length_range]; omega)
    rw [List.getElem?_eq_getElem hi, List.getElem_range, hc, Option.some.injEq] at this
    rw [this]
    exact ⟨by simp [hcl], hcg⟩
  · intro hr ⟨x, hx, hl⟩
    refine mapM_none ⟨0, List.mem_range.2 (List.length_pos_iff.2 hr), ?_⟩
    refine mapM_none ⟨x, List.mem_cons_of_mem _ hx, ?_⟩
    rw [if_pos hl]

example : transpose [[1, 2, 3], [4, 5, 6]] = some [[1, 4], [2, 5], [3, 6]] := by decide

/-- An empty first row hides that the others are longer: `[[], [1]].transpose` is `[]`, not an IndexError. -/
theorem C157_transpose_fails : transpose [[], [1]] = some [] := rfl

theorem zipPull_take (n : Nat) : ∀ (ys buf : List V), buf.length < n →
    zipPull n ys buf = buf ++ ys.take (n - buf.length) := by
  intro ys
  induction ys with
  | nil => intro buf _; simp [zipPull]
  | cons y ys ih =>
    intro buf h
    simp only [zipPull, List.length_append, List.length_singleton]
    have : n - buf.length = (n - buf.length - 1) + 1 := by omega
    rw [this, List.take_succ_cons]
    split
    · have : n - buf.length - 1 = 0 := by omega
      simp [this]
    · rw [ih _ (by simp; omega)]
      simp only [List.length_append, List.length_singleton, List.append_assoc, List.singleton_append]
      congr 3

/-- What an argument of `zip` yields. -/
def ZipArg.elems : ZipArg V → List V
  | .arr ys => ys
  | .each ys => ys

/-- `zip` gives one row for each element: the element and what each argument has at its place, nil beyond its
end, whether the argument is an Array or only has `each`. -/
theorem C157_zip (nil : V) (xs : List V) (args : List (ZipArg V)) :
    (zip nil xs args).length = xs.length ∧
    ∀ i (hi : i < xs.length), (zip nil xs args)[i]? = some (xs[i] :: args.map fun a => a.elems[i]?.getD nil) := by
  refine ⟨by simp [zip], ?_⟩
  intro i hi
  simp only [zip, List.getElem?_map, List.getElem?_zipIdx, List.getElem?_eq_getElem hi, Option.map_some,
    List.map_map, Nat.zero_add, Option.some.injEq, List.cons.injEq, true_and]
  apply List.map_congr_left
  intro a _
  have hget : ∀ l : List V, (if i < l.length then l[i]?.getD nil else nil) = l[i]?.getD nil := by
    intro l
    split
    · rfl
    · rw [List.getElem?_eq_none (by omega)]; rfl
  cases a with
  | arr ys => simp only [Function.comp_def, hget, ZipArg.elems]
  | each ys =>
    have h0 : ¬ xs.length = 0 := by omega
    simp only [Function.comp_def, hget, ZipArg.elems, h0, if_false]
    rw [zipPull_take _ _ _ (by simp; omega)]
    simp only [List.nil_append, List.length_nil, Nat.sub_zero, List.getElem?_take, hi, if_true]

example : zip 0 [1, 2] [.arr [3], .each [4, 5, 6]] = [[1, 3, 4], [2, 0, 5]] := by decide

theorem at_nat (nil : V) (xs : List V) (i : Nat) : at' nil xs i = xs[i]?.getD nil := by
  have : ¬ ((i : Int) < 0) := by omega
  simp [at', this]

theorem walk_spec (nil : V) (xs : List V) (e : Int) : ∀ (n p : Nat), (e - p + 1).toNat = n →
    walk nil xs e n p = (List.range n).map fun k => xs[p + k]?.getD nil := by
  intro n
  induction n with
  | zero => intro p _; rfl
  | succ n ih =>
    intro p h
    have := ih (p + 1) (by omega)
    simp only [walk]
    rw [if_pos (by omega), at_nat, List.range_succ_eq_map, List.map_cons, List.map_map]
    congr 1
    rw [show (p : Int) + 1 = ((p + 1 : Nat) : Int) by omega, this]
    apply List.map_congr_left
    intro k _
    simp only [Function.comp_def]
    rw [show p + 1 + k = p + k.succ by omega]

/-- The place before the first element a range end means, for an array of length `n`: behind the last element
if there is no end. -/
def stop (n : Nat) (e : Option Int) (excl : Bool) : Int :=
  match e with
  | none => n
  | some e => (if e < 0 then e + n else e) + (if excl then 0 else 1)

/-- A range in `values_at` gives the elements from its begin up to its end, nil beyond the end of the array, if
its begin is not before the first element. -/
theorem C157_values_at_partial (nil : V) (xs : List V) (b : Option Int) (e : Option Int) (excl : Bool) (p : Nat)
    (hp : (p : Int) = (if b.getD 0 < 0 then b.getD 0 + xs.length else b.getD 0)) :
    valuesAt1 nil xs (.rng b e excl) =
      (List.range (stop xs.length e excl - p).toNat).map fun k => xs[p + k]?.getD nil := by
  simp only [valuesAt1, ← hp]
  rw [if_neg (by omega)]
  have key : ∀ l : Int, l + 1 = stop xs.length e excl ∨ (l + 1 ≤ p ∧ stop xs.length e excl ≤ p) →
      walk nil xs l (l - p + 1).toNat p =
        (List.range (stop xs.length e excl - p).toNat).map fun k => xs[p + k]?.getD nil := by
    intro l hl
    rw [walk_spec nil xs l _ p rfl]
    congr 2
    rcases hl with hl | hl <;> omega
  cases e with
  | none =>
    simp only [Option.getD_none, Option.isSome_none, Bool.false_eq_true, false_and, if_false]
    apply key
    simp only [stop]
    split <;> omega
  | some e =>
    apply key
    simp only [stop, Option.getD_some, Option.isSome_some, true_and]
    cases excl
    · simp only [Bool.false_eq_true, if_false]
      exact .inl trivial
    · simp only [if_true]
      left
      omega

example : valuesAt 0 [1, 2, 3] [.rng (some 1) (some 3) false, .idx (-1), .rng (some (-2)) none true] =
    [2, 3, 0, 3, 2, 3] := by decide

/-- A range that begins before the first element is passed over without a word (Ruby raises RangeError). -/
theorem C157_values_at_fails : valuesAt 0 [1, 2, 3] [.rng (some (-5)) (some 1) false] = [] := by decide

/-! ### Order -/

/-- `<=>` is decided by the first pair that does not compare equal, else by the lengths. -/
theorem C157_cmp {R : Type} (zero : R → Bool) (ofInt : Int → R) (c : V → V → R) (xs ys : List V) :
    (∀ k (hx : k < xs.length) (hy : k < ys.length), (∀ i (hi : i < k), zero (c xs[i] ys[i]) = true) →
      zero (c xs[k] ys[k]) = false → cmp zero ofInt c xs ys = c xs[k] ys[k]) ∧
    ((∀ i (hx : i < xs.length) (hy : i < ys.length), zero (c xs[i] ys[i]) = true) →
      cmp zero ofInt c xs ys = ofInt (if xs.length < ys.length then -1 else if ys.length < xs.length then 1 else 0)) := by
  induction xs generalizing ys with
  | nil =>
    refine ⟨fun k hx => by simp at hx, ?_⟩
    intro _
    cases ys <;> simp [cmp]
  | cons x xs ih =>
    cases ys with
    | nil => exact ⟨fun k hx hy => by simp at hy, fun _ => by simp [cmp]⟩
    | cons y ys =>
      obtain ⟨i1, i2⟩ := ih ys
      constructor
      · intro k hx hy hz hk
        cases k with
        | zero =>
          simp only [List.getElem_cons_zero] at hk ⊢
          simp [cmp, hk]
        | succ k =>
          have h0 := hz 0 (by omega)
          simp only [List.getElem_cons_zero] at h0
          simp only [cmp, h0, if_true, List.getElem_cons_succ] at hk ⊢
          exact i1 k (by simpa using hx) (by simpa using hy)
            (fun i hi => by simpa using hz (i + 1) (by omega)) hk
      · intro hz
        have h0 := hz 0 (by simp) (by simp)
        simp only [List.getElem_cons_zero] at h0
        simp only [cmp, h0, if_true]
        rw [i2 (fun i hx hy => hz (i + 1) (by simpa using hx) (by simpa using hy))]
        simp

/-- `rindex` gives the last place of an equal element. -/
theorem C157_rindex (eq : V → Bool) (xs : List V) (r : Option Nat) (h : rindex eq xs xs.length = r) :
    match r with
    | none => ∀ x ∈ xs, eq x = false
    | some i => ∃ hi : i < xs.length, eq xs[i] = true ∧ ∀ j (hj : j < xs.length), i < j → eq xs[j] = false := by
  have key : ∀ n, n ≤ xs.length → ∀ r, rindex eq xs n = r →
      match r with
      | none => ∀ j (hj : j < xs.length), j < n → eq xs[j] = false
      | some i => ∃ hi : i < xs.length, eq xs[i] = true ∧
          ∀ j (hj : j < xs.length), i < j → j < n → eq xs[j] = false := by
    intro n
    induction n with
    | zero => intro _ r hr; subst hr; simp [rindex]
    | succ n ih =>
      intro hn r hr
      have hg : xs[n]? = some xs[n] := List.getElem?_eq_getElem (by omega)
      simp only [rindex, hg] at hr
      cases he : eq xs[n] with
      | true =>
        rw [he] at hr
        simp only [if_true] at hr
        subst hr
        exact ⟨by omega, he, fun j hj h1 h2 => by omega⟩
      | false =>
        rw [he] at hr
        simp only [Bool.false_eq_true, if_false] at hr
        have := ih (by omega) r hr
        cases r with
        | none =>
          intro j hj hjn
          by_cases hjj : j = n
          · subst hjj; exact he
          · exact this j hj (by omega)
        | some i =>
          obtain ⟨hi, h1, h2⟩ := this
          refine ⟨hi, h1, fun j hj h3 h4 => ?_⟩
          by_cases hjj : j = n
          · subst hjj; exact he
          · exact h2 j hj h3 (by omega)
  have := key xs.length (Nat.le_refl _) r h
  cases r with
  | none =>
    intro x hx
    obtain ⟨j, hj, rfl⟩ := List.mem_iff_getElem.1 hx
    exact this j hj hj
  | some i =>
    obtain ⟨hi, h1, h2⟩ := this
    exact ⟨hi, h1, fun j hj h3 => h2 j hj h3 hj⟩

example : rindex (· == 2) [2, 1, 2, 3] 4 = some 2 := by decide

end Verif.ArrSet
