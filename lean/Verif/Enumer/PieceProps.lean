import Verif.Enumer.Props

/-! # C135: pieces, tables, extremes -/

namespace Verif.Enumer

variable {V : Type}

/-- a list cut wherever two neighbours are not related -/
def runs (R : V → V → Bool) : List V → List (List V)
  | [] => []
  | [x] => [[x]]
  | x :: y :: xs =>
    match runs R (y :: xs) with
    | g :: gs => if R x y then (x :: g) :: gs else [x] :: g :: gs
    | [] => [[x]]

theorem runs_ne (R : V → V → Bool) (x : V) (xs : List V) :
    ∃ t gs, runs R (x :: xs) = (x :: t) :: gs := by
  induction xs generalizing x with
  | nil => exact ⟨[], [], rfl⟩
  | cons y ys ih =>
    obtain ⟨t, gs, h⟩ := ih y
    rw [runs, h]
    simp only
    split_ifs
    · exact ⟨y :: t, gs, rfl⟩
    · exact ⟨[], (y :: t) :: gs, rfl⟩

/-- put in front of the first piece -/
def glue (c : List V) : List (List V) → List (List V)
  | g :: gs => (c ++ g) :: gs
  | [] => []

theorem glue_glue (a b : List V) (gs : List (List V)) : glue a (glue b gs) = glue (a ++ b) gs := by
  cases gs <;> simp [glue]

theorem glue_nil (gs : List (List V)) : glue [] gs = gs := by cases gs <;> rfl

theorem runs_rel {R : V → V → Bool} {x y : V} (xs : List V) (h : R x y = true) :
    runs R (x :: y :: xs) = glue [x] (runs R (y :: xs)) := by
  obtain ⟨t, gs, he⟩ := runs_ne R y xs
  rw [runs, he]
  simp [h, glue]

theorem runs_not {R : V → V → Bool} {x y : V} (xs : List V) (h : R x y = false) :
    runs R (x :: y :: xs) = [x] :: runs R (y :: xs) := by
  obtain ⟨t, gs, he⟩ := runs_ne R y xs
  rw [runs, he]
  simp [h]

theorem glue_cons (c : List V) (g : List V) (gs : List (List V)) : glue c (g :: gs) = (c ++ g) :: gs := rfl

/-- the pieces together are the list, none is empty, neighbours in a piece are related, neighbours
across a cut are not -/
theorem runs_spec (R : V → V → Bool) (xs : List V) :
    (runs R xs).flatten = xs ∧ (∀ g ∈ runs R xs, g ≠ []) ∧
      (∀ g ∈ runs R xs, g.IsChain fun a b => R a b = true) ∧
      (runs R xs).IsChain fun g h => ∀ a ∈ g.getLast?, ∀ b ∈ h.head?, R a b = false := by
  induction xs with
  | nil => simp [runs]
  | cons x xs ih =>
    cases xs with
    | nil => simp [runs]
    | cons y ys =>
      obtain ⟨t, gs, he⟩ := runs_ne R y ys
      obtain ⟨h1, h2, h3, h4⟩ := ih
      rw [he] at h1 h2 h3 h4
      cases hR : R x y with
      | true =>
        rw [runs_rel ys hR, he, glue_cons]
        refine ⟨?_, ?_, ?_, ?_⟩
        · simpa using h1
        · intro g hg
          rcases List.mem_cons.1 hg with rfl | hg
          · simp
          · exact h2 g (by simp [hg])
        · intro g hg
          rcases List.mem_cons.1 hg with rfl | hg
          · have := h3 (y :: t) (by simp)
            simp only [List.singleton_append, List.isChain_cons_cons]
            exact ⟨hR, this⟩
          · exact h3 g (by simp [hg])
        · cases gs with
          | nil => simp
          | cons g gs =>
            rw [List.isChain_cons_cons] at h4 ⊢
            refine ⟨?_, h4.2⟩
            intro a ha b hb
            exact h4.1 a (by simpa using ha) b hb
      | false =>
        rw [runs_not ys hR, he]
        refine ⟨?_, ?_, ?_, ?_⟩
        · simpa using h1
        · intro g hg
          rcases List.mem_cons.1 hg with rfl | hg
          · simp
          · exact h2 g hg
        · intro g hg
          rcases List.mem_cons.1 hg with rfl | hg
          · simp
          · exact h3 g hg
        · rw [List.isChain_cons_cons]
          refine ⟨?_, h4⟩
          intro a ha b hb
          simp at ha hb
          subst ha hb
          exact hR

theorem chunkWhile_loop (p : V → V → Bool) (xs : List V) (out : List (List V)) (c : List V) (prev : V) :
    last2 (xs.foldl (chunkWhileStep p) (out, some (c ++ [prev], prev))) = out ++ glue c (runs p (prev :: xs)) := by
  induction xs generalizing out c prev with
  | nil => simp [runs, glue, last2]
  | cons y ys ih =>
    rw [List.foldl_cons, chunkWhileStep]
    simp only
    cases hp : p prev y with
    | true =>
      simp only [if_true]
      rw [ih out (c ++ [prev]) y, runs_rel ys hp, glue_glue]
    | false =>
      simp only [Bool.false_eq_true, if_false]
      have := ih (out ++ [c ++ [prev]]) [] y
      rw [List.nil_append] at this
      rw [this, runs_not ys hp, glue_nil, glue_cons]
      simp

/-- C135: `chunk_while` and `slice_when` cut the source between the neighbours their block says,
and lose nothing (`runs_spec` says what `runs` is). -/
theorem C135_chunk_while (p : V → V → Bool) (xs : List V) :
    chunkWhile p xs = runs p xs ∧ sliceWhen p xs = runs (fun a b => !p a b) xs := by
  have hc : ∀ q : V → V → Bool, chunkWhile q xs = runs q xs := by
    intro q
    unfold chunkWhile
    rw [go_foldl]
    cases xs with
    | nil => rfl
    | cons x xs =>
      rw [List.foldl_cons]
      have := chunkWhile_loop q xs [] [] x
      rw [List.nil_append, List.nil_append, glue_nil] at this
      exact this
  refine ⟨hc p, ?_⟩
  rw [← hc]
  unfold sliceWhen chunkWhile
  have e : sliceWhenStep p = chunkWhileStep fun a b => !p a b := by
    funext st y
    obtain ⟨out, _ | ⟨c, pr⟩⟩ := st
    · rfl
    · cases hp : p pr y <;> simp [sliceWhenStep, chunkWhileStep, hp]
  rw [e]

example : chunkWhile (fun a b => b == a + 1) [1, 2, 4, 5, 6, 9] = [[1, 2], [4, 5, 6], [9]] := by decide

/-- C135: the pieces of `chunk_while`: together the source, none empty, the block true between
neighbours in a piece and false across a cut. -/
theorem C135_pieces (p : V → V → Bool) (xs : List V) :
    (chunkWhile p xs).flatten = xs ∧ (∀ g ∈ chunkWhile p xs, g ≠ []) ∧
      (∀ g ∈ chunkWhile p xs, g.IsChain fun a b => p a b = true) ∧
      (chunkWhile p xs).IsChain fun g h => ∀ a ∈ g.getLast?, ∀ b ∈ h.head?, p a b = false := by
  rw [(C135_chunk_while p xs).1]
  exact runs_spec p xs

theorem sliceBefore_loop (p : V → Bool) (xs : List V) (out : List (List V)) (c : List V) (last : V) :
    (xs.foldl (sliceBeforeStep p) (out, some (c ++ [last]))).1 ++
        (xs.foldl (sliceBeforeStep p) (out, some (c ++ [last]))).2.toList =
      out ++ glue c (runs (fun _ b => !p b) (last :: xs)) := by
  induction xs generalizing out c last with
  | nil => simp [runs, glue]
  | cons y ys ih =>
    rw [List.foldl_cons]
    cases hp : p y with
    | true =>
      have hs : sliceBeforeStep p (out, some (c ++ [last])) y = (out ++ [c ++ [last]], some ([] ++ [y])) := by
        simp [sliceBeforeStep, hp]
      rw [hs, ih (out ++ [c ++ [last]]) [] y, runs_not ys (by simp [hp]), glue_nil, glue_cons]
      simp
    | false =>
      have hs : sliceBeforeStep p (out, some (c ++ [last])) y = (out, some (c ++ [last] ++ [y])) := by
        simp [sliceBeforeStep, hp]
      rw [hs, ih out (c ++ [last]) y, runs_rel ys (by simp [hp]), glue_glue]

theorem rest_eq (st : List (List V) × List V) : rest st = st.1 ++ rest ([], st.2) := by
  unfold rest
  split_ifs <;> simp

theorem sliceAfter_loop (p : V → Bool) (xs : List V) (out : List (List V)) (c : List V) :
    rest (xs.foldl (sliceAfterStep p) (out, c)) =
      out ++ match xs with | [] => rest ([], c) | _ :: _ => glue c (runs (fun a _ => !p a) xs) := by
  induction xs generalizing out c with
  | nil => exact rest_eq _
  | cons y ys ih =>
    rw [List.foldl_cons]
    cases hp : p y with
    | true =>
      have hs : sliceAfterStep p (out, c) y = (out ++ [c ++ [y]], []) := by simp [sliceAfterStep, hp]
      rw [hs, ih]
      cases ys with
      | nil => simp [runs, glue, rest]
      | cons z zs =>
        simp only
        rw [glue_nil, runs_not zs (by simp [hp]), glue_cons]
        simp
    | false =>
      have hs : sliceAfterStep p (out, c) y = (out, c ++ [y]) := by simp [sliceAfterStep, hp]
      rw [hs, ih]
      cases ys with
      | nil => simp [runs, glue, rest]
      | cons z zs =>
        simp only
        rw [runs_rel zs (by simp [hp]), glue_glue]

/-- C135: `slice_before` begins a piece at every match, `slice_after` ends one there. -/
theorem C135_slice_before_after (p : V → Bool) (xs : List V) :
    sliceBefore p xs = runs (fun _ b => !p b) xs ∧ sliceAfter p xs = runs (fun a _ => !p a) xs := by
  constructor
  · unfold sliceBefore
    rw [go_foldl]
    cases xs with
    | nil => rfl
    | cons x xs =>
      rw [List.foldl_cons]
      have := sliceBefore_loop p xs [] [] x
      rw [List.nil_append, List.nil_append, glue_nil] at this
      rw [← this]
      have hs : sliceBeforeStep p ([], none) x = ([], some [x]) := by
        cases hp : p x <;> simp [sliceBeforeStep, hp]
      rw [hs]
  · unfold sliceAfter
    rw [go_foldl, sliceAfter_loop]
    cases xs with
    | nil => rfl
    | cons x xs => simp only; rw [glue_nil, List.nil_append]

example : sliceBefore (· == 0) [1, 0, 2, 0, 0] = [[1], [0, 2], [0], [0]] ∧
    sliceAfter (· == 0) [1, 0, 2, 0, 0, 3] = [[1, 0], [2, 0], [0], [3]] := by decide

/-- C135: the boundary is the pattern's, or the block's; but a pattern that is `nil` is taken for
no pattern, and the absent block is called. -/
theorem C135_boundary_partial (b m : V → Bool) :
    boundary (some b) none = some b ∧ boundary none (some m) = some m := ⟨rfl, rfl⟩

theorem C135_boundary_nil_fails : boundary (V := V) none none = none := rfl

/-! ## slices and windows of a given length -/

theorem eachSlice_loop (n : Nat) (hn : 0 < n) (ys : List V) (out : List (List V)) (slice : List V)
    (h1 : ∀ g ∈ out, g.length = n) (h2 : slice.length < n) :
    let R := ys.foldl (eachSliceStep n) (out, slice)
    (∀ g ∈ R.1, g.length = n) ∧ R.2.length < n ∧ R.1.flatten ++ R.2 = out.flatten ++ slice ++ ys := by
  induction ys generalizing out slice with
  | nil => exact ⟨h1, h2, by simp⟩
  | cons y ys ih =>
    rw [List.foldl_cons]
    by_cases hl : (slice ++ [y]).length = n
    · have hs : eachSliceStep n (out, slice) y = (out ++ [slice ++ [y]], []) := by
        rw [eachSliceStep, if_pos hl]
      rw [hs]
      obtain ⟨a, b, c⟩ := ih (out ++ [slice ++ [y]]) [] (by
        intro g hg
        rcases List.mem_append.1 hg with hg | hg
        · exact h1 g hg
        · simp only [List.mem_singleton] at hg; rw [hg, hl]) (by simpa using hn)
      exact ⟨a, b, c.trans (by simp)⟩
    · have hs : eachSliceStep n (out, slice) y = (out, slice ++ [y]) := by
        rw [eachSliceStep, if_neg hl]
      rw [hs]
      obtain ⟨a, b, c⟩ := ih out (slice ++ [y]) h1 (by simp at hl ⊢; omega)
      exact ⟨a, b, c.trans (by simp)⟩

/-- C135: `each_slice(n)` yields the source in pieces of `n`, only the last one shorter. -/
theorem C135_each_slice (n : Nat) (hn : 0 < n) (xs : List V) :
    (eachSlice n xs).flatten = xs ∧ (∀ g ∈ eachSlice n xs, 0 < g.length ∧ g.length ≤ n) ∧
      (∀ g ∈ (eachSlice n xs).dropLast, g.length = n) ∧
      (eachSlice n xs).length = (xs.length + n - 1) / n := by
  obtain ⟨a, b, c⟩ := eachSlice_loop n hn xs [] [] (by simp) (by simpa using hn)
  unfold eachSlice
  rw [go_foldl]
  generalize xs.foldl (eachSliceStep n) ([], []) = R at a b c
  obtain ⟨out, slice⟩ := R
  simp only [List.flatten_nil, List.nil_append] at a b c
  have hlen : out.flatten.length = out.length * n := by
    clear c
    induction out with
    | nil => simp
    | cons g gs ih =>
      rw [List.flatten_cons, List.length_append, ih fun x hx => a x (by simp [hx]), a g (by simp), List.length_cons,
        Nat.succ_mul, Nat.add_comm]
  have hx : xs.length = out.length * n + slice.length := by rw [← c, List.length_append, hlen]
  unfold rest
  by_cases hs : slice = []
  · simp only [if_pos hs]
    subst hs
    refine ⟨by simpa using c, fun g hg => ?_, fun g hg => a g (List.dropLast_subset _ hg), ?_⟩
    · rw [a g hg]; omega
    · rw [hx]
      have : out.length * n + ([] : List V).length + n - 1 = (n - 1) + out.length * n := by simp; omega
      rw [this, Nat.add_mul_div_right _ _ hn, Nat.div_eq_of_lt (by omega)]
      omega
  · simp only [if_neg hs]
    have hsp : 0 < slice.length := List.length_pos_iff.2 hs
    refine ⟨by simpa using c, fun g hg => ?_, fun g hg => ?_, ?_⟩
    · rcases List.mem_append.1 hg with hg | hg
      · rw [a g hg]; omega
      · simp only [List.mem_singleton] at hg
        subst hg
        omega
    · rw [List.dropLast_concat] at hg
      exact a g hg
    · rw [hx, List.length_append, List.length_singleton]
      have : out.length * n + slice.length + n - 1 = (slice.length - 1) + (out.length + 1) * n := by
        rw [Nat.succ_mul]; omega
      rw [this, Nat.add_mul_div_right _ _ hn, Nat.div_eq_of_lt (by omega)]
      omega

example : eachSlice 2 [1, 2, 3, 4, 5] = [[1, 2], [3, 4], [5]] := by decide

/-- the windows of a list -/
def windows (n : Nat) (zs : List V) : List (List V) :=
  (List.range (zs.length + 1 - n)).map fun i => (zs.drop i).take n

theorem eachCons_step (n : Nat) (hn : 0 < n) (zs : List V) (y : V) :
    eachConsStep n (windows n zs, zs.drop (zs.length - n)) y =
      (windows n (zs ++ [y]), (zs ++ [y]).drop ((zs ++ [y]).length - n)) := by
  have hbuf : (if (zs.drop (zs.length - n) ++ [y]).length > n then (zs.drop (zs.length - n) ++ [y]).tail
      else zs.drop (zs.length - n) ++ [y]) = (zs ++ [y]).drop ((zs ++ [y]).length - n) := by
    by_cases hz : zs.length ≥ n
    · have h1 : (zs.drop (zs.length - n) ++ [y]).length > n := by simp; omega
      rw [if_pos h1]
      have h2 : zs.drop (zs.length - n) ++ [y] = (zs ++ [y]).drop (zs.length - n) := by
        rw [List.drop_append_of_le_length (by omega)]
      rw [h2, List.tail_drop]
      congr 1
      simp; omega
    · have h1 : ¬ (zs.drop (zs.length - n) ++ [y]).length > n := by simp; omega
      rw [if_neg h1]
      have h2 : zs.length - n = 0 := by omega
      have h3 : (zs ++ [y]).length - n = 0 := by simp; omega
      rw [h2, h3]
      simp
  unfold eachConsStep
  simp only
  rw [hbuf]
  congr 1
  have hl : ((zs ++ [y]).drop ((zs ++ [y]).length - n)).length = min n (zs.length + 1) := by simp; omega
  have hsame : windows n zs = (List.range (zs.length + 1 - n)).map (fun i => ((zs ++ [y]).drop i).take n) := by
    apply List.map_congr_left
    intro i hi
    rw [List.mem_range] at hi
    rw [List.drop_append_of_le_length (by omega), List.take_append_of_le_length (by simp; omega)]
  by_cases hc : ((zs ++ [y]).drop ((zs ++ [y]).length - n)).length = n
  · rw [if_pos hc, hsame]
    have h1 : (zs ++ [y]).length + 1 - n = (zs.length + 1 - n) + 1 := by simp; omega
    unfold windows
    rw [h1, List.range_succ, List.map_append]
    congr 1
    simp only [List.map_cons, List.map_nil]
    congr 1
    have h2 : (zs ++ [y]).length - n = zs.length + 1 - n := by simp
    rw [← h2, List.take_of_length_le]
    omega
  · rw [if_neg hc, hsame]
    have h1 : (zs ++ [y]).length + 1 - n = 0 := by simp; omega
    have h2 : zs.length + 1 - n = 0 := by simp at h1; omega
    unfold windows
    rw [h1, h2]

/-- C135: `each_cons(n)` yields every window of `n` neighbours, in order. -/
theorem C135_each_cons (n : Nat) (hn : 0 < n) (xs : List V) :
    eachCons n xs = (List.range (xs.length + 1 - n)).map fun i => (xs.drop i).take n := by
  unfold eachCons
  rw [go_foldl]
  have key : ∀ (ys zs : List V), ys.foldl (eachConsStep n) (windows n zs, zs.drop (zs.length - n)) =
        (windows n (zs ++ ys), (zs ++ ys).drop ((zs ++ ys).length - n)) := by
    intro ys
    induction ys with
    | nil => intro zs; simp
    | cons y ys ih =>
      intro zs
      rw [List.foldl_cons, eachCons_step n hn, ih (zs ++ [y])]
      simp
  have := key xs []
  have h0 : windows n ([] : List V) = [] := by
    unfold windows
    have h0 : ([] : List V).length + 1 - n = 0 := by simp; omega
    rw [h0]
    rfl
  simp only [List.nil_append, List.drop_nil, h0] at this
  rw [this]
  rfl

example : eachCons 2 [1, 2, 3] = [[1, 2], [2, 3]] := by decide

end Verif.Enumer
