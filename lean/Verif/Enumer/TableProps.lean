import Verif.Enumer.PieceProps

/-! # C135, C136: chunk, tables, extremes, zip, cycle, sum -/

namespace Verif.Enumer

variable {V : Type}

section chunk
variable {K : Type} [DecidableEq K]

/-- two neighbours that belong to one chunk -/
def sameKey (f : V → Key K) (a b : V) : Bool :=
  match f a, f b with
  | .key k, .key k' => k = k'
  | _, _ => false

/-- the chunk a run of neighbours becomes -/
def label (f : V → Key K) : List V → Option (Option K × List V)
  | [] => none
  | x :: xs =>
    match f x with
    | .drop => none
    | .alone => some (none, x :: xs)
    | .key k => some (some k, x :: xs)

theorem label_glue (f : V → Key K) {x : V} {k : K} (c t : List V) (hx : f x = .key k) (hc : ∀ y ∈ c, f y = .key k) :
    label f (c ++ x :: t) = some (some k, c ++ x :: t) := by
  cases c with
  | nil => simp [label, hx]
  | cons y ys => simp [label, hc y (by simp)]

theorem chunk_loop (f : V → Key K) (xs : List V) (out : List (Option K × List V)) :
    (∀ (c : List V) (prev : V) (k : K), (∀ y ∈ c, f y = .key k) → f prev = .key k →
      flush (xs.foldl (chunkStep f) (out, some (k, c ++ [prev]))).1
          (xs.foldl (chunkStep f) (out, some (k, c ++ [prev]))).2 =
        out ++ (glue c (runs (sameKey f) (prev :: xs))).filterMap (label f)) ∧
    flush (xs.foldl (chunkStep f) (out, none)).1 (xs.foldl (chunkStep f) (out, none)).2 =
        out ++ (runs (sameKey f) xs).filterMap (label f) := by
  induction xs generalizing out with
  | nil =>
    refine ⟨fun c prev k hc hp => ?_, by simp [flush, runs]⟩
    simp only [List.foldl_nil, flush, runs, glue_cons, List.filterMap_cons, List.filterMap_nil]
    rw [label_glue f c [] hp hc]
  | cons y ys ih =>
    have hnone : ∀ out : List (Option K × List V),
        flush (ys.foldl (chunkStep f) (out, none)).1 (ys.foldl (chunkStep f) (out, none)).2 =
          out ++ (runs (sameKey f) ys).filterMap (label f) := fun out => (ih out).2
    -- a value that begins something, with nothing pending
    have hstart : ∀ out : List (Option K × List V),
        flush (ys.foldl (chunkStep f) (chunkStep f (out, none) y)).1 (ys.foldl (chunkStep f) (chunkStep f (out, none) y)).2 =
          out ++ (runs (sameKey f) (y :: ys)).filterMap (label f) := by
      intro out
      have single : (∀ k, f y ≠ .key k) → (runs (sameKey f) (y :: ys)).filterMap (label f) =
          (label f [y]).toList ++ (runs (sameKey f) ys).filterMap (label f) := by
        intro hk
        cases ys with
        | nil => simp [runs, List.filterMap_cons]; cases label f [y] <;> rfl
        | cons z zs =>
          rw [runs_not zs (by unfold sameKey; cases hy : f y <;> first | exact absurd hy (hk _) | rfl)]
          rw [List.filterMap_cons]
          cases label f [y] <;> simp
      cases hy : f y with
      | drop =>
        have hs : chunkStep f (out, none) y = (out, none) := by simp [chunkStep, hy, flush]
        rw [hs, hnone, single (by simp [hy])]
        simp [label, hy]
      | alone =>
        have hs : chunkStep f (out, none) y = (out ++ [(none, [y])], none) := by simp [chunkStep, hy, flush]
        rw [hs, hnone, single (by simp [hy])]
        simp [label, hy]
      | key k =>
        have hs : chunkStep f (out, none) y = (out, some (k, [] ++ [y])) := by simp [chunkStep, hy]
        rw [hs, (ih out).1 [] y k (by simp) hy, glue_nil]
    refine ⟨fun c prev k hc hp => ?_, ?_⟩
    · rw [List.foldl_cons]
      by_cases hsame : sameKey f prev y = true
      · have hy : f y = .key k := by
          unfold sameKey at hsame
          rw [hp] at hsame
          cases hy : f y <;> simp [hy] at hsame ⊢
          exact hsame.symm
        have hs : chunkStep f (out, some (k, c ++ [prev])) y = (out, some (k, c ++ [prev] ++ [y])) := by
          simp [chunkStep, hy]
        rw [hs, (ih out).1 (c ++ [prev]) y k (by
          intro z hz
          rcases List.mem_append.1 hz with hz | hz
          · exact hc z hz
          · simp only [List.mem_singleton] at hz; rw [hz, hp]) hy, runs_rel ys hsame, glue_glue]
      · have hns : sameKey f prev y = false := by simpa using hsame
        have hflush : chunkStep f (out, some (k, c ++ [prev])) y =
            chunkStep f (out ++ [(some k, c ++ [prev])], none) y := by
          cases hy : f y with
          | drop => simp [chunkStep, hy, flush]
          | alone => simp [chunkStep, hy, flush]
          | key k' =>
            have hne : k' ≠ k := by
              rintro rfl
              simp [sameKey, hp, hy] at hns
            simp [chunkStep, hy, hne]
        rw [hflush, hstart, runs_not ys hns, glue_cons, List.filterMap_cons, label_glue f c [] hp hc]
        simp
    · rw [List.foldl_cons]
      exact hstart out

/-- C135: `chunk` gives the runs of neighbours with one key, each with its key; values with the key
`nil` (or `:_separator`) are left out, values with `:_alone` are by themselves, and both end a run. -/
theorem C135_chunk (f : V → Key K) (xs : List V) :
    chunk f xs = (runs (sameKey f) xs).filterMap (label f) := by
  have := (chunk_loop f xs []).2
  unfold chunk
  rw [go_foldl, this]
  rfl

/-- C135: `chunk` loses only the values it leaves out, and keeps the order. -/
theorem C135_chunk_flatten (f : V → Key K) (xs : List V) :
    ((chunk f xs).map Prod.snd).flatten = xs.filter (fun x => f x ≠ .drop) := by
  rw [C135_chunk]
  obtain ⟨h1, h2, h3, h4⟩ := runs_spec (sameKey f) xs
  clear h4
  generalize runs (sameKey f) xs = gs at h1 h2 h3
  subst h1
  induction gs with
  | nil => rfl
  | cons g gs ih =>
    have ih := ih (fun x hx => h2 x (by simp [hx])) (fun x hx => h3 x (by simp [hx]))
    cases g with
    | nil => exact absurd rfl (h2 [] (by simp))
    | cons x t =>
      have hchain := h3 (x :: t) (by simp)
      rw [List.flatten_cons, List.filter_append, ← ih, List.filterMap_cons]
      -- all of a run of two or more have keys
      have hall : ∀ (t : List V) (x : V), (x :: t).IsChain (fun a b => sameKey f a b = true) →
          t ≠ [] → (∀ y ∈ x :: t, f y ≠ .drop) := by
        intro t
        induction t with
        | nil => intro x _ h; exact absurd rfl h
        | cons z zs ih2 =>
          intro x hc _ y hy
          rw [List.isChain_cons_cons] at hc
          have hx : f x ≠ .drop ∧ f z ≠ .drop := by
            have := hc.1
            unfold sameKey at this
            constructor
            · intro h0; simp [h0] at this
            · intro h0; cases hfx : f x <;> simp [h0, hfx] at this
          rcases List.mem_cons.1 hy with rfl | hy
          · exact hx.1
          · cases zs with
            | nil => simp only [List.mem_singleton] at hy; rw [hy]; exact hx.2
            | cons w ws => exact ih2 z hc.2 (by simp) y hy
      cases hx : f x with
      | drop =>
        have ht : t = [] := by
          by_contra ht
          exact hall t x hchain ht x (by simp) hx
        subst ht
        simp [label, hx]
      | alone =>
        have hf : (x :: t).filter (fun x => decide (f x ≠ .drop)) = x :: t := by
          rw [List.filter_eq_self]
          intro y hy
          by_cases ht : t = []
          · subst ht; simp only [List.mem_singleton] at hy; simp [hy, hx]
          · simpa using hall t x hchain ht y hy
        rw [hf]
        simp [label, hx]
      | key k =>
        have hf : (x :: t).filter (fun x => decide (f x ≠ .drop)) = x :: t := by
          rw [List.filter_eq_self]
          intro y hy
          by_cases ht : t = []
          · subst ht; simp only [List.mem_singleton] at hy; simp [hy, hx]
          · simpa using hall t x hchain ht y hy
        rw [hf]
        simp [label, hx]

example : chunk (fun n : Nat => if n = 0 then Key.drop else if n = 9 then .alone else .key (n % 2))
    [1, 3, 2, 0, 2, 9, 9, 4] =
    [(some 1, [1, 3]), (some 0, [2]), (some 0, [2]), (none, [9]), (none, [9]), (some 0, [4])] := by decide

end chunk

/-! ## tables -/

theorem look_upd {K X : Type} [DecidableEq K] (k k' : K) (f : Option X → X) (h : List (K × X)) :
    look k' (upd k f h) = if k = k' then some (f (look k h)) else look k' h := by
  induction h with
  | nil => simp [upd, look]
  | cons e h ih =>
    obtain ⟨a, x⟩ := e
    rw [upd]
    by_cases ha : a = k
    · subst ha
      simp only [if_true, look]
      split_ifs <;> rfl
    · simp only [if_neg ha, look, ih]
      by_cases hk : k = k'
      · subst hk; simp [ha]
      · simp [hk]

theorem upd_keys {K X : Type} [DecidableEq K] (k : K) (f : Option X → X) (h : List (K × X)) :
    (upd k f h).map Prod.fst = if k ∈ h.map Prod.fst then h.map Prod.fst else h.map Prod.fst ++ [k] := by
  induction h with
  | nil => simp [upd]
  | cons e h ih =>
    obtain ⟨a, x⟩ := e
    rw [upd]
    by_cases ha : a = k
    · subst ha; simp
    · rw [if_neg ha, List.map_cons, ih]
      simp only [List.map_cons, List.mem_cons]
      have hak : k ≠ a := fun h => ha h.symm
      by_cases hm : k ∈ h.map Prod.fst
      · simp only [hm, or_true, if_true]
      · simp only [hm, hak, or_self, if_false, List.cons_append]

/-- the keys of a table built by a walk: in the order in which they first came -/
theorem keys_go {K X : Type} [DecidableEq K] (key : V → K) (f : V → Option X → X) (xs before : List V)
    (h : List (K × X)) (hb : ∀ k, k ∈ h.map Prod.fst ↔ k ∈ before.map key) :
    ((xs.foldl (fun h x => upd (key x) (f x) h) h).map Prod.fst) =
      h.map Prod.fst ++ Lazy.firsts id (before.map key) (xs.map key) := by
  induction xs generalizing h before with
  | nil => simp [Lazy.firsts]
  | cons x xs ih =>
    rw [List.foldl_cons, ih (before ++ [x])]
    · rw [upd_keys, List.map_cons, Lazy.firsts]
      simp only [id, List.map_id, List.map_append, List.map_cons, List.map_nil]
      by_cases hm : key x ∈ h.map Prod.fst
      · rw [if_pos hm, if_pos ((hb _).1 hm)]
      · rw [if_neg hm, if_neg (fun h' => hm ((hb _).2 h'))]
        simp
    · intro k
      rw [upd_keys]
      simp only [List.map_append, List.map_cons, List.map_nil, List.mem_append, List.mem_singleton]
      by_cases hm : key x ∈ h.map Prod.fst
      · rw [if_pos hm, hb]
        constructor
        · exact Or.inl
        · rintro (h1 | rfl)
          · exact h1
          · exact (hb _).1 hm
      · rw [if_neg hm, List.mem_append, List.mem_singleton, hb]

/-- C135: `group_by` has, under each key that occurs, the values with that key in their order, and
its keys are in the order in which they first came; no other keys. -/
theorem C135_group_by {K : Type} [DecidableEq K] (key : V → K) (xs : List V) :
    (∀ k, look k (groupBy key xs) =
      if k ∈ xs.map key then some (xs.filter fun x => key x = k) else none) ∧
      (groupBy key xs).map Prod.fst = Lazy.firsts id [] (xs.map key) := by
  constructor
  · intro k
    unfold groupBy
    rw [go_foldl]
    have gen : ∀ (xs : List V) (h : List (K × List V)),
        look k (xs.foldl (fun h x => upd (key x) (fun o => o.getD [] ++ [x]) h) h) =
          if k ∈ xs.map key then some ((look k h).getD [] ++ xs.filter fun x => key x = k) else look k h := by
      intro xs
      induction xs with
      | nil => simp
      | cons x xs ih =>
        intro h
        rw [List.foldl_cons, ih, look_upd]
        by_cases hk : key x = k
        · subst hk
          simp only [if_true, List.map_cons, List.mem_cons, true_or, Option.getD_some]
          by_cases hm : key x ∈ xs.map key
          · rw [if_pos hm]; simp
          · rw [if_neg hm]
            have : xs.filter (fun y => decide (key y = key x)) = [] := by
              rw [List.filter_eq_nil_iff]
              intro y hy
              simp only [decide_eq_true_eq]
              intro he
              exact hm (he ▸ List.mem_map_of_mem hy)
            simp [this]
        · have hk' : k ≠ key x := fun h => hk h.symm
          simp only [if_neg hk, List.map_cons, List.mem_cons, hk', false_or]
          simp [hk]
    rw [gen xs []]
    simp [look]
  · unfold groupBy
    rw [go_foldl]
    have := keys_go key (fun x (o : Option (List V)) => o.getD [] ++ [x]) xs [] [] (by simp)
    simpa using this

/-- C135: `tally` counts every value. -/
theorem C135_tally [DecidableEq V] (xs : List V) (v : V) :
    look v (tally xs) = (if v ∈ xs then some (xs.count v) else none) ∧
      (tally xs).map Prod.fst = Lazy.firsts id [] xs := by
  constructor
  · unfold tally
    rw [go_foldl]
    have gen : ∀ (xs : List V) (h : List (V × Nat)),
        look v (xs.foldl (fun h x => upd x (fun o => o.getD 0 + 1) h) h) =
          if v ∈ xs then some ((look v h).getD 0 + xs.count v) else look v h := by
      intro xs
      induction xs with
      | nil => simp
      | cons x xs ih =>
        intro h
        rw [List.foldl_cons, ih, look_upd]
        by_cases hk : x = v
        · subst hk
          simp only [if_true, List.mem_cons, true_or, Option.getD_some, List.count_cons_self]
          by_cases hm : x ∈ xs
          · rw [if_pos hm]; congr 1; omega
          · rw [if_neg hm, List.count_eq_zero_of_not_mem hm]
        · have hk' : v ≠ x := fun h => hk h.symm
          simp only [if_neg hk, List.mem_cons, hk', false_or]
          rw [List.count_cons_of_ne hk]
    rw [gen xs []]
    simp [look]
  · unfold tally
    rw [go_foldl]
    have := keys_go (fun x : V => x) (fun _ (o : Option Nat) => o.getD 0 + 1) xs [] [] (by simp)
    simpa using this

example : groupBy (· % 3) [1, 2, 4, 3, 5] = [(1, [1, 4]), (2, [2, 5]), (0, [3])] := by decide

/-! ## extremes -/

section order
variable {K : Type} [LinearOrder K]

theorem minBy_foldl (f : V → K) (xs : List V) (e : V) :
    ∃ r, xs.foldl (minStep f) (some (e, f e)) = some (r, f r) ∧
      ∃ pre post, e :: xs = pre ++ r :: post ∧ (∀ y ∈ pre, f r < f y) ∧ ∀ y ∈ post, f r ≤ f y := by
  induction xs generalizing e with
  | nil => exact ⟨e, rfl, [], [], rfl, by simp, by simp⟩
  | cons x xs ih =>
    rw [List.foldl_cons]
    by_cases hx : f x < f e
    · rw [show minStep f (some (e, f e)) x = some (x, f x) by simp [minStep, hx]]
      obtain ⟨r, hr, pre, post, he, h1, h2⟩ := ih x
      refine ⟨r, hr, e :: pre, post, by rw [he]; rfl, ?_, h2⟩
      intro y hy
      rcases List.mem_cons.1 hy with rfl | hy
      · have hxr : f r ≤ f x := by
          have hxm : x ∈ pre ++ r :: post := he ▸ List.mem_cons_self
          rcases List.mem_append.1 hxm with h | h
          · exact (h1 x h).le
          · rcases List.mem_cons.1 h with rfl | h
            · exact le_refl _
            · exact h2 x h
        exact lt_of_le_of_lt hxr hx
      · exact h1 y hy
    · rw [show minStep f (some (e, f e)) x = some (e, f e) by simp [minStep, hx]]
      obtain ⟨r, hr, pre, post, he, h1, h2⟩ := ih e
      refine ⟨r, hr, ?_⟩
      cases pre with
      | nil =>
        simp only [List.nil_append, List.cons.injEq] at he
        obtain ⟨rfl, rfl⟩ := he
        refine ⟨[], x :: xs, rfl, by simp, ?_⟩
        intro y hy
        rcases List.mem_cons.1 hy with rfl | hy
        · exact not_lt.1 hx
        · exact h2 y hy
      | cons a pre =>
        simp only [List.cons_append, List.cons.injEq] at he
        obtain ⟨rfl, he⟩ := he
        refine ⟨e :: x :: pre, post, by rw [he]; rfl, ?_, h2⟩
        intro y hy
        rcases List.mem_cons.1 hy with rfl | hy
        · exact h1 y (by simp)
        · rcases List.mem_cons.1 hy with rfl | hy
          · exact lt_of_lt_of_le (h1 e (by simp)) (not_lt.1 hx)
          · exact h1 y (by simp [hy])

theorem minBy_cons (f : V → K) (x : V) (xs : List V) :
    ∃ r, minBy f (x :: xs) = some r ∧
      ∃ pre post, x :: xs = pre ++ r :: post ∧ (∀ y ∈ pre, f r < f y) ∧ ∀ y ∈ post, f r ≤ f y := by
  obtain ⟨r, hr, h⟩ := minBy_foldl f xs x
  refine ⟨r, ?_, h⟩
  unfold minBy
  rw [go_foldl, List.foldl_cons]
  show (List.foldl (minStep f) (some (x, f x)) xs).map Prod.fst = _
  rw [hr]
  rfl

theorem maxBy_dual (f : V → K) (xs : List V) : maxBy f xs = minBy (fun v => OrderDual.toDual (f v)) xs := rfl

/-- C135: `min_by` and `max_by` (and `min`, `max`) give the first of the least, the first of the
greatest, and `nil` for nothing. -/
theorem C135_min_max (f : V → K) (x : V) (xs : List V) :
    (∃ r, minBy f (x :: xs) = some r ∧
      ∃ pre post, x :: xs = pre ++ r :: post ∧ (∀ y ∈ pre, f r < f y) ∧ ∀ y ∈ post, f r ≤ f y) ∧
    (∃ r, maxBy f (x :: xs) = some r ∧
      ∃ pre post, x :: xs = pre ++ r :: post ∧ (∀ y ∈ pre, f y < f r) ∧ ∀ y ∈ post, f y ≤ f r) ∧
    minBy f [] = none ∧ maxBy f [] = none := by
  refine ⟨minBy_cons f x xs, ?_, rfl, rfl⟩
  obtain ⟨r, hr, pre, post, he, h1, h2⟩ := minBy_cons (fun v => OrderDual.toDual (f v)) x xs
  refine ⟨r, by rw [maxBy_dual]; exact hr, pre, post, he, ?_, ?_⟩
  · intro y hy; exact OrderDual.toDual_lt_toDual.1 (h1 y hy)
  · intro y hy; exact OrderDual.toDual_le_toDual.1 (h2 y hy)

example : minBy (· % 3) [5, 4, 1, 7] = some 4 ∧ maxBy (· % 3) [4, 5, 2] = some 5 := by decide

/-- C135: `minmax_by` (and `minmax` with a block) is `min_by` and `max_by` in one walk. -/
theorem C135_minmax_by (f : V → K) (xs : List V) :
    minmaxBy f xs = match minBy f xs, maxBy f xs with
      | some a, some b => some (a, b)
      | _, _ => none := by
  cases xs with
  | nil => rfl
  | cons x xs =>
    unfold minmaxBy minBy maxBy
    rw [go_foldl, go_foldl, go_foldl, List.foldl_cons, List.foldl_cons, List.foldl_cons]
    show (xs.foldl (minmaxStep f) (some ((x, f x), (x, f x)))).map _ =
      match (xs.foldl (minStep f) (some (x, f x))).map Prod.fst, (xs.foldl (maxStep f) (some (x, f x))).map Prod.fst with
      | some a, some b => some (a, b)
      | _, _ => none
    have key : ∀ (xs : List V) (a b : V × K), ∃ a' b',
        xs.foldl (minStep f) (some a) = some a' ∧ xs.foldl (maxStep f) (some b) = some b' ∧
          xs.foldl (minmaxStep f) (some (a, b)) = some (a', b') := by
      intro xs
      induction xs with
      | nil => intro a b; exact ⟨a, b, rfl, rfl, rfl⟩
      | cons y ys ih =>
        intro a b
        simp only [List.foldl_cons]
        obtain ⟨a', b', h1, h2, h3⟩ := ih (if f y < a.2 then (y, f y) else a) (if b.2 < f y then (y, f y) else b)
        refine ⟨a', b', ?_, ?_, h3⟩
        · rw [← h1]; congr 1; unfold minStep; simp only; split_ifs <;> rfl
        · rw [← h2]; congr 1; unfold maxStep; simp only; split_ifs <;> rfl
    obtain ⟨a', b', h1, h2, h3⟩ := key xs (x, f x) (x, f x)
    rw [h1, h2, h3]
    rfl

/-- C135: `minmax` without a block is the least and the greatest as long as the source yields the
same when it is walked again. -/
theorem C135_minmax_partial (walks : Nat → List K) (x : K) (xs : List K) (h0 : walks 0 = x :: xs)
    (h1 : walks 1 = x :: xs) :
    ∃ a b, minmax walks = (some a, some b) ∧ a ∈ x :: xs ∧ b ∈ x :: xs ∧ ∀ y ∈ x :: xs, a ≤ y ∧ y ≤ b := by
  obtain ⟨⟨a, ha, pre, post, hs, hp, hq⟩, ⟨b, hb, pre', post', hs', hp', hq'⟩, _⟩ := C135_min_max (id : K → K) x xs
  refine ⟨a, b, ?_, by rw [hs]; simp, by rw [hs']; simp, ?_⟩
  · unfold minmax
    rw [h0, h1, ha, hb]
  · intro y hy
    constructor
    · rw [hs] at hy
      rcases List.mem_append.1 hy with hy | hy
      · exact (hp y hy).le
      · rcases List.mem_cons.1 hy with rfl | hy
        · exact le_refl _
        · exact hq y hy
    · rw [hs'] at hy
      rcases List.mem_append.1 hy with hy | hy
      · exact (hp' y hy).le
      · rcases List.mem_cons.1 hy with rfl | hy
        · exact le_refl _
        · exact hq' y hy

end order

/-- C135: a source that can be walked once, such as the lines of a pipe, has no maximum. -/
theorem C135_minmax_once_fails :
    minmax (fun i => if i = 0 then [3, 1, 2] else []) = (some 1, (none : Option Nat)) := by decide

/-! ## zip and cycle -/

/-- C135: `zip` pairs each value with the one at its place in the argument, `nil` when that has
ended. -/
theorem C135_zip (xs other : List V) : (zip xs other).1 = xs.mapIdx fun i x => (x, other[i]?) := by
  unfold zip
  have hoa : go (fun res x => res ++ [x]) [] other = other := by
    have := (C135_arrays (fun _ => true) (id : V → V) (fun _ => none) (fun x : V => (.inl x : V ⊕ List V)) 0 other).1
    simpa [map] using this
  simp only [hoa]
  rw [go_foldl]
  have key : ∀ (ys : List V) (res : List (V × Option V)) (i : Nat),
      (ys.foldl (fun (x : List (V × Option V) × Nat) x_1 => match x with
        | (res, i) => (res ++ [(x_1, other[i]?)], i + 1)) (res, i)).1 =
        res ++ ys.mapIdx fun j x => (x, other[i + j]?) := by
    intro ys
    induction ys with
    | nil => simp
    | cons y ys ih =>
      intro res i
      rw [List.foldl_cons]
      simp only
      rw [ih, List.mapIdx_cons]
      have : (fun j (x : V) => (x, other[i + 1 + j]?)) = fun j x => (x, other[i + (j + 1)]?) := by
        funext j x; rw [Nat.add_right_comm, Nat.add_assoc]
      rw [this]
      simp
  have := key xs [] 0
  simpa using this

/-- C135: but it walks the whole argument first: with an argument that never ends it does not
return, however short the receiver. -/
theorem C135_zip_lazy_fails (xs other : List V) : (zip xs other).2 = other.length := by
  unfold zip
  have : ∀ (ys acc : List V), (each (fun (res : List V) x => (res ++ [x], false)) acc ys).2.1 = ys.length := by
    intro ys
    induction ys with
    | nil => intro acc; rfl
    | cons y ys ih => intro acc; rw [each]; simp [ih]
  exact this other []

/-- C135: `cycle(n)` yields the source `n` times over, from one walk of it. -/
theorem C135_cycle (n : Int) (xs : List V) : cycle n xs = (List.replicate n.toNat xs).flatten := by
  unfold cycle
  by_cases hn : n ≤ 0
  · have : n.toNat = 0 := by omega
    rw [if_pos hn, this]
    rfl
  · rw [if_neg hn, go_foldl]
    have key : ∀ (ys a b : List V), ys.foldl (fun (x : List V × List V) x_1 => match x with
        | (cache, out) => (cache ++ [x_1], out ++ [x_1])) (a, b) = (a ++ ys, b ++ ys) := by
      intro ys
      induction ys with
      | nil => simp
      | cons y ys ih => intro a b; rw [List.foldl_cons]; simp only; rw [ih]; simp
    rw [key]
    simp only [List.nil_append]
    by_cases hx : xs = []
    · rw [if_pos hx, hx]
      symm
      rw [List.flatten_eq_nil_iff]
      intro l hl
      exact List.eq_of_mem_replicate hl
    · rw [if_neg hx]
      have hrec : ∀ m : Nat, (Nat.rec xs (fun _ o => o ++ xs) m : List V) = (List.replicate (m + 1) xs).flatten := by
        intro m
        induction m with
        | zero => simp
        | succ m ih =>
          show (Nat.rec xs (fun _ o => o ++ xs) m : List V) ++ xs = _
          rw [ih, List.replicate_succ' (n := m + 1)]
          simp
      rw [hrec]
      congr 2
      omega

example : cycle 3 [1, 2] = [1, 2, 1, 2, 1, 2] := by decide

/-! ## sum -/

/-- C136: the sum of Floats that are exact whole numbers is their sum. -/
theorem C136_sum_partial (qs : List Int) : sum (qs.map Fl.fin) = .fin qs.sum := by
  unfold sum
  rw [go_foldl]
  have key : ∀ (qs : List Int) (a : Int), (qs.map Fl.fin).foldl kahan (.fin a, .fin 0) = (.fin (a + qs.sum), .fin 0) := by
    intro qs
    induction qs with
    | nil => simp
    | cons q qs ih =>
      intro a
      rw [List.map_cons, List.foldl_cons]
      have : kahan (.fin a, .fin 0) (.fin q) = (.fin (a + q), .fin 0) := by
        simp [kahan, Fl.sub, Fl.add]
      rw [this, ih, List.sum_cons]
      congr 2
      omega
  rw [key]
  simp

/-- C136: as soon as an infinite value is followed by another the sum is NaN; the sum of infinity
and 1 is infinity. -/
theorem C136_sum_infinite_fails (q : Int) : sum [.inf false, .fin q] = .nan ∧
    (Fl.inf false).add (.fin q) = .inf false := by
  constructor <;> rfl

end Verif.Enumer
