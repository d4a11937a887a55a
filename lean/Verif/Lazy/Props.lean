import Verif.Lazy.Lemmas

/-! # C134: lazy enumerators -/

namespace Verif.Lazy

variable {V : Type} [DecidableEq V] (mk : Mk V)

/-- `to_a`'s block on a list -/
theorem collect_all {W : Type} (ys : List V) (w : W) (acc : List V) :
    eachAll (fun (_ : Unit) v (s : W × List V) => ((), ((s.1, s.2 ++ [v]), false))) ys () (w, acc) =
      ((), (w, acc ++ ys), false) := by
  induction ys generalizing acc with
  | nil => simp [eachAll]
  | cons y ys ih =>
    rw [eachAll]
    simp only
    rw [ih]
    simp

/-- the block of `first(n)` on a list -/
theorem collect_first {W : Type} (n : Nat) (ys : List V) (w : W) (acc : List V) (h : acc.length < n) :
    eachAll (fun (_ : Unit) v (s : W × List V) =>
        ((), ((s.1, s.2 ++ [v]), decide ((s.2 ++ [v]).length ≥ n)))) ys () (w, acc) =
      ((), (w, (acc ++ ys).take n), decide ((acc ++ ys).length ≥ n)) := by
  induction ys generalizing acc with
  | nil =>
    simp only [eachAll, List.append_nil]
    rw [List.take_of_length_le (by omega)]
    simp only [Prod.mk.injEq, true_and]
    symm
    simpa using h
  | cons y ys ih =>
    rw [eachAll]
    simp only
    by_cases hn : (acc ++ [y]).length ≥ n
    · have hl : (acc ++ [y]).length = n := by simp at hn ⊢; omega
      simp only [hn, decide_true]
      have h1 : acc ++ y :: ys = (acc ++ [y]) ++ ys := by simp
      rw [h1, List.take_append_of_le_length (by omega), List.take_of_length_le (by omega)]
      have h2 : (acc ++ [y] ++ ys).length ≥ n := by
        rw [List.length_append]; omega
      simp only [h2, decide_true]
    · simp only [hn, decide_false]
      rw [ih _ (by omega)]
      simp

theorem eager_nil_stage (st : PStage V) : st.eager mk [] = [] := by
  cases st <;> simp [PStage.eager, firsts]

theorem eager_nil (sts : List (PStage V)) : eager mk sts [] = [] := by
  induction sts with
  | nil => rfl
  | cons st sts ih =>
    show eager mk sts (st.eager mk []) = []
    rw [eager_nil_stage, ih]

theorem eager_append (a b : List (PStage V)) (xs : List V) :
    eager mk (a ++ b) xs = eager mk b (eager mk a xs) := by
  simp [eager]

theorem any_take0 {S : Type} (sts : List (PStage V)) :
    (stages sts : List (Stage V S)).any Stage.isTake0 = true ↔ PStage.take 0 ∈ sts := by
  simp only [stages, List.any_eq_true, List.mem_map]
  constructor
  · rintro ⟨_, ⟨st, hst, rfl⟩, h⟩
    cases st <;> simp [PStage.toStage, Stage.isTake0] at h
    rename_i n
    cases n with
    | zero => exact hst
    | succ n => simp [Stage.isTake0] at h
  · intro h
    exact ⟨_, ⟨_, h, rfl⟩, rfl⟩

theorem eager_take0 (sts : List (PStage V)) (h : PStage.take 0 ∈ sts) (xs : List V) :
    eager mk sts xs = [] := by
  obtain ⟨a, b, rfl⟩ := List.append_of_mem h
  rw [eager_append]
  show eager mk b (List.take 0 (eager mk a xs)) = []
  rw [List.take_zero, eager_nil]

theorem pos_of_no_take0 {sts : List (PStage V)} (h : PStage.take 0 ∉ sts) (n : Nat)
    (hn : PStage.take n ∈ sts) : 0 < n := by
  cases n with
  | zero => exact absurd hn h
  | succ n => omega

/-- C134: forcing a chain of lazy stages gives what the eager methods of the same names give one
after the other. -/
theorem C134_to_a {W : Type} (sts : List (PStage V)) (xs : List V) (w : W) :
    toA mk (stages sts) xs w = (w, eager mk sts xs) := by
  unfold toA run
  by_cases h0 : PStage.take 0 ∈ sts
  · rw [if_pos ((any_take0 sts).2 h0), eager_take0 mk sts h0]
  · rw [if_neg (fun h => h0 ((any_take0 sts).1 h)), (walk_eachAll mk _ _ xs _ _).1,
      (chain_eager mk _ sts (pos_of_no_take0 h0) xs (w, [])).1, collect_all]
    simp

-- values as numbers; arrays and nil coded
private def num : Mk Nat := ⟨0, fun l => l.foldl (fun a x => a * 10 + x) 0, Int.toNat⟩

example : toA num (stages [.map (· + 1), .select (· % 2 == 0), .take 2, .withIndex 0]) [1, 2, 3, 4, 5] () =
    ((), [20, 41]) := by decide

/-- C134: `first(n)` of a chain gives the first `n` of the eager result; and when some beginning of
the source is enough for `n` values, the walk takes no value after it, whatever follows, so that
the source may be infinite. -/
theorem C134_first {W : Type} (n : Nat) (sts : List (PStage V)) (xs ys : List V) (w : W) :
    (first mk n (stages sts) xs w).1 = (w, (eager mk sts xs).take n) ∧
      (n ≤ (eager mk sts xs).length →
        first mk n (stages sts) (xs ++ ys) w = first mk n (stages sts) xs w ∧
          (first mk n (stages sts) (xs ++ ys) w).2 ≤ xs.length) := by
  unfold first
  by_cases hn : n = 0
  · simp [hn]
  · simp only [if_neg hn]
    unfold run
    by_cases h0 : PStage.take 0 ∈ sts
    · simp only [if_pos ((any_take0 sts).2 h0), eager_take0 mk sts h0]
      simp
    · simp only [if_neg (fun h => h0 ((any_take0 sts).1 h))]
      obtain ⟨c1, c2⟩ := chain_eager mk (fun v (s : W × List V) =>
        ((s.1, s.2 ++ [v]), decide ((s.2 ++ [v]).length ≥ n))) sts (pos_of_no_take0 h0) xs (w, [])
      rw [collect_first n _ w [] (by simpa using Nat.pos_of_ne_zero hn)] at c1 c2
      obtain ⟨w1, w2, w3, _⟩ := walk_eachAll mk (fun v (s : W × List V) =>
        ((s.1, s.2 ++ [v]), decide ((s.2 ++ [v]).length ≥ n))) (stages sts) xs (Locs.init _) (w, [])
      refine ⟨by rw [w1, c1]; simp, fun hle => ?_⟩
      have hstop := c2 (by simpa using hle)
      rw [walk_append mk _ _ xs ys _ _ (w2.trans hstop)]
      exact ⟨rfl, w3⟩

example : first num 2 (stages [.map (· * 3), .reject (· % 2 == 0)]) (List.range 10) () = (((), [3, 9]), 4) := by
  decide

/-- C134: a chain with `take(n)` takes nothing from its source beyond what brings the `n`th value to
`take`, whatever consumes it, and the same for `take_while` and the first value it refuses. -/
theorem C134_stops {S : Type} (k : V → S → S × Bool) (pre post : List (PStage V)) (st : PStage V)
    (xs ys : List V) (s : S)
    (h : (∃ n, st = .take n ∧ n ≤ (eager mk pre xs).length) ∨
      (∃ p, st = .takeWhile p ∧ ∃ v ∈ eager mk pre xs, p v = false)) :
    run mk k (stages (pre ++ st :: post)) (xs ++ ys) s = run mk k (stages (pre ++ st :: post)) xs s ∧
      (run mk k (stages (pre ++ st :: post)) (xs ++ ys) s).2.1 ≤ xs.length := by
  have hb : st.breaks (eager mk pre xs) = true := by
    rcases h with ⟨n, rfl, hn⟩ | ⟨p, rfl, v, hv, hp⟩
    · simpa [PStage.breaks] using hn
    · simp only [PStage.breaks, List.any_eq_true]
      exact ⟨v, hv, by simp [hp]⟩
  unfold run
  by_cases h0 : PStage.take 0 ∈ pre ++ st :: post
  · rw [if_pos ((any_take0 _).2 h0), if_pos ((any_take0 _).2 h0)]
    simp
  · simp only [if_neg (fun h => h0 ((any_take0 _).1 h))]
    have hbr := chain_breaks mk k pre st post (pos_of_no_take0 h0) xs s hb
    obtain ⟨_, w2, w3, _⟩ := walk_eachAll mk k (stages (pre ++ st :: post)) xs (Locs.init _) s
    rw [walk_append mk _ _ xs ys _ _ (w2.trans hbr)]
    exact ⟨rfl, w3⟩

example : (run num (fun v s => (s ++ [v], false)) (stages [.map (· + 1), .take 3, .drop 1]) (List.range 100) []) =
    ([2, 3], 3, true) := by decide +kernel

/-- C134: `take(0)` does not touch its source, nor do the stages around it call their blocks. -/
theorem C134_take_zero {S : Type} (k : V → S → S × Bool) (sts : List (Stage V S)) (xs : List V) (s : S)
    (h : Stage.take 0 ∈ sts) : run mk k sts xs s = (s, 0, false) := by
  unfold run
  rw [if_pos]
  rw [List.any_eq_true]
  exact ⟨_, h, rfl⟩

/-- blocks with effects, one value after the other -/
def effMap {W : Type} (f : V → W → V × W) : List V → W → List V × W
  | [], w => ([], w)
  | v :: vs, w => ((f v w).1 :: (effMap f vs (f v w).2).1, (effMap f vs (f v w).2).2)

/-- a block of the user, which does not see the consumer's Array -/
def lift {W : Type} (f : V → W → V × W) : V → W × List V → V × (W × List V) :=
  fun v s => ((f v s.1).1, ((f v s.1).2, s.2))

/-- one block after the other -/
def through {W : Type} (fs : List (V → W → V × W)) (v : V) (w : W) : V × W :=
  fs.foldl (fun p f => f p.1 p.2) (v, w)

theorem push_maps {W : Type} (k : V → W × List V → (W × List V) × Bool) (fs : List (V → W → V × W))
    (r : Locs V (fs.map fun f => Stage.map (lift f)).length) (v : V) (w : W) (acc : List V) :
    push mk k (fs.map fun f => Stage.map (lift f)) r v (w, acc) =
      (r, k (through fs v w).1 ((through fs v w).2, acc)) := by
  induction fs generalizing v w with
  | nil => rfl
  | cons f fs ih =>
    obtain ⟨l, r'⟩ := r
    show step mk (push mk k (fs.map fun f => Stage.map (lift f))) (Stage.map (lift f)) (l, r') v (w, acc) = _
    simp only [step, emit, lift]
    rw [ih]
    rfl

/-- C134: with effects in the blocks, each value goes through all `map`s before the next one is
taken, and `first(n)` runs the blocks for exactly `n` values of the source (all, if it has fewer). -/
theorem C134_in_turn {W : Type} (n : Nat) (fs : List (V → W → V × W)) (xs : List V) (w : W) :
    first mk n (fs.map fun f => Stage.map (lift f)) xs w =
      (((effMap (through fs) (xs.take n) w).2, (effMap (through fs) (xs.take n) w).1), min n xs.length) := by
  unfold first
  by_cases hn : n = 0
  · simp [hn, effMap]
  · rw [if_neg hn]
    unfold run
    have h0 : (fs.map fun f => (Stage.map (lift f) : Stage V (W × List V))).any Stage.isTake0 = false := by
      rw [List.any_eq_false]
      intro st hst
      obtain ⟨f, _, rfl⟩ := List.mem_map.1 hst
      simp [Stage.isTake0]
    rw [h0, if_neg (by simp)]
    have key : ∀ (xs : List V) (r) (w : W) (acc : List V), acc.length < n →
        ∃ b, walk mk (fun v (s : W × List V) => ((s.1, s.2 ++ [v]), decide ((s.2 ++ [v]).length ≥ n)))
          (fs.map fun f => Stage.map (lift f)) xs r (w, acc) =
        (((effMap (through fs) (xs.take (n - acc.length)) w).2,
          acc ++ (effMap (through fs) (xs.take (n - acc.length)) w).1), min (n - acc.length) xs.length, b) := by
      intro xs
      induction xs with
      | nil => intro r w acc h; exact ⟨false, by simp [walk, effMap]⟩
      | cons v vs ih =>
        intro r w acc h
        rw [walk, push_maps]
        simp only
        by_cases hb : (acc ++ [(through fs v w).1]).length ≥ n
        · have h1 : n - acc.length = 1 := by simp at hb; omega
          refine ⟨true, ?_⟩
          simp only [hb, decide_true, h1]
          simp [effMap]
        · simp only [hb, decide_false]
          obtain ⟨b, hb'⟩ := ih r (through fs v w).2 (acc ++ [(through fs v w).1]) (by omega)
          refine ⟨b, ?_⟩
          rw [hb']
          have h1 : n - acc.length = (n - (acc ++ [(through fs v w).1]).length) + 1 := by
            simp at hb ⊢; omega
          rw [h1, List.take_succ_cons, effMap]
          simp only [List.append_assoc, List.singleton_append, List.length_cons, Nat.add_min_add_right]
    obtain ⟨b, hb⟩ := key xs (Locs.init _) w [] (by simpa using Nat.pos_of_ne_zero hn)
    rw [hb]
    simp

-- the blocks log what they are called with: 1, 101, 2, 102
example : first num 2 ([fun v w => (v + 100, w ++ [v]), fun v w => (v, w ++ [v])].map fun f => Stage.map (lift f))
    [1, 2, 3] ([] : List Nat) = (([1, 101, 2, 102], [101, 102]), 2) := by decide +kernel

/-- the count of a chain of one stage -/
def count (r : Locs V 1) : Nat := r.1.n

/-- C134: `with_index(off) { |v, i| ... }` runs its block once for each value, in order, with the
index counted from `off`, and passes the values on as they are. -/
theorem C134_with_index_block {W : Type} (off : Int) (f : V → Int → W → W) (xs : List V) (w : W) :
    toA mk [Stage.eachIndex off fun v i s => (f v i s.1, s.2)] xs w =
      ((xs.zipIdx).foldl (fun w p => f p.1 (off + (p.2 : Nat)) w) w, xs) := by
  unfold toA run
  rw [if_neg (by simp [Stage.isTake0])]
  have key : ∀ (xs : List V) (n : Nat) (r : Locs V 1) (w : W) (acc : List V), count r = n →
      (walk mk (fun v (s : W × List V) => ((s.1, s.2 ++ [v]), false))
        [Stage.eachIndex off fun v i s => (f v i s.1, s.2)] xs r (w, acc)).1 =
      ((xs.zipIdx n).foldl (fun w p => f p.1 (off + (p.2 : Nat)) w) w, acc ++ xs) := by
    intro xs
    induction xs with
    | nil => intro n r w acc _; simp [walk]
    | cons v vs ih =>
      intro n r w acc hl
      have hp : ∃ r' : Locs V 1, count r' = count r + 1 ∧
          push mk (fun v (s : W × List V) => ((s.1, s.2 ++ [v]), false))
            [Stage.eachIndex off fun v i s => (f v i s.1, s.2)] r v (w, acc) =
          (r', (f v (off + (count r : Nat)) w, acc ++ [v]), false) := ⟨_, rfl, rfl⟩
      obtain ⟨r', hc, hp⟩ := hp
      have hw : (walk mk (fun v (s : W × List V) => ((s.1, s.2 ++ [v]), false))
          [Stage.eachIndex off fun v i s => (f v i s.1, s.2)] (v :: vs) r (w, acc)).1 =
        (walk mk (fun v (s : W × List V) => ((s.1, s.2 ++ [v]), false))
          [Stage.eachIndex off fun v i s => (f v i s.1, s.2)] vs r' (f v (off + (count r : Nat)) w, acc ++ [v])).1 := by
        rw [walk]
        simp only [hp]
      rw [hw, ih (n + 1) r' _ _ (by omega)]
      simp [List.zipIdx_cons, hl]
  have := key xs 0 (Locs.init 1) w [] rfl
  exact this

example : toA num [Stage.eachIndex 5 fun v i s => (s.1 ++ [(v, i)], s.2)] [7, 8] ([] : List (Nat × Int)) =
    ([(7, 5), (8, 6)], [7, 8]) := by decide +kernel

theorem eager_length_stage {S : Type} (st : PStage V) (m z : Nat) (xs : List V) (h : xs.length = m)
    (hz : (st.toStage : Stage V S).size (.num m) = .num z) : (st.eager mk xs).length = z := by
  cases st <;> simp [PStage.toStage, Stage.size] at hz
  · simp [PStage.eager]; omega
  · simp only [PStage.eager, List.length_take]
    split_ifs at hz <;> cases hz <;> omega
  · simp [PStage.eager]; omega
  · simp [PStage.eager]; omega

theorem size_unknown {S : Type} (sts : List (Stage V S)) : size sts .unknown = .unknown := by
  induction sts with
  | nil => rfl
  | cons st sts ih =>
    have : st.size .unknown = .unknown := by cases st <;> rfl
    show size sts (st.size .unknown) = .unknown
    rw [this, ih]

/-- C134: when a chain knows its size, that many values come when it is forced. -/
theorem C134_size {S : Type} (sts : List (PStage V)) (xs : List V) (z : Nat)
    (h : size (stages sts : List (Stage V S)) (.num xs.length) = .num z) : (eager mk sts xs).length = z := by
  induction sts generalizing xs with
  | nil => simpa [size, stages, eager] using h
  | cons st sts ih =>
    have h' : size (stages sts : List (Stage V S)) ((st.toStage : Stage V S).size (.num xs.length)) = .num z := h
    show (eager mk sts (st.eager mk xs)).length = z
    apply ih
    cases hs : (st.toStage : Stage V S).size (.num xs.length) with
    | unknown => rw [hs, size_unknown] at h'; cases h'
    | inf =>
      exfalso
      cases st <;> simp [PStage.toStage, Stage.size] at hs
      split_ifs at hs
    | num m =>
      rw [eager_length_stage mk st xs.length m xs rfl hs, ← hs]
      exact h'

example : size (stages [.map (· + 1), .take 3, .drop 1] : List (Stage Nat Unit)) (.num 2) = .num 1 := by decide

/-- C134: the same for a source that never ends: once enough of it has come, the chain gives exactly
as many values as its size says. -/
theorem C134_size_infinite {S : Type} (sts : List (PStage V)) (z : Nat)
    (h : size (stages sts : List (Stage V S)) .inf = .num z) :
    ∃ N, ∀ xs : List V, N ≤ xs.length → (eager mk sts xs).length = z := by
  induction sts with
  | nil => simp [size, stages] at h
  | cons st sts ih =>
    have h' : size (stages sts : List (Stage V S)) ((st.toStage : Stage V S).size .inf) = .num z := h
    cases st with
    | map f =>
      obtain ⟨N, hN⟩ := ih h'
      exact ⟨N, fun xs hx => hN (xs.map f) (by simpa using hx)⟩
    | zip ls =>
      obtain ⟨N, hN⟩ := ih h'
      exact ⟨N, fun xs hx => hN _ (by simpa [PStage.eager] using hx)⟩
    | drop n =>
      obtain ⟨N, hN⟩ := ih h'
      exact ⟨N + n, fun xs hx => hN (xs.drop n) (by rw [List.length_drop]; omega)⟩
    | take n =>
      refine ⟨n, fun xs hx => ?_⟩
      show (eager mk sts (xs.take n)).length = z
      apply C134_size (S := S) mk sts
      rw [List.length_take, Nat.min_eq_left hx]
      exact h'
    | _ => simp only [PStage.toStage, Stage.size, size_unknown, reduceCtorEq] at h'

example : size (stages [.map (· + 1), .take 3, .drop 1] : List (Stage Nat Unit)) .inf = .num 2 := by decide

end Verif.Lazy
