import Verif.EnumCls.Model

/-! # C150: Enumerator::Product, Enumerator::Chain, Enumerator.produce -/

namespace Verif.EnumCls

variable {α : Type}

/-! ## Product -/

/-- All rows, the rightmost varying fastest. -/
def rows : List (List α) → List (List α)
  | [] => [[]]
  | e :: es => e.flatMap (fun x => (rows es).map (x :: ·))

theorem productEach_rows (es : List (List α)) :
    ∀ acc out, productEach es acc out = out ++ (rows es).map (acc ++ ·) := by
  induction es with
  | nil => intro acc out; simp [productEach, rows]
  | cons e es ih =>
    intro acc out
    rw [productEach]
    have hw : ∀ (xs : List α) (out : List (List α)),
        xs.foldl (fun out x => productEach es (acc ++ [x]) out) out =
        out ++ (xs.flatMap (fun x => (rows es).map (x :: ·))).map (acc ++ ·) := by
      intro xs
      induction xs with
      | nil => intro out; simp
      | cons x xs ihx =>
        intro out
        rw [List.foldl_cons, ihx, ih]
        simp [List.map_map, Function.comp_def]
    rw [hw]
    rfl

theorem product_rows (es : List (List α)) : product es = rows es := by
  rw [product, productEach_rows]; simp

theorem flatMap_get {β : Type} (m : Nat) (f : α → List β) (hf : ∀ x, (f x).length = m) :
    ∀ (e : List α) (i j : Nat), j < m → (e.flatMap f)[i * m + j]? = e[i]?.bind (fun x => (f x)[j]?) := by
  intro e
  induction e with
  | nil => intro i j _; simp
  | cons x xs ih =>
    intro i j hj
    cases i with
    | zero =>
      rw [List.flatMap_cons, List.getElem?_append_left (by rw [hf]; omega)]
      simp
    | succ i =>
      have h1 : (i + 1) * m + j = m + (i * m + j) := by rw [Nat.succ_mul]; omega
      rw [List.flatMap_cons, h1, List.getElem?_append_right (by rw [hf]; omega), hf,
        Nat.add_sub_cancel_left, ih i j hj]
      simp

theorem rows_length (es : List (List α)) :
    (rows es).length = (es.map List.length).foldr (· * ·) 1 := by
  induction es with
  | nil => rfl
  | cons e es ih =>
    simp only [rows, List.length_flatMap, List.length_map, ih, List.map_cons, List.foldr_cons]
    generalize (es.map List.length).foldr (· * ·) 1 = m
    induction e with
    | nil => simp
    | cons x xs ihx =>
      rw [List.map_cons, List.sum_cons, ihx, List.length_cons, Nat.succ_mul]; omega

/-- The number of a row, from the numbers of its elements in the members. -/
def rank : List (List α) → List Nat → Nat
  | _ :: es, i :: is => i * (es.map List.length).foldr (· * ·) 1 + rank es is
  | _, _ => 0

/-- The elements with the numbers given. -/
def pick : List (List α) → List Nat → Option (List α)
  | [], [] => some []
  | e :: es, i :: is => match e[i]?, pick es is with
    | some x, some r => some (x :: r)
    | _, _ => none
  | _, _ => none

theorem rank_lt {es : List (List α)} : ∀ {is : List Nat} {r}, pick es is = some r →
    rank es is < (rows es).length := by
  induction es with
  | nil =>
    intro is r h
    cases is with
    | nil => simp [rank, rows]
    | cons i is => simp [pick] at h
  | cons e es ih =>
    intro is r h
    cases is with
    | nil => simp [pick] at h
    | cons i is =>
      simp only [pick] at h
      split at h
      · rename_i x r' hx hr
        have h1 := ih hr
        rw [rows_length, List.map_cons, List.foldr_cons]
        rw [rows_length] at h1
        have hi : i < e.length := by
          rw [List.getElem?_eq_some_iff] at hx
          exact hx.1
        simp only [rank]
        calc i * (es.map List.length).foldr (· * ·) 1 + rank es is
            < i * (es.map List.length).foldr (· * ·) 1 + (es.map List.length).foldr (· * ·) 1 := by omega
          _ = (i + 1) * (es.map List.length).foldr (· * ·) 1 := by rw [Nat.succ_mul]
          _ ≤ e.length * (es.map List.length).foldr (· * ·) 1 := Nat.mul_le_mul_right _ hi
      · simp at h

/-- The block gets as many rows as the product of the lengths, and for each choice of one element out of
each member the row of these elements, at the place that makes the rightmost vary fastest. -/
theorem C150_product (es : List (List α)) :
    (product es).length = (es.map List.length).foldr (· * ·) 1 ∧
      ∀ is row, pick es is = some row → (product es)[rank es is]? = some row := by
  rw [product_rows]
  refine ⟨rows_length es, ?_⟩
  induction es with
  | nil =>
    intro is row h
    cases is with
    | nil =>
      simp only [pick, Option.some.injEq] at h
      subst h; rfl
    | cons i is => simp [pick] at h
  | cons e es ih =>
    intro is row h
    cases is with
    | nil => simp [pick] at h
    | cons i is =>
      simp only [pick] at h
      split at h
      · rename_i x r' hx hr
        simp only [Option.some.injEq] at h
        subst h
        have hl := rank_lt hr
        simp only [rows, rank]
        rw [← rows_length, flatMap_get (rows es).length (fun x => (rows es).map (x :: ·)) (by simp)
          e i _ hl, hx]
        simp [ih is r' hr]
      · simp at h

example : product [[1, 2], [3, 4], [5]] = [[1, 3, 5], [1, 4, 5], [2, 3, 5], [2, 4, 5]] := by
  rw [product_rows]; decide

example : pick [[1, 2], [3, 4], [5]] [1, 0, 0] = some [2, 3, 5] ∧ rank [[1, 2], [3, 4], [5]] [1, 0, 0] = 2 := by
  decide

theorem sizeLoop_ints (ns : List Nat) : ∀ total : Int,
    sizeLoop total (ns.map (fun n : Nat => Size.int n)) = .int (total * (ns.foldr (· * ·) 1 : Nat)) := by
  induction ns with
  | nil => intro total; simp [sizeLoop]
  | cons n ns ih =>
    intro total
    simp only [List.map_cons, sizeLoop, ih, List.foldr_cons]
    rw [Int.natCast_mul, Int.mul_assoc]

/-- `size` is the number of rows if the members say how long they are. -/
theorem C150_product_size (es : List (List α)) :
    productSize (es.map (fun e => Size.int e.length)) = .int (product es).length := by
  rw [(C150_product es).1]
  have hm : es.map (fun e => Size.int e.length) = (es.map List.length).map (fun n : Nat => Size.int n) := by
    simp
  rw [hm]
  generalize es.map List.length = ns
  unfold productSize
  by_cases hz : (ns.map (fun n : Nat => Size.int n)).contains (.int 0) = true
  · rw [if_pos hz]
    rw [List.contains_iff_mem, List.mem_map] at hz
    obtain ⟨n, hn, h0⟩ := hz
    have h0' : n = 0 := by simpa using h0
    subst h0'
    have : ns.foldr (· * ·) 1 = 0 := by
      induction ns with
      | nil => simp at hn
      | cons x xs ih =>
        rcases List.mem_cons.mp hn with h | h
        · simp [← h]
        · simp [ih h]
    rw [this]; rfl
  · rw [if_neg hz, sizeLoop_ints]; simp

/-- An empty member makes the size 0 whatever the others are; otherwise the first that is not an Integer
decides. -/
theorem C150_product_size_unknown (pre : List Int) (s : Size) (post : List Size)
    (hs : ∀ n, s ≠ .int n) :
    ((Size.int 0) ∈ pre.map Size.int ++ s :: post →
      productSize (pre.map Size.int ++ s :: post) = .int 0) ∧
    ((Size.int 0) ∉ pre.map Size.int ++ s :: post →
      productSize (pre.map Size.int ++ s :: post) = if s = .infinite then .infinite else .unknown) := by
  unfold productSize
  constructor
  · intro h
    rw [if_pos (List.contains_iff_mem.mpr h)]
  · intro h
    rw [if_neg (fun hc => h (List.contains_iff_mem.mp hc))]
    have : ∀ total : Int, sizeLoop total (pre.map Size.int ++ s :: post) =
        if s = .infinite then .infinite else .unknown := by
      clear h
      induction pre with
      | nil =>
        intro total
        cases s with
        | int n => exact absurd rfl (hs n)
        | unknown => simp [sizeLoop]
        | infinite => simp [sizeLoop]
        | other => simp [sizeLoop]
      | cons n pre ih => intro total; simp only [List.map_cons, List.cons_append, sizeLoop, ih]
    exact this 1

/-! ## Chain -/

theorem chainLoop_spec (es : List (List α)) : ∀ (n i : Nat) (w : Walk α),
    (chainLoop n i w es).out = w.out ++ es.flatten.take (n + 1) := by
  induction es with
  | nil => intro n i w; simp [chainLoop]
  | cons e es ih =>
    intro n i w
    simp only [chainLoop]
    split
    · rename_i h
      simp [List.take_append, show n + 1 - e.length = 0 by omega]
    · rename_i h
      rw [ih]
      simp only [List.flatten_cons, List.take_append, List.append_assoc]
      rw [List.take_of_length_le (l := e) (by omega)]
      rw [show n + 1 - e.length = n - e.length + 1 by omega]

/-- A chain gives its sources one after the other. -/
theorem C150_chain (n : Nat) (es : List (List α)) :
    (chainEach n es).out = es.flatten.take (n + 1) := by
  rw [chainEach, chainLoop_spec]; simp

theorem chainLoop_pos (es : List (List α)) : ∀ (n i : Nat) (w : Walk α), es.flatten.length ≤ n →
    (chainLoop n i w es).pos = if es = [] then w.pos else (i : Int) + es.length - 1 := by
  induction es with
  | nil => intro n i w _; rfl
  | cons e es ih =>
    intro n i w h
    rw [List.flatten_cons, List.length_append] at h
    simp only [chainLoop, List.cons_ne_nil, if_false]
    rw [if_neg (by omega), ih _ _ _ (by omega)]
    cases es with
    | nil => simp
    | cons e' es' =>
      simp only [List.cons_ne_nil, if_false, List.length_cons]
      omega

theorem rewound_eq (i : Nat) : rewound i = (List.range (i + 1)).reverse := by
  induction i with
  | zero => rfl
  | succ i ih => rw [rewound, ih, List.range_succ (n := i + 1)]; simp

/-- `rewind` after an `each` that was not broken out of rewinds all sources, the last first; after one that
was broken out of in source number `i` it rewinds the sources up to `i`; before any `each`, none. -/
theorem C150_chain_rewind (n : Nat) (es : List (List α)) :
    (es.flatten.length ≤ n → chainRewind (chainEach n es).pos = (List.range es.length).reverse) ∧
    (∀ pre e post, es = pre ++ e :: post → pre.flatten.length ≤ n →
      n < pre.flatten.length + e.length →
      chainRewind (chainEach n es).pos = (List.range (pre.length + 1)).reverse) ∧
    chainRewind (-1) = [] := by
  have hp : ∀ m : Nat, chainRewind m = (List.range (m + 1)).reverse := by
    intro m
    unfold chainRewind
    rw [if_neg (by omega), rewound_eq]; simp
  refine ⟨?_, ?_, by decide⟩
  · intro hn
    rw [chainEach, chainLoop_pos _ _ _ _ hn]
    cases es with
    | nil => simp [chainRewind]
    | cons e es =>
      simp only [List.cons_ne_nil, if_false]
      have := hp es.length
      simp only [List.length_cons]
      rw [← this]
      congr 1
      omega
  · rintro pre e post rfl h1 h2
    rw [chainEach]
    have key : ∀ (pre : List (List α)) (n i : Nat) (w : Walk α), pre.flatten.length ≤ n →
        n < pre.flatten.length + e.length →
        (chainLoop n i w (pre ++ e :: post)).pos = ((i + pre.length : Nat) : Int) := by
      intro pre
      induction pre with
      | nil =>
        intro n i w _ h
        simp only [List.flatten_nil, List.length_nil, Nat.zero_add] at h
        simp [chainLoop, h]
      | cons p pre ih =>
        intro n i w ha hb
        simp only [List.flatten_cons, List.length_append] at ha hb
        simp only [List.cons_append, chainLoop]
        rw [if_neg (by omega), ih _ _ _ (by omega) (by omega)]
        simp only [List.length_cons]
        omega
    rw [key pre n 0 ⟨[], -1⟩ h1 h2, Nat.zero_add, hp]

example : (chainEach 3 [[1, 2], [], [3, 4, 5], [6]]).out = [1, 2, 3, 4] ∧
    chainRewind (chainEach 3 [[1, 2], [], [3, 4, 5], [6]]).pos = [2, 1, 0] := by decide

/-- `size` of a chain is the number of its elements if the sources say how long they are. -/
theorem C150_chain_size (es : List (List α)) :
    chainSize 0 (es.map (fun e => Size.int e.length)) = .int es.flatten.length := by
  have : ∀ (es : List (List α)) (t : Int),
      chainSize t (es.map (fun e => Size.int e.length)) = .int (t + es.flatten.length) := by
    intro es
    induction es with
    | nil => intro t; simp [chainSize]
    | cons e es ih =>
      intro t
      simp only [List.map_cons, chainSize, ih, List.flatten_cons, List.length_append]
      congr 1
      push_cast
      omega
  rw [this]; simp

/-! ## produce -/

/-- The block applied `i` times. -/
def iter (f : α → Option α) : Nat → α → Option α
  | 0, v => some v
  | i + 1, v => (f v).bind (iter f i)

/-- With an initial value: element number `i` is the block applied `i` times to it, until the block raises
StopIteration, which ends the enumerator. -/
theorem C150_produce_partial (f : α → Option α) (v : α) (n : Nat) (first : Option α) :
    (∀ i, i < n → (produce (some v) first f n).1[i]? = iter f i v) ∧
      (produce (some v) first f n).1.length ≤ n ∧
      ((produce (some v) first f n).2 = .enough ↔ (produce (some v) first f n).1.length = n) ∧
      (produce (some v) first f n).2 ≠ .raised := by
  simp only [produce]
  induction n generalizing v with
  | zero => simp [produceLoop]
  | succ n ih =>
    cases hf : f v with
    | none =>
      simp only [produceLoop, hf]
      refine ⟨?_, by simp, ?_, ?_⟩
      · intro i _
        cases i with
        | zero => rfl
        | succ i => simp [iter, hf]
      · by_cases hn : n = 0
        · simp [hn]
        · have : ¬ 1 = n + 1 := by omega
          simp [hn]
      · by_cases hn : n = 0 <;> simp [hn]
    | some v' =>
      obtain ⟨h1, h2, h3, h4⟩ := ih v'
      simp only [produceLoop, hf]
      refine ⟨?_, by simpa using h2, ?_, h4⟩
      · intro i hi
        cases i with
        | zero => rfl
        | succ i => simpa [iter, hf] using h1 i (by omega)
      · rw [h3]; simp

example : produce (some 1) none (fun v => if v < 3 then some (v + 1) else none) 10 = ([1, 2, 3], .ended) := by
  decide

/-- Without an initial value a block that raises StopIteration at once should give an empty sequence; the
exception comes out of `each` instead. -/
theorem C150_produce_fails (f : α → Option α) (n : Nat) : produce none none f n = ([], .raised) := rfl

/-- Otherwise the first value is the block's. -/
theorem C150_produce_first (f : α → Option α) (v : α) (n : Nat) :
    produce none (some v) f n = produce (some v) none f n := rfl

end Verif.EnumCls
