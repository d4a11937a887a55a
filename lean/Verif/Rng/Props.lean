import Verif.Rng.Index
import Mathlib.Tactic.SplitIfs

/-! Properties of ranges of Integers and arithmetic sequences. -/

namespace Verif.Rng

/-! ## C123: the ways of walking a range of Integers agree -/

/-- `x` belongs to the range from `b` to `e`. -/
def Between (b e : Int) (excl : Bool) (x : Int) : Prop :=
  b ≤ x ∧ if excl then x < e else x ≤ e

/-- `each` and `to_a` give exactly the Integers of the range, each once, in ascending order; whatever
the size of the endpoints. -/
theorem C123_each_is_the_range (b e : Int) (excl : Bool) :
    toA ⟨some b, some e, excl⟩ = .ok (each b e excl) ∧
    (∀ x, x ∈ each b e excl ↔ Between b e excl x) ∧
    (each b e excl).Pairwise (· < ·) := by
  refine ⟨rfl, fun x => ?_, ?_⟩
  · rw [each_rust, mem_rust]
    unfold Between stop
    cases excl <;> simp <;> omega
  · rw [each_rust]; exact rust_sorted _ _

/-- `size` is the number of elements `each` yields; `reverse_each` yields them backwards and its
enumerator knows how many there are. -/
theorem C123_size_and_reverse (b e : Int) (excl : Bool) :
    size ⟨some b, some e, excl⟩ = .ok (some ((each b e excl).length : Int)) ∧
    reverseEach b e excl = (each b e excl).reverse ∧
    reverseSize b e excl = ((each b e excl).length : Int) := by
  have hlen : (each b e excl).length = (stop e excl - b).toNat := by rw [each_rust, rust_length]
  refine ⟨?_, ?_, ?_⟩
  · rw [hlen]
    unfold size stop
    simp only
    cases excl <;> simp <;> split <;> (try simp) <;> omega
  · unfold reverseEach
    rw [downLoop_rust, each_rust]
    unfold stop
    cases excl <;> simp
  · rw [hlen]
    unfold reverseSize stop
    simp only
    cases excl <;> simp <;> split <;> omega

/-- `first(n)` and `min(n)` are the first `n` elements, `max(n)` the last `n` from the top. -/
theorem C123_first_min_max (b e : Int) (excl : Bool) (n : Nat) :
    firstN ⟨some b, some e, excl⟩ n = .ok ((each b e excl).take n) ∧
    minN ⟨some b, some e, excl⟩ n = .ok ((each b e excl).take n) ∧
    maxN (.int b) e excl n = .ok ((each b e excl).reverse.take n) := by
  have hn : ¬ (n : Int) < 0 := by omega
  refine ⟨?_, ?_, ?_⟩
  · unfold firstN
    simp only [if_neg hn]
    by_cases h : isFix b ∧ isFix e
    · rw [tryFixnum_some h.1 h.2]
      simp only [each_rust, Int.toNat_natCast]
    · have : tryFixnum ⟨some b, some e, excl⟩ = none := by simp only [tryFixnum, if_neg h]
      rw [this]
      simp only [Int.toNat_natCast]
      rw [takeEach_range]
  · unfold minN
    simp only [if_neg hn, Int.toNat_natCast]
    rw [takeEach_range]
  · unfold maxN
    simp only [if_neg hn]
    have hst : (if excl then e - 1 else e) + 1 = stop e excl := by unfold stop; split <;> omega
    generalize hh : (if excl then e - 1 else e) = hi at *
    split
    · rw [each_rust, ← hst, rust_nil (by omega)]; simp
    · rw [downLoop_take hi _ b n rfl, each_rust, hst]

/-- `min` and `max` without a block are the first and the last element, and `nil` when there is
none. -/
theorem C123_min_max (b e : Int) (excl : Bool) :
    min0 ⟨some b, some e, excl⟩ = (match (each b e excl).head? with | some x => .ok x | none => .nil) ∧
    max0 (.int b) e excl = (match (each b e excl).getLast? with | some x => .ok x | none => .nil) := by
  rw [each_rust]
  refine ⟨?_, ?_⟩
  · unfold min0
    simp only
    by_cases h : b < stop e excl
    · rw [rust_cons h]
      have h1 : ¬ b > e := by unfold stop at h; cases excl <;> simp at h <;> omega
      have h2 : ¬ (b = e ∧ excl = true) := by
        rintro ⟨h2, h3⟩; unfold stop at h; simp [h3] at h; omega
      simp only [List.head?_cons, if_neg h1, if_neg h2]
    · rw [rust_nil (by omega)]
      simp only [List.head?_nil]
      by_cases h1 : b > e
      · rw [if_pos h1]
      · have h2 : b = e ∧ excl = true := by
          unfold stop at h; cases excl <;> simp at h ⊢ <;> omega
        rw [if_neg h1, if_pos h2]
  · unfold max0
    simp only [Bgn.twice]
    by_cases h : b < stop e excl
    · have e1 : rustRange b (stop e excl) = rustRange b (stop e excl - 1) ++ [stop e excl - 1] := by
        rw [← rust_snoc (by omega)]; congr 1; omega
      rw [e1, List.getLast?_concat]
      unfold stop at h ⊢
      cases excl
      · simp only [Bool.false_eq_true, if_false] at h ⊢
        rw [if_neg (by omega), Int.add_sub_cancel]; simp
      · simp only [if_true] at h ⊢
        rw [if_neg (by omega), if_neg (by omega)]
    · rw [rust_nil (by omega)]
      simp only [List.getLast?_nil]
      by_cases h1 : b > e
      · rw [if_pos (by omega)]
      · have h2 : b = e ∧ excl = true := by
          unfold stop at h; cases excl <;> simp at h ⊢ <;> omega
        rw [if_neg (by omega), if_pos (by omega), if_pos h2.2]

/-- The methods with a native fast path agree with `each` when both endpoints are held inline:
`last(n)`, `count`, `count { }`, `map { }`, and `min`/`max` by a key.

Missing: ranges with a big integer endpoint, for which these methods raise (`C123_big_last_fails`
and below). -/
theorem C123_native_partial (b e : Int) (excl : Bool) (hb : isFix b) (he : isFix e) (n : Nat)
    (p : Int → Bool) (f key : Int → Int) :
    lastN ⟨some b, some e, excl⟩ n =
      .ok ((each b e excl).drop ((each b e excl).length - n)) ∧
    count ⟨some b, some e, excl⟩ = .ok (some ((each b e excl).length : Int)) ∧
    countBlock ⟨some b, some e, excl⟩ p = .ok ((each b e excl).countP p : Nat) ∧
    mapBlock ⟨some b, some e, excl⟩ f = .ok ((each b e excl).map f) ∧
    (match minBlock ⟨some b, some e, excl⟩ (fun x y => key x - key y) with
      | .ok m => m ∈ each b e excl ∧ ∀ x ∈ each b e excl, key m ≤ key x
      | .nil => each b e excl = []
      | _ => False) ∧
    (match maxBlock ⟨some b, some e, excl⟩ (fun x y => key x - key y) with
      | .ok m => m ∈ each b e excl ∧ ∀ x ∈ each b e excl, key x ≤ key m
      | .nil => each b e excl = []
      | _ => False) := by
  have hn : ¬ (n : Int) < 0 := by omega
  have htf := tryFixnum_some (excl := excl) hb he
  rw [each_rust]
  refine ⟨?_, ?_, ?_, ?_, ?_, ?_⟩
  · unfold lastN
    simp only [if_neg hn, htf, rust_length, Int.toNat_natCast]
    congr 2
    split <;> omega
  · unfold count
    simp only [htf, rust_length]
    congr 2
    split <;> omega
  · unfold countBlock
    simp only [htf, countLoop_eq]
    simp
  · unfold mapBlock
    simp only [htf]
  · unfold minBlock
    simp only [htf]
    by_cases h : b < stop e excl
    · have h1 : ¬ b > e := by unfold stop at h; cases excl <;> simp at h <;> omega
      have h2 : ¬ (b = e ∧ excl = true) := by
        rintro ⟨h2, h3⟩; unfold stop at h; simp [h3] at h; omega
      simp only [if_neg h1, if_neg h2]
      rw [rust_cons h]
      obtain ⟨m1, m2, m3⟩ := minLoop_key key (rustRange (b + 1) (stop e excl)) b
      refine ⟨?_, ?_⟩
      · rcases m1 with m1 | m1
        · rw [m1]; simp
        · exact List.mem_cons_of_mem _ m1
      · intro x hx
        rcases List.mem_cons.1 hx with rfl | hx
        · exact m2
        · exact m3 x hx
    · have hnil := rust_nil (s := b) (e := stop e excl) (by omega)
      by_cases h1 : b > e
      · simp only [if_pos h1]; exact hnil
      · have h2 : b = e ∧ excl = true := by
          unfold stop at h; cases excl <;> simp at h ⊢ <;> omega
        simp only [if_neg h1, if_pos h2]; exact hnil
  · unfold maxBlock
    simp only [htf]
    by_cases h : b < stop e excl
    · have h1 : ¬ b > e := by unfold stop at h; cases excl <;> simp at h <;> omega
      have h2 : ¬ (b = e ∧ excl = true) := by
        rintro ⟨h2, h3⟩; unfold stop at h; simp [h3] at h; omega
      simp only [if_neg h1, if_neg h2]
      rw [rust_cons h]
      obtain ⟨m1, m2, m3⟩ := maxLoop_key key (rustRange (b + 1) (stop e excl)) b
      refine ⟨?_, ?_⟩
      · rcases m1 with m1 | m1
        · rw [m1]; simp
        · exact List.mem_cons_of_mem _ m1
      · intro x hx
        rcases List.mem_cons.1 hx with rfl | hx
        · exact m2
        · exact m3 x hx
    · have hnil := rust_nil (s := b) (e := stop e excl) (by omega)
      by_cases h1 : b > e
      · simp only [if_pos h1]; exact hnil
      · have h2 : b = e ∧ excl = true := by
          unfold stop at h; cases excl <;> simp at h ⊢ <;> omega
        simp only [if_neg h1, if_pos h2]; exact hnil

/-- Among elements with the same key, `min { }` and `max { }` keep the earliest. -/
theorem C123_block_keeps_earliest (l : List Int) (m : Int) (cmp : Int → Int → Int)
    (h : ∀ x ∈ l, cmp x m = 0) : minLoop cmp m l = m ∧ maxLoop cmp m l = m := by
  induction l with
  | nil => exact ⟨rfl, rfl⟩
  | cons x t ih =>
    have hx := h x (by simp)
    have := ih (fun y hy => h y (by simp [hy]))
    simp only [minLoop, maxLoop, hx]
    simpa using this

/-- `Integer#times`, `upto` and `downto` yield the Integers they say, and their enumerators'
sizes are how many they yield. -/
theorem C123_times_upto_downto (n i l : Int) :
    times n = each 0 n true ∧
    upLoop i l = each i l false ∧ uptoSize i l = ((upLoop i l).length : Int) ∧
    downLoop i l = (each l i false).reverse ∧ downtoSize i l = ((downLoop i l).length : Int) := by
  refine ⟨?_, rfl, ?_, ?_, ?_⟩
  · unfold times; rw [times_go, each_rust]; rfl
  · rw [upLoop_rust, rust_length]; unfold uptoSize; split <;> omega
  · rw [downLoop_rust, each_rust]; rfl
  · rw [downLoop_rust, List.length_reverse, rust_length]; unfold downtoSize; split <;> omega

/-- `first(n)` of an endless range is the `n` Integers from its begin, and so is `min(n)`;
`to_a`, `max` and `last(n)` of it raise `RangeError`. -/
theorem C123_endless (b : Int) (excl : Bool) (n : Nat) :
    firstN ⟨some b, none, excl⟩ n = .ok (each b (b + n) true) ∧
    minN ⟨some b, none, excl⟩ n = .ok (each b (b + n) true) ∧
    size ⟨some b, none, excl⟩ = .ok none ∧
    toA ⟨some b, none, excl⟩ = .rangeErr ∧ lastN ⟨some b, none, excl⟩ n = .rangeErr := by
  have hn : ¬ (n : Int) < 0 := by omega
  have he : each b (b + n) true = (List.range n).map (fun k : Nat => b + (k : Int)) := by
    rw [each_rust]; simp [stop, rustRange]
  refine ⟨?_, ?_, rfl, rfl, rfl⟩
  · simp only [firstN, if_neg hn, tryFixnum, Option.map_none, Int.toNat_natCast, takeEach_none, he]
  · simp only [minN, if_neg hn, Option.map_none, Int.toNat_natCast, takeEach_none, he]

/-- `(2**64..2**64+2).last(2)` raises instead of answering. -/
theorem C123_big_last_fails : ∃ b e : Int, ∃ n : Nat,
    (each b e false).drop ((each b e false).length - n) = [e - 1, e] ∧
    lastN ⟨some b, some e, false⟩ n = .runtimeErr ∧
    countBlock ⟨some b, some e, false⟩ (fun _ => true) = .runtimeErr ∧
    count ⟨some b, some e, false⟩ = .runtimeErr ∧
    mapBlock ⟨some b, some e, false⟩ id = .runtimeErr ∧
    minBlock ⟨some b, some e, false⟩ (fun x y => x - y) = .runtimeErr := by
  refine ⟨2 ^ 64, 2 ^ 64 + 2, 2, ?_, rfl, rfl, rfl, rfl, rfl⟩
  rw [each_rust]; rfl

/-- `(3.5...4).max` is `3` and `(9.5..10).max(3)` is `[10, 9, 8]`: values below the begin of the
range. -/
theorem C123_fractional_begin_max_fails :
    max0 (.half 3) 4 true = .ok 3 ∧ maxN (.half 9) 10 false 3 = .ok [10, 9, 8] ∧
    2 * (3 : Int) < (2 * 3 + 1) ∧ 2 * (9 : Int) < (2 * 9 + 1) := by
  refine ⟨rfl, ?_, by decide, by decide⟩
  simp only [maxN]
  rw [downLoop_rust]; rfl

example : each (-2) 3 true = [-2, -1, 0, 1, 2] := by rw [each_rust]; rfl
example : isFix 5 ∧ isFix (-(2 ^ 62)) ∧ ¬ isFix (2 ^ 62) := by decide

/-! ## C124: stepping, and arithmetic sequences -/

/-- `x` is not past the end `e` for a walk by steps of `s`. -/
def Within (e s : Int) (excl : Bool) (x : Int) : Prop :=
  if 0 < s then (if excl then x < e else x ≤ e) else (if excl then e < x else e ≤ x)

instance (e s : Int) (excl : Bool) (i : Int) : Decidable (Within e s excl i) := by
  unfold Within; infer_instance

theorem within_inside (e s : Int) (excl : Bool) (x : Int) :
    Within e s excl x ↔ inside e s excl x := Iff.rfl

/-- `(b..e).step(s) { }` and `b.step(e, s) { }` yield `b`, `b + s`, `b + 2s`, … as long as the end is
not passed, for Integers of any size; a step of zero is an `ArgumentError`. -/
theorem C124_step_block (b e s : Int) (excl : Bool) :
    (s = 0 → stepBlock b e excl s = .argErr) ∧
    (s ≠ 0 → ∃ l, stepBlock b e excl s = .ok l ∧
      ∀ k : Nat, l[k]? = if Within e s excl (b + k * s) then some (b + k * s) else none) := by
  refine ⟨fun h => by simp [stepBlock, h], fun h => ⟨stepLoop b e s excl, by simp [stepBlock, h],
    fun k => ?_⟩⟩
  rw [stepLoop_get h]
  simp only [within_inside]

/-- A step of one walks the range; a step of minus one walks down. -/
theorem C124_step_one (b e : Int) (excl : Bool) :
    stepLoop b e 1 excl = each b e excl ∧ stepLoop b e (-1) false = (each e b false).reverse := by
  constructor
  · rw [each_rust]
    have : rustRange b (stop e excl) = prog b 1 (stop e excl - b).toNat := by
      simp [rustRange, prog]
    rw [this]
    apply stepLoop_prog (by omega)
    · intro k hk
      rw [inside_pos (by omega)]
      unfold stop at hk
      cases excl <;> simp at hk ⊢ <;> omega
    · rw [inside_pos (by omega)]
      unfold stop
      cases excl <;> simp <;> omega
  · rw [each_rust]
    have : rustRange e (stop b false) = prog e 1 (b + 1 - e).toNat := by
      simp [rustRange, prog, stop]
    rw [this, prog_reverse]
    by_cases h : e ≤ b
    · have e1 : e + (((b + 1 - e).toNat : Int) - 1) * 1 = b := by omega
      rw [e1]
      apply stepLoop_prog (by omega)
      · intro k hk
        rw [inside_neg (by omega)]; simp; omega
      · rw [inside_neg (by omega)]; simp; omega
    · have e1 : (b + 1 - e).toNat = 0 := by omega
      rw [e1, stepLoop_unfold (by omega), if_neg (by rw [inside_neg (by omega)]; simp; omega)]
      rfl

/-- The sequence object answers for the same values as stepping with a block: `size`, `to_a`,
`each`, `first(n)`, `last(n)` and `last`, for inline Integer begin, end and step and a size that
fits 63 bits.

Missing: big integers (`C124_big_terms_fails`), the size `2**63` (`C124_size_clamped_fails`), `first`
without an argument (`C124_first_of_empty_fails`), Float sequences. -/
theorem C124_sequence_agrees_partial (fc : Int → Int → Int → Bool → Cnt) (b e s : Int) (excl : Bool)
    (hb : isFix b) (he : isFix e) (hs : isFix s) (h0 : s ≠ 0)
    (hsz : ((stepLoop b e s excl).length : Int) ≤ 2 ^ 63 - 1) (n : Nat) :
    let a : ASeq := ⟨some b, some e, s, excl⟩
    let l := stepLoop b e s excl
    asSize fc a = .ok (some (l.length : Int)) ∧
    asToA fc a = .ok l ∧ asEach fc a = .ok l ∧
    asFirstN fc a n = .ok ((l.take n).map .int) ∧
    asLastN fc a n = .ok ((l.drop (l.length - n)).map .int) ∧
    asLast fc a = (match l.getLast? with | some x => .ok (.int x) | none => .nil) := by
  intro a l
  have hlen : (l.length : Int) = rawCount b e s excl := stepLoop_length h0 b e excl
  have hfc : finiteCount fc b e s excl = .fin (l.length : Int) := by
    unfold finiteCount
    rw [if_pos ⟨hb, he, hs⟩, fixnumCount_raw, ← hlen]
    congr 1
    exact Int.min_eq_left hsz
  have hl : l = prog b s l.length := by
    have h := stepLoop_raw h0 b e excl
    have : (rawCount b e s excl).toNat = l.length := by rw [← hlen]; simp
    rw [this] at h
    exact h
  have hsize : asSize fc a = .ok (some (l.length : Int)) := by
    simp only [asSize, a, if_neg h0, hfc]
  have hn : ¬ (n : Int) < 0 := by omega
  refine ⟨hsize, ?_, ?_, ?_, ?_, ?_⟩
  · unfold asToA
    simp only [hsize, a, Int.toNat_natCast]
    congr 1
    exact hl.symm
  · unfold asEach
    simp only [hsize, a, if_neg h0]
    rw [asLoop_prog _ _ _ _ (by omega)]
    simp only [Int.zero_mul, Int.add_zero, Int.sub_zero, Int.toNat_natCast]
    rw [← hl]
  · unfold asFirstN
    simp only [if_neg hn, a, if_neg h0, hfc]
    by_cases hz : (n : Int) = 0
    · have : n = 0 := by omega
      subst this
      simp
    · rw [if_neg hz, buildTerms_eq hb hs]
      simp only [Int.zero_mul, Int.add_zero]
      rw [hl, prog_take]
      simp only [prog_length]
      congr 3
      omega
  · unfold asLastN
    simp only [if_neg hn, a, if_neg h0, hfc]
    by_cases hz : (l.length : Int) = 0 ∨ (n : Int) = 0
    · rw [if_pos hz]
      rcases hz with hz | hz
      · have : l = [] := List.eq_nil_of_length_eq_zero (by omega)
        simp [this]
      · have : n = 0 := by omega
        subst this
        simp
    · rw [if_neg hz, buildTerms_eq hb hs]
      congr 2
      conv_rhs => rw [hl]
      rw [prog_length, prog_drop _ _ _ _ (by omega)]
      congr 1
      · congr 2; omega
      · omega
  · unfold asLast
    simp only [a, if_neg h0, hfc]
    by_cases hz : (l.length : Int) = 0
    · rw [if_pos hz]
      have : l = [] := List.eq_nil_of_length_eq_zero (by omega)
      simp [this]
    · rw [if_neg hz]
      have : l.getLast? = some (b + ((l.length : Int) - 1) * s) := by
        rw [List.getLast?_eq_getElem?]
        conv_lhs => rw [hl]
        rw [prog_length]
        have hlt : l.length - 1 < l.length := by omega
        simp only [prog, List.getElem?_map, List.getElem?_range hlt, Option.map_some]
        congr 3
        omega
      rw [this]
      simp only [termAt, hb, hs, and_self, if_true]

/-- An endless sequence of inline Integers: `first(n)` is `b`, `b + s`, …, exact even past 63 bits;
`to_a` and `last` raise `RangeError`. -/
theorem C124_endless_sequence (fc : Int → Int → Int → Bool → Cnt) (b s : Int) (excl : Bool)
    (hb : isFix b) (hs : isFix s) (h0 : s ≠ 0) (n : Nat) :
    (∃ l, asFirstN fc ⟨some b, none, s, excl⟩ n = .ok l ∧ l.length = n ∧
      ∀ k : Nat, k < n → l[k]? = some (.int (b + k * s))) ∧
    asToA fc ⟨some b, none, s, excl⟩ = .rangeErr ∧ asLast fc ⟨some b, none, s, excl⟩ = .rangeErr := by
  have hn : ¬ (n : Int) < 0 := by omega
  refine ⟨⟨(prog b s n).map .int, ?_, by simp [prog], fun k hk => ?_⟩, ?_, ?_⟩
  · unfold asFirstN
    simp only [if_neg hn, if_neg h0]
    by_cases hz : (n : Int) = 0
    · have : n = 0 := by omega
      subst this
      simp [prog]
    · rw [if_neg hz, buildTerms_eq hb hs]
      simp
  · simp [prog, hk]
  · simp [asToA, asSize, h0]
  · simp [asLast, h0]

/-- `(2**64).step(2**64 + 9, 3).first(1)` is a Float and so is `.last`, while `to_a` has the Integer:
whenever the count of rounded Floats is not zero. -/
theorem C124_big_terms_fails (fc : Int → Int → Int → Bool → Cnt) (c : Int) (hc : 0 < c)
    (h : fc (2 ^ 64) (2 ^ 64 + 9) 3 false = .fin c) :
    let a : ASeq := ⟨some (2 ^ 64), some (2 ^ 64 + 9), 3, false⟩
    stepLoop (2 ^ 64) (2 ^ 64 + 9) 3 false = [2 ^ 64, 2 ^ 64 + 3, 2 ^ 64 + 6, 2 ^ 64 + 9] ∧
    asFirstN fc a 1 = .ok [.flt] ∧ asLast fc a = .ok .flt ∧
    ∃ l, asToA fc a = .ok l ∧ l.head? = some (2 ^ 64) := by
  have hf : finiteCount fc (2 ^ 64) (2 ^ 64 + 9) 3 false = .fin c := by
    rw [finiteCount, if_neg (by decide), h]
  have hm : min 1 c = 1 := by omega
  refine ⟨?_, ?_, ?_, (List.range c.toNat).map (fun k : Nat => 2 ^ 64 + (k : Int) * 3), ?_, ?_⟩
  · rw [stepLoop_raw (by decide)]; rfl
  · simp only [asFirstN, hf, hm]; rfl
  · simp only [asLast, hf]
    rw [if_neg (by decide), if_neg (by omega)]
    simp only [termAt]
    rw [if_neg (by decide)]
  · simp only [asToA, asSize, hf]; rfl
  · have : c.toNat = (c.toNat - 1) + 1 := by omega
    rw [this, List.range_succ_eq_map]
    rfl

/-- `(-2**62).step(2**62 - 1).size` is `2**63 - 1` though there are `2**63` terms. -/
theorem C124_size_clamped_fails (fc : Int → Int → Int → Bool → Cnt) :
    ((stepLoop (-2 ^ 62) (2 ^ 62 - 1) 1 false).length : Int) = 2 ^ 63 ∧
    asSize fc ⟨some (-2 ^ 62), some (2 ^ 62 - 1), 1, false⟩ = .ok (some (2 ^ 63 - 1)) := by
  refine ⟨?_, rfl⟩
  rw [stepLoop_length (by decide)]
  rfl

/-- `5.step(1).first` is `5` though the sequence is empty (`first(1)` is `[]`, `last` is `nil`). -/
theorem C124_first_of_empty_fails (fc : Int → Int → Int → Bool → Cnt) :
    let a : ASeq := ⟨some 5, some 1, 1, false⟩
    asFirst a = some 5 ∧ asFirstN fc a 1 = .ok [] ∧ asLast fc a = .nil ∧ asToA fc a = .ok [] :=
  ⟨rfl, rfl, rfl, rfl⟩

example : stepLoop 1 10 4 false = [1, 5, 9] := by rw [stepLoop_raw (by decide)]; rfl
example : stepLoop 10 1 (-3) true = [10, 7, 4] := by rw [stepLoop_raw (by decide)]; rfl

/-! ## C125: an array indexed by a sequence -/

/-- No sequence whatever makes `array[sequence]` read outside the array. -/
theorem C125_never_outside {α : Type} (a : ASeq) (l : List α) : index a l ≠ .ub := by
  rw [index_span]
  by_cases h0 : a.s = 0
  · simp [h0]
  · rw [if_neg h0]
    generalize hS : span l a.s (fold a).1 (fold a).2.1 (fold a).2.2 = S
    have hne : S ≠ .ub := by
      have hsp := span_ok l h0 (fold a).1 (fold a).2.1 (fold a).2.2
      rw [hS] at hsp
      rcases hsp with h | h | ⟨r, h⟩ <;> simp [h]
    split_ifs
    · simp
    · simp
    · simp
    · exact hne

/-- Two walks with the same terms are the same list. -/
theorem stepLoop_congr {s : Int} (h0 : s ≠ 0) {b e e' : Int} {x x' : Bool}
    (h : ∀ k : Nat, inside e s x (b + k * s) ↔ inside e' s x' (b + k * s)) :
    stepLoop b e s x = stepLoop b e' s x' := by
  apply List.ext_getElem?
  intro k
  rw [stepLoop_get h0, stepLoop_get h0]
  simp only [h k]

theorem fix_false {b : Int} (hb : isFix b) : (!isFix b) = false := by simp [hb]

/-- `array[(b..e).step(s)]` with endpoints that are positions of the array is the elements at `b`,
`b + s`, `b + 2s`, … up to the end. -/
theorem C125_selects_terms {α : Type} (b e s : Int) (excl : Bool) (l : List α)
    (hbf : isFix b) (hef : isFix e) (hsf : isFix s) (h0 : s ≠ 0)
    (hb : 0 ≤ b ∧ b < l.length) (he : 0 ≤ e ∧ e < l.length) :
    ∃ r, index ⟨some b, some e, s, excl⟩ l = .ok r ∧
      ∀ k : Nat, r[k]? = if Within e s excl (b + k * s) then l[(b + k * s).toNat]? else none := by
  have key : ∃ r, index ⟨some b, some e, s, excl⟩ l = .ok r ∧
      r.map some = (stepLoop b e s excl).map (fun i => l[i.toNat]?) := by
    rw [index_span]
    simp only [if_neg h0, hsf, hbf, hef, Bool.not_true, Bool.false_eq_true, if_false]
    rcases Int.lt_or_gt_of_ne h0 with hneg | hpos
    · -- walking down
      have hfold : ∃ x : Bool, fold ⟨some b, some e, s, excl⟩ =
          (some (if excl then e + 1 else e), some b, x) ∧ x = false := by
        unfold fold
        simp only [if_pos hneg]
        cases excl <;> simp
      obtain ⟨x, hx, rfl⟩ := hfold
      rw [hx]
      simp only
      generalize hbg : (if excl then e + 1 else e) = beg
      have hbeg : 0 ≤ beg ∧ beg ≤ l.length := by rw [← hbg]; split <;> omega
      unfold span
      simp only [Option.getD_some, Option.isNone_some, Bool.false_eq_true, if_false, Bool.not_false,
        if_true]
      rw [if_neg (by omega : ¬ beg < 0), if_neg (by omega : ¬ beg < 0),
        if_neg (by omega : ¬ b < 0), if_neg (by omega : ¬ beg > l.length),
        if_neg (fun h => by omega), if_neg (fun h : _ ∧ b + 1 > (l.length : Int) => by omega)]
      have hlen : ¬ ((l.length : Int) < max (b + 1 - beg) 0 ∨
          (l.length : Int) < beg + max (b + 1 - beg) 0) := by omega
      rw [if_neg hlen]
      obtain ⟨r, hr, hm⟩ := walk_ok l (beg := beg) (len := max (b + 1 - beg) 0) h0 (by omega)
        (by omega) (by omega)
      refine ⟨r, hr, ?_⟩
      rw [hm, if_neg (by omega)]
      congr 1
      by_cases hle : beg ≤ b
      · rw [show beg + max (b + 1 - beg) 0 - 1 = b by omega]
        apply stepLoop_congr h0
        intro k
        rw [inside_neg hneg, inside_neg hneg, ← hbg]
        cases excl <;> simp <;> omega
      · rw [show beg + max (b + 1 - beg) 0 - 1 = beg - 1 by omega]
        rw [stepLoop_unfold h0, if_neg (by rw [inside_neg hneg]; simp), stepLoop_unfold h0,
          if_neg]
        rw [inside_neg hneg]
        rw [← hbg] at hle
        cases excl <;> simp at hle ⊢ <;> omega
    · -- walking up
      have hfold : fold ⟨some b, some e, s, excl⟩ = (some b, some e, excl) := by
        unfold fold
        simp only [if_neg (by omega : ¬ s < 0)]
      rw [hfold]
      simp only
      unfold span
      simp only [Option.getD_some, Option.isNone_some, Bool.false_eq_true, if_false]
      rw [if_neg (by omega : ¬ b < 0), if_neg (by omega : ¬ b < 0), if_neg (by omega : ¬ e < 0)]
      generalize hen : (if (!excl) = true then e + 1 else e) = end2
      have hend : end2 ≤ l.length := by rw [← hen]; split <;> omega
      rw [if_neg (by omega : ¬ b > l.length), if_neg (fun h => by omega),
        if_neg (fun h : _ ∧ end2 > (l.length : Int) => by omega)]
      have hlen : ¬ ((l.length : Int) < max (end2 - b) 0 ∨
          (l.length : Int) < b + max (end2 - b) 0) := by omega
      rw [if_neg hlen]
      obtain ⟨r, hr, hm⟩ := walk_ok l (beg := b) (len := max (end2 - b) 0) h0 (by omega)
        (by omega) (by omega)
      refine ⟨r, hr, ?_⟩
      rw [hm, if_pos hpos]
      congr 1
      apply stepLoop_congr h0
      intro k
      have hk : 0 ≤ (k : Int) * s := by nlinarith [(by omega : (0 : Int) ≤ k)]
      rw [inside_pos hpos, inside_pos hpos]
      cases excl <;> simp at hen ⊢ <;> omega
  obtain ⟨r, hr, hm⟩ := key
  refine ⟨r, hr, fun k => ?_⟩
  have hk := congrArg (fun t => t[k]?) hm
  simp only [List.getElem?_map, stepLoop_get h0] at hk
  simp only [within_inside]
  by_cases hin : inside e s excl (b + k * s)
  · rw [if_pos hin] at hk ⊢
    simp only [Option.map_some] at hk
    cases hrk : r[k]? with
    | none => rw [hrk] at hk; simp at hk
    | some v => rw [hrk] at hk; simpa using hk
  · rw [if_neg hin] at hk ⊢
    cases hrk : r[k]? with
    | none => rfl
    | some v => rw [hrk] at hk; simp at hk

/-- A negative begin or end counts from the end of the array.

Missing: an exclusive end of `-1` with a negative step (`C125_exclusive_last_fails`). -/
theorem C125_negative_positions_partial {α : Type} (b e s : Int) (excl : Bool) (l : List α)
    (hlen : (l.length : Int) < 2 ^ 62) (hb : -l.length ≤ b ∧ b < 0) (he : -l.length ≤ e ∧ e < 0)
    (hx : ¬ (s < 0 ∧ excl = true ∧ e = -1)) (o : Option Int) :
    index ⟨some b, o, s, excl⟩ l = index ⟨some (b + l.length), o, s, excl⟩ l ∧
    index ⟨o, some e, s, excl⟩ l = index ⟨o, some (e + l.length), s, excl⟩ l := by
  have f1 : isFix b := by unfold isFix; simp; omega
  have f2 : isFix (b + l.length) := by unfold isFix; simp; omega
  have f3 : isFix e := by unfold isFix; simp; omega
  have f4 : isFix (e + l.length) := by unfold isFix; simp; omega
  by_cases h0 : s = 0
  · subst h0; exact ⟨rfl, rfl⟩
  constructor
  · have hsp : span l s (fold ⟨some b, o, s, excl⟩).1 (fold ⟨some b, o, s, excl⟩).2.1
        (fold ⟨some b, o, s, excl⟩).2.2 =
        span l s (fold ⟨some (b + l.length), o, s, excl⟩).1
          (fold ⟨some (b + l.length), o, s, excl⟩).2.1
          (fold ⟨some (b + l.length), o, s, excl⟩).2.2 := by
      unfold fold
      simp only
      by_cases hn : s < 0
      · simp only [if_pos hn]
        cases o with
        | none =>
          simp only [span, Option.getD_none, Option.getD_some, Option.isNone_some, if_pos hb.2,
            if_neg (by omega : ¬ b + (l.length : Int) < 0)]
        | some v =>
          cases excl <;>
          simp only [span, Option.getD_some, Option.isNone_some, if_pos hb.2, Bool.false_eq_true,
            if_false, if_true, if_neg (by omega : ¬ b + (l.length : Int) < 0)]
      · simp only [if_neg hn, span, Option.getD_some, if_pos hb.2,
          if_neg (by omega : ¬ b + (l.length : Int) < 0)]
    rw [index_span, index_span]
    simp only [f1, f2]
    rw [hsp]
  · have hsp : span l s (fold ⟨o, some e, s, excl⟩).1 (fold ⟨o, some e, s, excl⟩).2.1
        (fold ⟨o, some e, s, excl⟩).2.2 =
        span l s (fold ⟨o, some (e + l.length), s, excl⟩).1
          (fold ⟨o, some (e + l.length), s, excl⟩).2.1
          (fold ⟨o, some (e + l.length), s, excl⟩).2.2 := by
      unfold fold
      simp only
      by_cases hn : s < 0
      · simp only [if_pos hn]
        cases excl with
        | false =>
          simp only [Bool.false_eq_true, if_false, span, Option.getD_some, if_pos he.2,
            if_neg (by omega : ¬ e + (l.length : Int) < 0)]
        | true =>
          have he1 : e ≠ -1 := fun h => hx ⟨hn, rfl, h⟩
          simp only [if_true, span, Option.getD_some, if_pos (by omega : e + 1 < 0),
            if_neg (by omega : ¬ e + (l.length : Int) + 1 < 0),
            show e + 1 + (l.length : Int) = e + (l.length : Int) + 1 by omega]
      · simp only [if_neg hn, span, Option.getD_some, if_pos he.2, Option.isNone_some,
          if_neg (by omega : ¬ e + (l.length : Int) < 0)]
    rw [index_span, index_span]
    simp only [f3, f4]
    rw [hsp]

/-- Open ends stand for the whole array: going up from the first element and to the last, going
down from the last and to the first. -/
theorem C125_open_ends {α : Type} (s : Int) (o : Option Int) (l : List α) :
    (0 < s → ∀ excl, index ⟨none, o, s, excl⟩ l = index ⟨some 0, o, s, excl⟩ l) ∧
    (0 < s → ∀ excl, index ⟨o, none, s, excl⟩ l = index ⟨o, some (-1), s, false⟩ l) ∧
    (s < 0 → index ⟨none, o, s, false⟩ l = index ⟨some (-1), o, s, false⟩ l) ∧
    (s < 0 → index ⟨o, none, s, false⟩ l = index ⟨o, some 0, s, false⟩ l) := by
  have f0 : isFix 0 := by decide
  have f1 : isFix (-1) := by decide
  refine ⟨fun h excl => ?_, fun h excl => ?_, fun h => ?_, fun h => ?_⟩
  · have hn : ¬ s < 0 := by omega
    rw [index_span, index_span]
    simp only [f0, fold, if_neg hn, span, Option.getD_none, Option.getD_some, Bool.not_true]
  · have hn : ¬ s < 0 := by omega
    rw [index_span, index_span]
    simp only [f1, fold, if_neg hn, span, Option.getD_none, Option.getD_some, Bool.not_true,
      Option.isNone_none, Option.isNone_some, if_true, Bool.false_eq_true, if_false]
  · rw [index_span, index_span]
    cases o <;> simp only [f1, fold, if_pos h, span, Option.getD_none, Option.getD_some,
      Bool.not_true, Option.isNone_none, Option.isNone_some, if_true, Bool.false_eq_true, if_false]
  · rw [index_span, index_span]
    simp only [f0, fold, if_pos h, span, Option.getD_none, Option.getD_some, Bool.not_true,
      Bool.false_eq_true, if_false]

/-- `[10, 20, 30][(2...-1).step(-1)]` is not `[10, 20, 30][(2...2).step(-1)]`: the exclusive end
`-1` becomes position `0`. -/
theorem C125_exclusive_last_fails :
    index ⟨some 2, some (-1), -1, true⟩ [10, 20, 30] = .ok [30, 20, 10] ∧
    index ⟨some 2, some 2, -1, true⟩ [10, 20, 30] = .ok ([] : List Nat) := ⟨rfl, rfl⟩

example : index ⟨some 1, some 6, 2, false⟩ [0, 1, 2, 3, 4, 5, 6] = .ok [1, 3, 5] := rfl
example : index ⟨some 6, some 1, -2, true⟩ [0, 1, 2, 3, 4, 5, 6] = .ok [6, 4, 2] := rfl
example : index ⟨some 0, some 9, 2, false⟩ [0, 1, 2] = .rangeErr := rfl
example : index ⟨some 4, none, 1, false⟩ [0, 1, 2] = .nil := rfl

/-! ## C126: `cover?`, `include?`, `===` and `overlap?` -/

/-- `x` belongs to the range, open ends included. -/
def Mem (r : Range) (x : Int) : Prop :=
  (∀ b ∈ r.b, b ≤ x) ∧ (∀ e ∈ r.e, if r.excl then x < e else x ≤ e)

/-- `cover?`, `include?`, `member?`, `===` of an Integer: membership. -/
theorem C126_cover_value (r : Range) (x : Int) : coverVal r x = true ↔ Mem r x := by
  obtain ⟨b, e, excl⟩ := r
  unfold coverVal Mem
  cases b <;> cases e <;> cases excl <;> simp

/-- What `each` yields is what the range covers. -/
theorem C126_cover_is_each (b e : Int) (excl : Bool) (x : Int) :
    coverVal ⟨some b, some e, excl⟩ x = true ↔ x ∈ each b e excl := by
  rw [C126_cover_value, (C123_each_is_the_range b e excl).2.1]
  simp [Mem, Between]

/-- One past the last element. -/
def top (r : Range) : Option Int := r.e.map fun e => stop e r.excl

theorem mem_top (r : Range) (x : Int) :
    Mem r x ↔ (∀ b ∈ r.b, b ≤ x) ∧ (∀ t ∈ top r, x < t) := by
  obtain ⟨b, e, excl⟩ := r
  unfold Mem top stop
  cases e with
  | none => simp
  | some e => cases excl <;> simp <;> intro _ <;> omega

theorem endBefore_false (e b : Option Int) (excl : Bool) :
    endBefore e b excl = false ↔ ∀ t ∈ e.map (fun e => stop e excl), ∀ v ∈ b, v < t := by
  unfold endBefore ufo stop
  cases e with
  | none => simp
  | some e =>
    cases b with
    | none => simp
    | some b =>
      cases excl <;> simp <;> by_cases h1 : e < b <;> by_cases h2 : e = b <;> simp [h1, h2] <;> omega

theorem rangeEmpty_false (r : Range) : rangeEmpty r = false ↔ ∀ t ∈ top r, ∀ v ∈ r.b, v < t := by
  obtain ⟨b, e, excl⟩ := r
  unfold rangeEmpty ufo top stop
  cases e with
  | none => cases b <;> simp
  | some e =>
    cases b with
    | none => simp
    | some b =>
      cases excl <;> simp <;> by_cases h1 : b < e <;> by_cases h2 : b = e <;> simp [h1, h2] <;> omega

theorem backward_false (r : Range) : backward r = false ↔ ∀ t ∈ top r, ∀ v ∈ r.b, v < t := by
  obtain ⟨b, e, excl⟩ := r
  unfold backward ufo top stop
  cases e with
  | none => cases b <;> simp
  | some e =>
    cases b with
    | none => simp
    | some b =>
      cases excl <;> simp <;> by_cases h1 : b < e <;> by_cases h2 : b = e <;> simp [h1, h2] <;> omega

/-- `overlap?` holds exactly when some Integer is in both ranges, and so is symmetric. -/
theorem C126_overlap (s o : Range) : overlap s o = true ↔ ∃ x, Mem s x ∧ Mem o x := by
  have h : overlap s o = true ↔ (∀ t ∈ top s, ∀ v ∈ s.b, v < t) ∧ (∀ t ∈ top o, ∀ v ∈ o.b, v < t) ∧
      (∀ t ∈ top s, ∀ v ∈ o.b, v < t) ∧ (∀ t ∈ top o, ∀ v ∈ s.b, v < t) := by
    rw [← rangeEmpty_false, ← rangeEmpty_false]
    have e1 := endBefore_false s.e o.b s.excl
    have e2 := endBefore_false o.e s.b o.excl
    unfold top
    rw [← e1, ← e2]
    unfold overlap
    cases rangeEmpty s <;> cases rangeEmpty o <;> cases endBefore s.e o.b s.excl <;>
      cases endBefore o.e s.b o.excl <;> simp
  rw [h]
  simp only [mem_top]
  generalize top s = ts
  generalize top o = tt
  generalize s.b = sb
  generalize o.b = ob
  constructor
  · rintro ⟨h1, h2, h3, h4⟩
    cases sb with
    | some a =>
      cases ob with
      | some c =>
        refine ⟨max a c, ?_⟩
        cases ts <;> cases tt <;> simp at h1 h2 h3 h4 ⊢ <;> omega
      | none =>
        refine ⟨a, ?_⟩
        cases ts <;> cases tt <;> simp at h1 h2 h3 h4 ⊢ <;> omega
    | none =>
      cases ob with
      | some c =>
        refine ⟨c, ?_⟩
        cases ts <;> cases tt <;> simp at h1 h2 h3 h4 ⊢ <;> omega
      | none =>
        refine ⟨min (ts.getD 0) (tt.getD 0) - 1, ?_⟩
        cases ts <;> cases tt <;> simp <;> omega
  · rintro ⟨x, ⟨h1, h2⟩, h3, h4⟩
    refine ⟨fun t ht v hv => ?_, fun t ht v hv => ?_, fun t ht v hv => ?_, fun t ht v hv => ?_⟩
    · have := h1 v hv; have := h2 t ht; omega
    · have := h3 v hv; have := h4 t ht; omega
    · have := h3 v hv; have := h2 t ht; omega
    · have := h1 v hv; have := h4 t ht; omega

theorem coverEnd_true (r v : Range) (hb : backward v = false)
    (hn : v.e = none → r.e = none)
    (hq : ¬ (r.e = none ∧ v.e = none ∧ r.excl = true ∧ v.excl = false)) :
    coverEnd r v = true ↔ ∀ tr ∈ top r, ∀ tv ∈ top v, tv ≤ tr := by
  rw [backward_false] at hb
  obtain ⟨rb, re, rx⟩ := r
  obtain ⟨vb, ve, vx⟩ := v
  cases ve with
  | none =>
    have hre : re = none := hn rfl
    subst hre
    cases rx <;> cases vx <;> simp [coverEnd, cmpEnd, top] at hq ⊢
  | some ve =>
    cases re with
    | none => cases rx <;> cases vx <;> simp [coverEnd, cmpEnd, top]
    | some re =>
      have hm : vx = true → vMax ⟨vb, some ve, vx⟩ = some (ve - 1) := by
        intro hvx
        subst hvx
        unfold vMax max0
        cases vb with
        | none => simp [Bgn.twice]
        | some vb =>
          have hlt := hb (stop ve true) (by simp [top]) vb (by simp)
          simp only [stop, if_true] at hlt
          simp only [Bgn.twice]
          rw [if_neg (by omega), if_neg (by omega)]
          simp
      by_cases h1 : re < ve <;> by_cases h2 : re = ve <;> cases rx <;> cases vx <;>
        simp [coverEnd, cmpEnd, ufo, top, stop, h1, h2, hm] <;> (try split_ifs) <;>
        (try simp) <;> omega

/-- `cover?` of another range holds exactly when that range has an element and all its elements
belong to this one — except that an endless `...` range does not cover an endless `..` one. -/
theorem C126_cover_range (r v : Range)
    (hq : ¬ (r.e = none ∧ v.e = none ∧ r.excl = true ∧ v.excl = false)) :
    coverRange r v = true ↔ (∃ x, Mem v x) ∧ ∀ x, Mem v x → Mem r x := by
  have hval : missesBegin r v = false ↔ ∀ vb ∈ v.b, Mem r vb := by
    unfold missesBegin
    cases v.b with
    | none => simp
    | some vb => simp [C126_cover_value]
  have h : coverRange r v = true ↔ (v.b = none → r.b = none) ∧ (v.e = none → r.e = none) ∧
      (∀ t ∈ top v, ∀ b ∈ v.b, b < t) ∧ (∀ vb ∈ v.b, Mem r vb) ∧
      (∀ tr ∈ top r, ∀ tv ∈ top v, tv ≤ tr) := by
    unfold coverRange
    by_cases c1 : v.b = none ∧ r.b ≠ none
    · rw [if_pos c1]
      exact ⟨fun h => by (cases h), fun h => absurd (h.1 c1.1) c1.2⟩
    rw [if_neg c1]
    by_cases c2 : v.e = none ∧ r.e ≠ none
    · rw [if_pos c2]
      exact ⟨fun h => by (cases h), fun h => absurd (h.2.1 c2.1) c2.2⟩
    rw [if_neg c2]
    have d1 : v.b = none → r.b = none := fun h => Classical.byContradiction fun h' => c1 ⟨h, h'⟩
    have d2 : v.e = none → r.e = none := fun h => Classical.byContradiction fun h' => c2 ⟨h, h'⟩
    rw [← backward_false]
    cases hb : backward v with
    | true => simp
    | false =>
      rw [if_neg (by simp)]
      by_cases hv : ∀ vb ∈ v.b, Mem r vb
      · rw [if_neg (by rw [hval.2 hv]; simp), coverEnd_true r v hb d2 hq]
        exact ⟨fun h => ⟨d1, d2, rfl, hv, h⟩, fun h => h.2.2.2.2⟩
      · rw [if_pos (by rw [← Bool.not_eq_false, hval]; exact hv)]
        exact ⟨fun h => by (cases h), fun h => absurd h.2.2.2.1 hv⟩
  have htop : ∀ q : Range, q.e = none ↔ top q = none := by
    intro q; unfold top; cases q.e <;> simp
  rw [h, htop v, htop r]
  simp only [mem_top]
  generalize top v = tv
  generalize top r = tr
  generalize v.b = vb
  generalize r.b = rb
  constructor
  · rintro ⟨h1, h2, h3, h4, h5⟩
    refine ⟨?_, fun x ⟨hx1, hx2⟩ => ⟨?_, ?_⟩⟩
    · cases vb with
      | some a => exact ⟨a, by cases tv <;> simp at h3 ⊢ <;> omega⟩
      | none => exact ⟨tv.getD 0 - 1, by cases tv <;> simp <;> omega⟩
    · intro b hb
      cases vb with
      | none => rw [h1 rfl] at hb; cases hb
      | some a =>
        have := (h4 a (by simp)).1 b hb
        have := hx1 a (by simp)
        omega
    · intro t ht
      cases tv with
      | none => rw [h2 rfl] at ht; cases ht
      | some a =>
        have := h5 t ht a (by simp)
        have := hx2 a (by simp)
        omega
  · rintro ⟨⟨x, hx1, hx2⟩, h⟩
    refine ⟨?_, ?_, ?_, ?_, ?_⟩
    · rintro rfl
      cases rb with
      | none => rfl
      | some b =>
        have := (h (min x (b - 1)) ⟨by simp, fun t ht => by have := hx2 t ht; omega⟩).1 b (by simp)
        omega
    · rintro rfl
      cases tr with
      | none => rfl
      | some t =>
        have := (h (max x t) ⟨fun b hb => by have := hx1 b hb; omega, by simp⟩).2 t (by simp)
        omega
    · intro t ht b hb
      have := hx1 b hb; have := hx2 t ht; omega
    · intro b hb
      refine h b ⟨fun b' hb' => ?_, fun t ht => ?_⟩
      · have : b' = b := by cases hb; cases hb'; rfl
        omega
      · have := hx1 b hb; have := hx2 t ht; omega
    · intro t ht t' ht'
      have := (h (t' - 1) ⟨fun b hb => by have := hx1 b hb; have := hx2 t' ht'; omega,
        fun t'' ht'' => by
          have : t'' = t' := by cases ht'; cases ht''; rfl
          omega⟩).2 t ht
      omega

/-- The exception: `(1...).cover?(2..)` is false, `(1..).cover?(2..)` is true. -/
theorem C126_endless_exclusive :
    coverRange ⟨some 1, none, true⟩ ⟨some 2, none, false⟩ = false ∧
    coverRange ⟨some 1, none, false⟩ ⟨some 2, none, true⟩ = true := ⟨rfl, rfl⟩

example : coverRange ⟨some 1, some 2, false⟩ ⟨some 1, some 3, true⟩ = true := rfl
example : overlap ⟨some 1, some 3, true⟩ ⟨some 3, none, false⟩ = false := rfl

end Verif.Rng
