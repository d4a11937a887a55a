import Verif.Rng.Model
import Mathlib.Tactic.Linarith
import Mathlib.Tactic.Ring

/-! Lemmas on the loops of `Verif.Rng.Model`. -/

namespace Verif.Rng

theorem rust_nil {s e : Int} (h : e ≤ s) : rustRange s e = [] := by
  have : (e - s).toNat = 0 := by omega
  simp [rustRange, this]

theorem rust_cons {s e : Int} (h : s < e) : rustRange s e = s :: rustRange (s + 1) e := by
  have hk : (e - s).toNat = (e - (s + 1)).toNat + 1 := by omega
  unfold rustRange
  rw [hk, List.range_succ_eq_map]
  simp only [List.map_cons, List.map_map]
  congr 1
  · simp
  · apply List.map_congr_left
    intro k _
    simp only [Function.comp]
    push_cast
    omega

theorem rust_snoc {s e : Int} (h : s ≤ e) : rustRange s (e + 1) = rustRange s e ++ [e] := by
  have hk : (e + 1 - s).toNat = (e - s).toNat + 1 := by omega
  unfold rustRange
  rw [hk, List.range_succ, List.map_append]
  congr 1
  simp
  omega

theorem rust_length (s e : Int) : (rustRange s e).length = (e - s).toNat := by
  simp [rustRange]

theorem mem_rust {s e x : Int} : x ∈ rustRange s e ↔ s ≤ x ∧ x < e := by
  simp only [rustRange, List.mem_map, List.mem_range]
  constructor
  · rintro ⟨k, hk, rfl⟩; omega
  · rintro ⟨h1, h2⟩; exact ⟨(x - s).toNat, by omega, by omega⟩

theorem rust_sorted (s e : Int) : (rustRange s e).Pairwise (· < ·) := by
  unfold rustRange
  rw [List.pairwise_map]
  exact List.pairwise_lt_range.imp (fun h => by omega)

theorem upLoop_rust (i l : Int) : upLoop i l = rustRange i (l + 1) := by
  unfold upLoop
  split
  · rw [rust_cons (by omega), upLoop_rust (i + 1) l]
  · rw [rust_nil (by omega)]
termination_by (l - i + 1).toNat
decreasing_by omega

theorem downLoop_rust (i b : Int) : downLoop i b = (rustRange b (i + 1)).reverse := by
  unfold downLoop
  split
  · rw [rust_snoc (by omega), downLoop_rust (i - 1) b]
    simp
  · rw [rust_nil (by omega)]; rfl
termination_by (i - b + 1).toNat
decreasing_by omega

theorem times_go (n i : Int) : times.go n i = rustRange i n := by
  unfold times.go
  split
  · rw [rust_cons (by omega), times_go n (i + 1)]
  · rw [rust_nil (by omega)]
termination_by (n - i).toNat
decreasing_by omega

/-- One past the last value of a bounded range. -/
def stop (e : Int) (excl : Bool) : Int := if excl then e else e + 1

theorem each_rust (b e : Int) (excl : Bool) : each b e excl = rustRange b (stop e excl) := by
  unfold each stop
  rw [upLoop_rust]
  split <;> simp

theorem takeEach_some (n : Nat) : ∀ (i l : Int),
    takeEach i (some l) n = (rustRange i (l + 1)).take n := by
  induction n with
  | zero => intro i l; simp [takeEach]
  | succ n ih =>
    intro i l
    simp only [takeEach]
    split
    · rw [ih, rust_cons (by omega : i < l + 1)]; simp
    · rw [rust_nil (by omega)]; rfl

theorem takeEach_none (n : Nat) : ∀ i : Int,
    takeEach i none n = (List.range n).map (fun k : Nat => i + (k : Int)) := by
  induction n with
  | zero => intro i; simp [takeEach]
  | succ n ih =>
    intro i
    simp only [takeEach, ih, List.range_succ_eq_map, List.map_cons, List.map_map]
    congr 1
    · simp
    · apply List.map_congr_left
      intro k _
      simp only [Function.comp]; push_cast; omega

theorem takeEach_range (b e : Int) (excl : Bool) (n : Nat) :
    takeEach b ((some e).map fun e => if excl then e - 1 else e) n = (each b e excl).take n := by
  simp only [Option.map_some]
  rw [takeEach_some, each_rust]
  congr 2
  unfold stop
  split <;> simp

theorem tryFixnum_some {b e : Int} {excl : Bool} (hb : isFix b) (he : isFix e) :
    tryFixnum ⟨some b, some e, excl⟩ = some (b, stop e excl) := by
  simp [tryFixnum, hb, he, stop]

theorem countLoop_eq (p : Int → Bool) (l : List Int) : ∀ c : Int,
    countLoop p l c = c + (l.countP p : Nat) := by
  induction l with
  | nil => intro c; simp [countLoop]
  | cons x t ih =>
    intro c
    simp only [countLoop, ih, List.countP_cons]
    split <;> push_cast <;> omega

theorem downLoop_take (hi lo b : Int) (n : Nat) (hlo : lo = hi - n + 1) :
    downLoop hi (if lo < b then b else lo) = ((rustRange b (hi + 1)).reverse).take n := by
  rw [downLoop_rust]
  induction n generalizing hi lo with
  | zero =>
    have : hi + 1 ≤ (if lo < b then b else lo) := by split <;> omega
    rw [rust_nil this]; simp
  | succ n ih =>
    by_cases hb : b ≤ hi
    · have hle : (if lo < b then b else lo) ≤ hi := by split <;> omega
      rw [rust_snoc hle, rust_snoc hb]
      simp only [List.reverse_append, List.reverse_cons, List.reverse_nil, List.nil_append,
        List.singleton_append, List.take_succ_cons]
      congr 1
      have := ih (hi - 1) lo (by omega)
      simpa using this
    · have : hi + 1 ≤ (if lo < b then b else lo) := by split <;> omega
      rw [rust_nil this, rust_nil (by omega : hi + 1 ≤ b)]; simp

/-! ## Least and greatest by a key -/

theorem minLoop_key (key : Int → Int) (l : List Int) : ∀ m : Int,
    (minLoop (fun a b => key a - key b) m l = m ∨ minLoop (fun a b => key a - key b) m l ∈ l) ∧
    key (minLoop (fun a b => key a - key b) m l) ≤ key m ∧
    ∀ x ∈ l, key (minLoop (fun a b => key a - key b) m l) ≤ key x := by
  induction l with
  | nil => intro m; simp [minLoop]
  | cons x t ih =>
    intro m
    simp only [minLoop]
    by_cases h : key x - key m < 0
    · simp only [if_pos h]
      obtain ⟨h1, h2, h3⟩ := ih x
      refine ⟨?_, by omega, ?_⟩
      · rcases h1 with h1 | h1
        · right; rw [h1]; simp
        · right; simp [h1]
      · intro y hy
        rcases List.mem_cons.1 hy with rfl | hy
        · exact h2
        · exact h3 y hy
    · simp only [if_neg h]
      obtain ⟨h1, h2, h3⟩ := ih m
      refine ⟨?_, h2, ?_⟩
      · rcases h1 with h1 | h1
        · exact .inl h1
        · right; simp [h1]
      · intro y hy
        rcases List.mem_cons.1 hy with rfl | hy
        · omega
        · exact h3 y hy

theorem maxLoop_key (key : Int → Int) (l : List Int) : ∀ m : Int,
    (maxLoop (fun a b => key a - key b) m l = m ∨ maxLoop (fun a b => key a - key b) m l ∈ l) ∧
    key m ≤ key (maxLoop (fun a b => key a - key b) m l) ∧
    ∀ x ∈ l, key x ≤ key (maxLoop (fun a b => key a - key b) m l) := by
  induction l with
  | nil => intro m; simp [maxLoop]
  | cons x t ih =>
    intro m
    simp only [maxLoop]
    by_cases h : key x - key m > 0
    · simp only [if_pos h]
      obtain ⟨h1, h2, h3⟩ := ih x
      refine ⟨?_, by omega, ?_⟩
      · rcases h1 with h1 | h1
        · right; rw [h1]; simp
        · right; simp [h1]
      · intro y hy
        rcases List.mem_cons.1 hy with rfl | hy
        · exact h2
        · exact h3 y hy
    · simp only [if_neg h]
      obtain ⟨h1, h2, h3⟩ := ih m
      refine ⟨?_, h2, ?_⟩
      · rcases h1 with h1 | h1
        · exact .inl h1
        · right; simp [h1]
      · intro y hy
        rcases List.mem_cons.1 hy with rfl | hy
        · omega
        · exact h3 y hy

/-! ## Progressions -/

/-- `c` terms of the progression from `b` by `s`. -/
def prog (b s : Int) (c : Nat) : List Int := (List.range c).map fun k : Nat => b + (k : Int) * s

/-- The loop condition of `stepLoop`. -/
def inside (e s : Int) (excl : Bool) (i : Int) : Prop :=
  if s > 0 then (if excl then i < e else i ≤ e) else (if excl then i > e else i ≥ e)

instance (e s : Int) (excl : Bool) (i : Int) : Decidable (inside e s excl i) := by
  unfold inside; infer_instance

theorem prog_succ (b s : Int) (c : Nat) : prog b s (c + 1) = b :: prog (b + s) s c := by
  unfold prog
  rw [List.range_succ_eq_map]
  simp only [List.map_cons, List.map_map]
  congr 1
  · simp
  · apply List.map_congr_left
    intro k _
    simp only [Function.comp]; push_cast; ring

theorem stepLoop_unfold {s : Int} (hs : s ≠ 0) (i e : Int) (excl : Bool) :
    stepLoop i e s excl = if inside e s excl i then i :: stepLoop (i + s) e s excl else [] := by
  rw [stepLoop]
  simp only [hs, if_false, inside]
  split <;> rfl

theorem stepLoop_prog {s : Int} (hs : s ≠ 0) (e : Int) (excl : Bool) (c : Nat) : ∀ b : Int,
    (∀ k : Nat, k < c → inside e s excl (b + k * s)) → ¬ inside e s excl (b + c * s) →
    stepLoop b e s excl = prog b s c := by
  induction c with
  | zero =>
    intro b _ h
    rw [stepLoop_unfold hs, if_neg (by simpa using h)]
    rfl
  | succ c ih =>
    intro b h1 h2
    rw [stepLoop_unfold hs, if_pos (by simpa using h1 0 (by omega)), prog_succ,
      ih (b + s) ?_ ?_]
    · intro k hk
      have := h1 (k + 1) (by omega)
      push_cast at this
      have e1 : b + s + (k : Int) * s = b + ((k : Int) + 1) * s := by ring
      rwa [e1]
    · push_cast at h2
      have e1 : b + s + (c : Int) * s = b + ((c : Int) + 1) * s := by ring
      rwa [e1]

/-- `fixnum_count` before it is clamped to `i64`. -/
def rawCount (b e s : Int) (excl : Bool) : Int :=
  if (s > 0 ∧ e - b < 0) ∨ (s < 0 ∧ e - b > 0) then 0
  else
    let n := (e - b).tdiv s
    let n' :=
      if excl then
        if (if s > 0 then b + n * s ≥ e else b + n * s ≤ e) then n - 1 else n
      else n
    if n' < 0 then 0 else n' + 1

theorem fixnumCount_raw (b e s : Int) (excl : Bool) :
    fixnumCount b e s excl = min (rawCount b e s excl) (2 ^ 63 - 1) := by
  unfold fixnumCount rawCount
  simp only
  split
  · rfl
  · generalize (if excl = true then
      if if s > 0 then b + (e - b).tdiv s * s ≥ e else b + (e - b).tdiv s * s ≤ e then
        (e - b).tdiv s - 1 else (e - b).tdiv s
      else (e - b).tdiv s) = m
    split
    · rfl
    · split <;> omega

theorem rawCount_nonneg (b e s : Int) (excl : Bool) : 0 ≤ rawCount b e s excl := by
  unfold rawCount
  simp only
  split
  · omega
  · generalize (if excl = true then
      if if s > 0 then b + (e - b).tdiv s * s ≥ e else b + (e - b).tdiv s * s ≤ e then
        (e - b).tdiv s - 1 else (e - b).tdiv s
      else (e - b).tdiv s) = m
    split <;> omega

/-- Quotient facts for both signs of the step. -/
theorem tdiv_facts_pos {d s : Int} (hs : 0 < s) (hd : 0 ≤ d) :
    0 ≤ d.tdiv s ∧ d.tdiv s * s ≤ d ∧ d < (d.tdiv s + 1) * s := by
  rw [Int.tdiv_eq_ediv_of_nonneg hd]
  exact ⟨Int.ediv_nonneg hd (by omega), Int.ediv_mul_le d (by omega),
    Int.lt_ediv_add_one_mul_self d hs⟩

theorem tdiv_facts_neg {d s : Int} (hs : s < 0) (hd : d ≤ 0) :
    0 ≤ d.tdiv s ∧ d ≤ d.tdiv s * s ∧ (d.tdiv s + 1) * s < d := by
  obtain ⟨d', rfl⟩ : ∃ d', d = -d' := ⟨-d, by ring⟩
  obtain ⟨s', rfl⟩ : ∃ s', s = -s' := ⟨-s, by ring⟩
  rw [Int.neg_tdiv, Int.tdiv_neg, Int.neg_neg]
  obtain ⟨h1, h2, h3⟩ := tdiv_facts_pos (d := d') (s := s') (by omega) (by omega)
  refine ⟨h1, ?_, ?_⟩ <;> simp only [Int.mul_neg] <;> omega

theorem inside_pos {e s : Int} (hs : 0 < s) (excl : Bool) (i : Int) :
    inside e s excl i ↔ if excl then i < e else i ≤ e := by simp [inside, hs]

theorem inside_neg {e s : Int} (hs : s < 0) (excl : Bool) (i : Int) :
    inside e s excl i ↔ if excl then i > e else i ≥ e := by
  have : ¬ s > 0 := by omega
  simp [inside, this]

theorem rawCount_spec {s : Int} (hs : s ≠ 0) (b e : Int) (excl : Bool) :
    (∀ k : Nat, k < (rawCount b e s excl).toNat → inside e s excl (b + k * s)) ∧
    ¬ inside e s excl (b + (rawCount b e s excl).toNat * s) := by
  rcases Int.lt_or_gt_of_ne hs with hneg | hpos
  · -- going down
    by_cases hd : e - b > 0
    · have : rawCount b e s excl = 0 := by
        unfold rawCount; rw [if_pos (.inr ⟨hneg, hd⟩)]
      rw [this]
      refine ⟨fun k hk => by simp at hk, ?_⟩
      rw [inside_neg hneg]
      simp
      cases excl <;> simp <;> omega
    · obtain ⟨q0, q1, q2⟩ := tdiv_facts_neg hneg (by omega : e - b ≤ 0)
      have hc : ¬ ((s > 0 ∧ e - b < 0) ∨ (s < 0 ∧ e - b > 0)) := by omega
      have hsp : ¬ s > 0 := by omega
      generalize hq : (e - b).tdiv s = q at q0 q1 q2
      have hstep : ∀ k : Nat, ∀ m : Int, (k : Int) ≤ m → m * s ≤ k * s := by
        intro k m hk; nlinarith
      cases excl with
      | false =>
        have hr : rawCount b e s false = q + 1 := by
          unfold rawCount; simp only [if_neg hc, hq]; simp; omega
        rw [hr]
        have hcast : ((q + 1).toNat : Int) = q + 1 := by omega
        refine ⟨fun k hk => ?_, ?_⟩
        · rw [inside_neg hneg]
          have := hstep k q (by omega)
          simp; omega
        · rw [inside_neg hneg, hcast]; simp; omega
      | true =>
        by_cases ho : b + q * s ≤ e
        · have hqe : q * s = e - b := by omega
          have hr : rawCount b e s true = q := by
            unfold rawCount; simp only [if_neg hc, hq, if_neg hsp, if_pos ho]; simp
            omega
          rw [hr]
          have hcast : (q.toNat : Int) = q := by omega
          refine ⟨fun k hk => ?_, ?_⟩
          · rw [inside_neg hneg]
            have h1 := hstep k (q - 1) (by omega)
            have h2 : (q - 1) * s = q * s - s := by ring
            simp; omega
          · rw [inside_neg hneg, hcast]; simp; omega
        · have hr : rawCount b e s true = q + 1 := by
            unfold rawCount; simp only [if_neg hc, hq, if_neg hsp, if_neg ho]; simp; omega
          rw [hr]
          have hcast : ((q + 1).toNat : Int) = q + 1 := by omega
          refine ⟨fun k hk => ?_, ?_⟩
          · rw [inside_neg hneg]
            have := hstep k q (by omega)
            simp; omega
          · rw [inside_neg hneg, hcast]; simp; omega
  · -- going up
    by_cases hd : e - b < 0
    · have : rawCount b e s excl = 0 := by
        unfold rawCount; rw [if_pos (.inl ⟨hpos, hd⟩)]
      rw [this]
      refine ⟨fun k hk => by simp at hk, ?_⟩
      rw [inside_pos hpos]
      simp
      cases excl <;> simp <;> omega
    · obtain ⟨q0, q1, q2⟩ := tdiv_facts_pos hpos (by omega : 0 ≤ e - b)
      have hc : ¬ ((s > 0 ∧ e - b < 0) ∨ (s < 0 ∧ e - b > 0)) := by omega
      have hsp : s > 0 := hpos
      generalize hq : (e - b).tdiv s = q at q0 q1 q2
      have hstep : ∀ k : Nat, ∀ m : Int, (k : Int) ≤ m → k * s ≤ m * s := by
        intro k m hk; nlinarith
      cases excl with
      | false =>
        have hr : rawCount b e s false = q + 1 := by
          unfold rawCount; simp only [if_neg hc, hq]; simp; omega
        rw [hr]
        have hcast : ((q + 1).toNat : Int) = q + 1 := by omega
        refine ⟨fun k hk => ?_, ?_⟩
        · rw [inside_pos hpos]
          have := hstep k q (by omega)
          simp; omega
        · rw [inside_pos hpos, hcast]; simp; omega
      | true =>
        by_cases ho : b + q * s ≥ e
        · have hqe : q * s = e - b := by omega
          have hr : rawCount b e s true = q := by
            unfold rawCount; simp only [if_neg hc, hq, if_pos hsp, if_pos ho]; simp
            omega
          rw [hr]
          have hcast : (q.toNat : Int) = q := by omega
          refine ⟨fun k hk => ?_, ?_⟩
          · rw [inside_pos hpos]
            have h1 := hstep k (q - 1) (by omega)
            have h2 : (q - 1) * s = q * s - s := by ring
            simp; omega
          · rw [inside_pos hpos, hcast]; simp; omega
        · have hr : rawCount b e s true = q + 1 := by
            unfold rawCount; simp only [if_neg hc, hq, if_pos hsp, if_neg ho]; simp; omega
          rw [hr]
          have hcast : ((q + 1).toNat : Int) = q + 1 := by omega
          refine ⟨fun k hk => ?_, ?_⟩
          · rw [inside_pos hpos]
            have := hstep k q (by omega)
            simp; omega
          · rw [inside_pos hpos, hcast]; simp; omega

/-- The loop of `step` yields the progression the closed formula counts. -/
theorem stepLoop_raw {s : Int} (hs : s ≠ 0) (b e : Int) (excl : Bool) :
    stepLoop b e s excl = prog b s (rawCount b e s excl).toNat :=
  stepLoop_prog hs e excl _ b (rawCount_spec hs b e excl).1 (rawCount_spec hs b e excl).2

theorem prog_length (b s : Int) (c : Nat) : (prog b s c).length = c := by simp [prog]

theorem stepLoop_length {s : Int} (hs : s ≠ 0) (b e : Int) (excl : Bool) :
    ((stepLoop b e s excl).length : Int) = rawCount b e s excl := by
  rw [stepLoop_raw hs, prog_length]
  have := rawCount_nonneg b e s excl
  omega

/-- Once outside, always outside. -/
theorem inside_down {s : Int} (hs : s ≠ 0) {e : Int} {excl : Bool} {b : Int} {j k : Nat}
    (hjk : j ≤ k) (h : inside e s excl (b + k * s)) : inside e s excl (b + j * s) := by
  rcases Int.lt_or_gt_of_ne hs with hneg | hpos
  · rw [inside_neg hneg] at h ⊢
    have : (k : Int) * s ≤ j * s := by nlinarith [(by omega : (j : Int) ≤ k)]
    cases excl <;> simp at h ⊢ <;> omega
  · rw [inside_pos hpos] at h ⊢
    have : (j : Int) * s ≤ k * s := by nlinarith [(by omega : (j : Int) ≤ k)]
    cases excl <;> simp at h ⊢ <;> omega

theorem stepLoop_get {s : Int} (hs : s ≠ 0) (b e : Int) (excl : Bool) (k : Nat) :
    (stepLoop b e s excl)[k]? =
      if inside e s excl (b + k * s) then some (b + k * s) else none := by
  obtain ⟨h1, h2⟩ := rawCount_spec hs b e excl
  rw [stepLoop_raw hs]
  by_cases hk : k < (rawCount b e s excl).toNat
  · rw [if_pos (h1 k hk)]
    simp [prog, hk]
  · rw [if_neg (fun h => h2 (inside_down hs (by omega) h))]
    simp [prog]
    omega

theorem asLoop_prog (b s c : Int) (i : Int) (hi : 0 ≤ i) :
    asLoop b s c i = prog (b + i * s) s (c - i).toNat := by
  unfold asLoop
  split
  · have hk : (c - i).toNat = (c - (i + 1)).toNat + 1 := by omega
    rw [hk, prog_succ, asLoop_prog b s c (i + 1) (by omega)]
    congr 2
    ring
  · have : (c - i).toNat = 0 := by omega
    rw [this]; rfl
termination_by (c - i).toNat
decreasing_by omega

theorem buildTerms_eq {b s : Int} (hb : isFix b) (hs : isFix s) (start n : Int) :
    buildTerms b s start n = (prog (b + start * s) s n.toNat).map Term.int := by
  unfold buildTerms prog
  rw [List.map_map]
  apply List.map_congr_left
  intro k _
  simp only [termAt, hb, hs, Function.comp, and_self, if_true]
  congr 1
  ring

theorem prog_take (b s : Int) (c n : Nat) : (prog b s c).take n = prog b s (min n c) := by
  unfold prog
  rw [← List.map_take, List.take_range]

theorem prog_drop (b s : Int) (c : Nat) : ∀ n : Nat, n ≤ c →
    (prog b s c).drop n = prog (b + n * s) s (c - n) := by
  intro n hn
  unfold prog
  apply List.ext_getElem?
  intro i
  simp only [List.getElem?_drop, List.getElem?_map, List.getElem?_range']
  by_cases h : n + i < c
  · rw [List.getElem?_range h, List.getElem?_range (by omega)]
    simp; push_cast; ring
  · rw [List.getElem?_eq_none (by simp; omega), List.getElem?_eq_none (by simp; omega)]
    rfl

end Verif.Rng
