import Verif.Random.Stream
import Mathlib.Tactic.IntervalCases
import Mathlib.Tactic.Linarith

/-!
Bounded integers: the mask, one pass, the whole loop.
-/

namespace Verif.Random

/-! ## The mask -/

/-- bit `i` of `y` says whether `x` has a bit among `i … i+k-1` -/
def Smear (x y : W) (k : Nat) : Prop :=
  ∀ i, y.getLsbD i = true ↔ ∃ j, j < k ∧ x.getLsbD (i + j) = true

theorem Smear.double {x y : W} {k : Nat} (h : Smear x y k) : Smear x (y ||| (y >>> k)) (k + k) := by
  intro i
  simp only [BitVec.getLsbD_or, BitVec.getLsbD_ushiftRight, Bool.or_eq_true]
  rw [h i, h (k + i)]
  constructor
  · rintro (⟨j, hj, hx⟩ | ⟨j, hj, hx⟩)
    · exact ⟨j, by omega, hx⟩
    · exact ⟨k + j, by omega, by rw [show i + (k + j) = k + i + j by omega]; exact hx⟩
  · rintro ⟨j, hj, hx⟩
    by_cases hjk : j < k
    · exact Or.inl ⟨j, hjk, hx⟩
    · exact Or.inr ⟨j - k, by omega, by rw [show k + i + (j - k) = i + j by omega]; exact hx⟩

theorem makeMask_smear (x : W) : Smear x (makeMask x) 32 := by
  have h1 : Smear x x 1 := by
    intro i
    constructor
    · intro h; exact ⟨0, by omega, h⟩
    · rintro ⟨j, hj, h⟩
      obtain rfl : j = 0 := by omega
      exact h
  exact h1.double.double.double.double.double

theorem makeMask_zero : makeMask 0#32 = 0#32 := by decide

/-- number of bits of `x` -/
def bits (x : W) : Nat := if x = 0#32 then 0 else Nat.log2 x.toNat + 1

theorem bits_le (x : W) : bits x ≤ 32 := by
  unfold bits
  split
  · omega
  · rename_i h
    have hx : x.toNat ≠ 0 := by
      intro h0; apply h; apply BitVec.eq_of_toNat_eq; simpa using h0
    have := (Nat.log2_lt hx (k := 32)).2 x.isLt
    omega

theorem getLsbD_lt_bits (x : W) (i : Nat) (h : x.getLsbD i = true) : i < bits x := by
  have hx0 : x ≠ 0#32 := by rintro rfl; simp at h
  have hx : x.toNat ≠ 0 := by
    intro h0; apply hx0; apply BitVec.eq_of_toNat_eq; simpa using h0
  unfold bits
  rw [if_neg hx0]
  have h1 : 2 ^ i ≤ x.toNat := Nat.ge_two_pow_of_testBit h
  have := (Nat.le_log2 hx).2 h1
  omega

theorem getLsbD_top (x : W) (hx0 : x ≠ 0#32) : x.getLsbD (bits x - 1) = true := by
  have hx : x.toNat ≠ 0 := by
    intro h0; apply hx0; apply BitVec.eq_of_toNat_eq; simpa using h0
  unfold bits
  rw [if_neg hx0]
  have h1 := Nat.log2_self_le hx
  have h2 := @Nat.lt_log2_self x.toNat
  rw [Nat.add_sub_cancel]
  show x.toNat.testBit _ = true
  rw [Nat.testBit_eq_decide_div_mod_eq]
  simp only [decide_eq_true_eq]
  have : x.toNat / 2 ^ x.toNat.log2 = 1 := by
    apply Nat.div_eq_of_lt_le
    · omega
    · rw [Nat.pow_succ] at h2; omega
  rw [this]

theorem makeMask_getLsbD (x : W) (i : Nat) : (makeMask x).getLsbD i = decide (i < bits x) := by
  rw [Bool.eq_iff_iff, makeMask_smear x i]
  simp only [decide_eq_true_eq]
  constructor
  · rintro ⟨j, _, h⟩
    have := getLsbD_lt_bits x _ h
    omega
  · intro h
    have hx0 : x ≠ 0#32 := by rintro rfl; simp [bits] at h
    have hb := bits_le x
    exact ⟨bits x - 1 - i, by omega, by
      rw [show i + (bits x - 1 - i) = bits x - 1 by omega]; exact getLsbD_top x hx0⟩

theorem makeMask_ne_zero (x : W) (h : x ≠ 0#32) : makeMask x ≠ 0#32 := by
  intro h0
  have h1 := makeMask_getLsbD x 0
  rw [h0] at h1
  have : 0 < bits x := by unfold bits; rw [if_neg h]; omega
  simp [this] at h1

/-- masking keeps the low bits -/
theorem and_makeMask_toNat (x w : W) : (w &&& makeMask x).toNat = w.toNat % 2 ^ bits x := by
  apply Nat.eq_of_testBit_eq
  intro i
  rw [Nat.testBit_mod_two_pow]
  have h1 : (w &&& makeMask x).toNat.testBit i = (w &&& makeMask x).getLsbD i := rfl
  rw [h1, BitVec.getLsbD_and, makeMask_getLsbD, Bool.and_comm]
  rfl

theorem lt_two_pow_bits (x : W) : x.toNat < 2 ^ bits x := by
  unfold bits
  split
  · rename_i h; subst h; decide
  · exact Nat.lt_log2_self

theorem two_pow_bits_le (x : W) (h : x ≠ 0#32) : 2 ^ (bits x - 1) ≤ x.toNat := by
  have hx : x.toNat ≠ 0 := by
    intro h0; apply h; apply BitVec.eq_of_toNat_eq; simpa using h0
  unfold bits
  rw [if_neg h]
  exact Nat.log2_self_le hx

/-! ## Digits -/

/-- the value of digits, most significant first -/
def msdVal : List W → Nat
  | [] => 0
  | d :: ds => d.toNat * 4294967296 ^ ds.length + msdVal ds

theorem msdVal_lt : ∀ l : List W, msdVal l < 4294967296 ^ l.length := by
  intro l
  induction l with
  | nil => simp [msdVal]
  | cons d ds ih =>
    rw [msdVal, List.length_cons, Nat.pow_succ]
    have hd : d.toNat < 4294967296 := d.isLt
    have : d.toNat * 4294967296 ^ ds.length + 4294967296 ^ ds.length
        ≤ 4294967296 * 4294967296 ^ ds.length := by
      rw [← Nat.succ_mul]; exact Nat.mul_le_mul_right _ hd
    rw [Nat.mul_comm (4294967296 ^ ds.length)]
    omega

theorem digitsVal_append (a b : List W) :
    digitsVal (a ++ b) = digitsVal a + 4294967296 ^ a.length * digitsVal b := by
  induction a with
  | nil => simp [digitsVal]
  | cons x a ih => simp only [List.cons_append, digitsVal, ih, List.length_cons, Nat.pow_succ]; ring

theorem digitsVal_reverse (l : List W) : digitsVal l.reverse = msdVal l := by
  induction l with
  | nil => rfl
  | cons d ds ih =>
    rw [List.reverse_cons, digitsVal_append, ih, msdVal]
    simp [digitsVal]; ring

theorem msdVal_reverse (l : List W) : msdVal l.reverse = digitsVal l := by
  rw [← digitsVal_reverse, List.reverse_reverse]

theorem msdVal_inj : ∀ (a b : List W), a.length = b.length → msdVal a = msdVal b → a = b := by
  intro a
  induction a with
  | nil => intro b hl _; cases b with
    | nil => rfl
    | cons => simp at hl
  | cons x a ih =>
    intro b hl hv
    cases b with
    | nil => simp at hl
    | cons y b =>
      simp only [List.length_cons, Nat.add_right_cancel_iff] at hl
      simp only [msdVal, hl] at hv
      have ha := msdVal_lt a
      have hb := msdVal_lt b
      rw [hl] at ha
      have hp : 0 < 4294967296 ^ b.length := by positivity
      have hxy : x.toNat = y.toNat := by
        have h1 := congrArg (· / 4294967296 ^ b.length) hv
        beta_reduce at h1
        rw [Nat.add_comm, Nat.add_mul_div_right _ _ hp, Nat.div_eq_of_lt ha,
          Nat.add_comm (y.toNat * _), Nat.add_mul_div_right _ _ hp, Nat.div_eq_of_lt hb] at h1
        omega
      rw [hxy] at hv
      rw [BitVec.eq_of_toNat_eq hxy, ih b hl (by omega)]

/-- any number below `2^(32 n)` is written with `n` digits -/
theorem msdVal_surj : ∀ (n v : Nat), v < 4294967296 ^ n → ∃ l : List W, l.length = n ∧ msdVal l = v := by
  intro n
  induction n with
  | zero => intro v hv; exact ⟨[], rfl, by simp [msdVal]; simp at hv; omega⟩
  | succ n ih =>
    intro v hv
    have hp : 0 < 4294967296 ^ n := by positivity
    obtain ⟨l, hl, hlv⟩ := ih (v % 4294967296 ^ n) (Nat.mod_lt _ hp)
    refine ⟨BitVec.ofNat 32 (v / 4294967296 ^ n) :: l, by simp [hl], ?_⟩
    have hq : v / 4294967296 ^ n < 4294967296 := by
      rw [Nat.div_lt_iff_lt_mul hp]; rw [Nat.pow_succ] at hv; rw [Nat.mul_comm]; exact hv
    rw [msdVal, hlv, hl]
    simp only [BitVec.toNat_ofNat]
    rw [Nat.mod_eq_of_lt hq, Nat.mul_comm]
    exact Nat.div_add_mod _ _

theorem leDigits_val (n : Nat) : digitsVal (leDigits n) = n := by
  induction n using Nat.strong_induction_on with
  | _ n ih =>
    rw [leDigits]
    split
    · rename_i h; simp [digitsVal]; omega
    · rw [digitsVal, ih _ (Nat.div_lt_self (by omega) (by omega))]
      simp only [BitVec.toNat_ofNat]
      omega

/-- the most significant digit is not zero, except for zero itself -/
theorem leDigits_top (n : Nat) (hn : n ≠ 0) :
    ∃ top rest, (leDigits n).reverse = top :: rest ∧ top ≠ 0#32 := by
  induction n using Nat.strong_induction_on with
  | _ n ih =>
    rw [leDigits]
    split
    · rename_i h
      refine ⟨BitVec.ofNat 32 n, [], rfl, ?_⟩
      intro h0
      have := congrArg BitVec.toNat h0
      simp at this; omega
    · rename_i h
      obtain ⟨top, rest, h1, h2⟩ := ih (n / 4294967296) (Nat.div_lt_self (by omega) (by omega))
        (by intro h0; omega)
      exact ⟨top, rest ++ [BitVec.ofNat 32 n], by rw [List.reverse_cons, h1]; rfl, h2⟩

theorem leDigits_zero : leDigits 0 = [0#32] := by rw [leDigits]; rfl

/-! ## One pass -/

variable {S : Type}

/-- the next `n` words -/
def words (next : S → W × S) : Nat → S → List W
  | 0, _ => []
  | n + 1, s => (next s).1 :: words next n (next s).2

theorem words_length (next : S → W × S) : ∀ n s, (words next n s).length = n := by
  intro n
  induction n with
  | zero => intro s; rfl
  | succ n ih => intro s; simp [words, ih]

theorem and_allOnes (w : W) : w &&& 0xffffffff#32 = w := by
  apply BitVec.eq_of_getLsbD_eq
  intro i hi
  rw [BitVec.getLsbD_and]
  have : (0xffffffff#32 : W).getLsbD i = true := by
    interval_cases i <;> rfl
  rw [this, Bool.and_true]

theorem pass_free (next : S → W × S) : ∀ (l : List W) (mask : W) (s : S) (c : Nat), mask ≠ 0#32 →
    pass next l mask false s c =
      (some (words next l.length s), skip next l.length s, c + l.length) := by
  intro l
  induction l with
  | nil => intro mask s c _; rfl
  | cons lim rest ih =>
    intro mask s c hm
    rw [pass]
    simp only [if_pos hm, Bool.false_and]
    rw [ih _ _ _ (by decide)]
    simp only [and_allOnes]
    simp [words, skip]
    omega

/-- A pass over digits drawn in full accepts exactly when the words do not exceed the limit. -/
theorem pass_tight (next : S → W × S) : ∀ (l : List W) (mask : W) (s : S) (c : Nat), mask ≠ 0#32 →
    (msdVal (words next l.length s) ≤ msdVal l →
      pass next l mask true s c =
        (some (words next l.length s), skip next l.length s, c + l.length)) ∧
    (msdVal l < msdVal (words next l.length s) → (pass next l mask true s c).1 = none) := by
  intro l
  induction l with
  | nil => intro mask s c _; exact ⟨fun _ => rfl, fun h => absurd h (by simp [msdVal, words])⟩
  | cons lim rest ih =>
    intro mask s c hm
    rw [pass]
    simp only [if_pos hm, Bool.true_and, and_allOnes]
    have hw := msdVal_lt (words next rest.length (next s).2)
    have hr := msdVal_lt rest
    rw [words_length] at hw
    simp only [List.length_cons, words, msdVal, words_length]
    set w := (next s).1
    set P := 4294967296 ^ rest.length
    have hff : (0xffffffff#32 : W) ≠ 0#32 := by decide
    rw [if_pos hff]
    by_cases h1 : lim < w
    · have h1' : lim.toNat < w.toNat := h1
      have : lim.toNat * P + P ≤ w.toNat * P := by
        rw [← Nat.succ_mul]; exact Nat.mul_le_mul_right _ h1'
      simp only [h1, decide_true, if_true]
      exact ⟨fun h => by omega, fun _ => trivial⟩
    · simp only [h1, decide_false, Bool.false_eq_true, if_false]
      by_cases h2 : w < lim
      · have h2' : w.toNat < lim.toNat := h2
        have : w.toNat * P + P ≤ lim.toNat * P := by
          rw [← Nat.succ_mul]; exact Nat.mul_le_mul_right _ h2'
        simp only [h2, decide_true, Bool.not_true]
        rw [pass_free _ _ _ _ _ hff]
        refine ⟨fun _ => ?_, fun h => by omega⟩
        simp [skip]; omega
      · have h3 : w.toNat = lim.toNat := by
          have a1 : ¬ lim.toNat < w.toNat := h1
          have a2 : ¬ w.toNat < lim.toNat := h2
          omega
        simp only [h2, decide_false, Bool.not_false]
        obtain ⟨ih1, ih2⟩ := ih 0xffffffff#32 (next s).2 (c + 1) hff
        rw [h3]
        refine ⟨fun h => ?_, fun h => ?_⟩
        · rw [ih1 (by omega)]
          simp [skip]; omega
        · have := ih2 (by omega)
          generalize pass next rest 0xffffffff#32 true (next s).2 (c + 1) = r at this
          obtain ⟨o, s', c'⟩ := r
          simp only at this
          subst this
          rfl

/-- what the words select: the masked first word followed by the others -/
def selected (top : W) : List W → List W
  | [] => []
  | w :: ws => (w &&& makeMask top) :: ws

theorem selected_length (top : W) (l : List W) : (selected top l).length = l.length := by
  cases l <;> rfl

/-- One pass, limit `top :: rest` with `top ≠ 0`. -/
theorem pass_spec (next : S → W × S) (top : W) (rest : List W) (s : S) (c : Nat) (ht : top ≠ 0#32) :
    (msdVal (selected top (words next (rest.length + 1) s)) ≤ msdVal (top :: rest) →
      pass next (top :: rest) 0#32 true s c =
        (some (selected top (words next (rest.length + 1) s)), skip next (rest.length + 1) s,
          c + (rest.length + 1))) ∧
    (msdVal (top :: rest) < msdVal (selected top (words next (rest.length + 1) s)) →
      (pass next (top :: rest) 0#32 true s c).1 = none) := by
  rw [pass]
  have hm := makeMask_ne_zero top ht
  simp only [ne_eq, not_true_eq_false, if_false, hm, not_false_eq_true, if_true, Bool.true_and]
  have hw := msdVal_lt (words next rest.length (next s).2)
  have hr := msdVal_lt rest
  rw [words_length] at hw
  simp only [words, msdVal, selected, words_length]
  set w := (next s).1 &&& makeMask top
  set P := 4294967296 ^ rest.length
  by_cases h1 : top < w
  · have h1' : top.toNat < w.toNat := h1
    have : top.toNat * P + P ≤ w.toNat * P := by
      rw [← Nat.succ_mul]; exact Nat.mul_le_mul_right _ h1'
    simp only [h1, decide_true, if_true]
    exact ⟨fun h => by omega, fun _ => trivial⟩
  · simp only [h1, decide_false, Bool.false_eq_true, if_false]
    by_cases h2 : w < top
    · have h2' : w.toNat < top.toNat := h2
      have : w.toNat * P + P ≤ top.toNat * P := by
        rw [← Nat.succ_mul]; exact Nat.mul_le_mul_right _ h2'
      simp only [h2, decide_true, Bool.not_true]
      rw [pass_free _ _ _ _ _ hm]
      refine ⟨fun _ => ?_, fun h => by omega⟩
      simp [skip]; omega
    · have h3 : w.toNat = top.toNat := by
        have a1 : ¬ top.toNat < w.toNat := h1
        have a2 : ¬ w.toNat < top.toNat := h2
        omega
      simp only [h2, decide_false, Bool.not_false]
      obtain ⟨ih1, ih2⟩ := pass_tight next rest (makeMask top) (next s).2 (c + 1) hm
      rw [h3]
      refine ⟨fun h => ?_, fun h => ?_⟩
      · rw [ih1 (by omega)]
        simp [skip]; omega
      · have := ih2 (by omega)
        generalize pass next rest (makeMask top) true (next s).2 (c + 1) = r at this
        obtain ⟨o, s', c'⟩ := r
        simp only at this
        subst this
        rfl

theorem pass_le (next : S → W × S) (top : W) (rest : List W) (s : S) (c : Nat) (ht : top ≠ 0#32)
    (ds : List W) (h : (pass next (top :: rest) 0#32 true s c).1 = some ds) :
    ds.length = rest.length + 1 ∧ msdVal ds ≤ msdVal (top :: rest) := by
  obtain ⟨h1, h2⟩ := pass_spec next top rest s c ht
  by_cases hle : msdVal (selected top (words next (rest.length + 1) s)) ≤ msdVal (top :: rest)
  · rw [h1 hle] at h
    simp only [Option.some.injEq] at h
    subst h
    exact ⟨by rw [selected_length, words_length], hle⟩
  · rw [h2 (by omega)] at h
    simp at h

theorem limitedRand_le (next : S → W × S) (l : List W) (top : W) (rest : List W)
    (hl : l.reverse = top :: rest) (ht : top ≠ 0#32) : ∀ (fuel : Nat) (s : S) (c : Nat)
    (ds : List W) (s' : S) (c' : Nat), limitedRand next l fuel s c = some (ds, s', c') →
    ds.length = l.length ∧ digitsVal ds ≤ digitsVal l := by
  intro fuel
  have hlen : l.length = rest.length + 1 := by rw [← List.length_reverse, hl]; rfl
  induction fuel with
  | zero => intro s c ds s' c' h; simp [limitedRand] at h
  | succ fuel ih =>
    intro s c ds s' c' h
    rw [limitedRand, hl] at h
    have hp := pass_le next top rest s c ht
    generalize pass next (top :: rest) 0#32 true s c = r at h hp
    obtain ⟨o, s1, c1⟩ := r
    cases o with
    | none => exact ih _ _ _ _ _ h
    | some d =>
      simp only [Option.some.injEq, Prod.mk.injEq] at h
      obtain ⟨rfl, rfl, rfl⟩ := h
      obtain ⟨h1, h2⟩ := hp d rfl
      exact ⟨by simp [h1, hlen], by rw [digitsVal_reverse, ← msdVal_reverse l, hl]; exact h2⟩

theorem limitedRand_zero (next : S → W × S) (fuel : Nat) (s : S) (c : Nat) :
    limitedRand next [0#32] (fuel + 1) s c = some ([0#32], s, c) := by
  simp only [limitedRand, List.reverse_cons, List.reverse_nil, List.nil_append, pass]
  simp [makeMask_zero]

end Verif.Random
