import Verif.NumCmp.Model
import Verif.IntMeth.FdivProps

/-!
# C141: comparison of Integers and Floats
-/

namespace Verif.NumCmp

open Verif.IntMeth

/-- The number a number stands for. -/
def value : Num → F
  | .fix i => .fin i
  | .big i => .fin i
  | .flt f => f

/-! ### Conversion to double -/

theorem rne_near (a b : ℕ) (hb : 0 < b) :
    2 * |(a : ℚ) - (rne a b : ℚ) * b| ≤ b
    ∧ (2 * |(a : ℚ) - (rne a b : ℚ) * b| = b → rne a b % 2 = 0) := by
  have hab : (a : ℚ) = (a / b : ℕ) * b + (a % b : ℕ) := by
    have := Nat.div_add_mod a b
    have h2 : ((b * (a / b) + a % b : ℕ) : ℚ) = a := by exact_mod_cast this
    push_cast at h2
    rw [← h2]
    push_cast
    ring
  have hm := Nat.mod_lt a hb
  generalize hq : a / b = q at hab
  generalize hr : a % b = r at hab hm
  have hbq : (0 : ℚ) < b := by exact_mod_cast hb
  have hmq : (r : ℚ) < b := by exact_mod_cast hm
  have hr0 : (0 : ℚ) ≤ r := by exact_mod_cast Nat.zero_le r
  simp only [rne, hq, hr]
  split
  · rename_i h
    have h' : (2 : ℚ) * r < b := by exact_mod_cast h
    have e : (a : ℚ) - (q : ℚ) * b = r := by rw [hab]; ring
    rw [e, abs_of_nonneg hr0]
    exact ⟨h'.le, fun hc => absurd hc h'.ne⟩
  · rename_i h
    split
    · rename_i h2
      have h2' : (b : ℚ) < 2 * r := by exact_mod_cast h2
      have e : (a : ℚ) - ((q + 1 : ℕ) : ℚ) * b = -(b - r) := by rw [hab]; push_cast; ring
      rw [e, abs_neg, abs_of_nonneg (by linarith)]
      constructor
      · linarith
      · intro hc
        linarith
    · rename_i h2
      have h3 : 2 * r = b := by omega
      have h3' : (2 : ℚ) * r = b := by exact_mod_cast h3
      constructor
      · rcases Nat.mod_two_eq_zero_or_one q with h4 | h4
        · rw [h4]
          have e : (a : ℚ) - ((q + 0 : ℕ) : ℚ) * b = r := by rw [hab]; push_cast; ring
          rw [e, abs_of_nonneg hr0, h3']
        · rw [h4]
          have e : (a : ℚ) - ((q + 1 : ℕ) : ℚ) * b = -(b - r) := by rw [hab]; push_cast; ring
          rw [e, abs_neg, abs_of_nonneg (by linarith)]
          linarith
      · intro _
        omega

theorem toF_nearest (q : ℕ) (z : ℚ) (hz : IsDouble z) :
    |(q : ℚ) - ((toF q).1 : ℚ) * 2 ^ (toF q).2| ≤ |(q : ℚ) - z| := by
  by_cases hs : q.size ≤ 53
  · have : toF q = (q, 0) := by rw [toF, if_pos hs]
    rw [this]
    simp
  · have ht : toF q = (rne q (2 ^ (q.size - 53)), q.size - 53) := by rw [toF, if_neg hs]
    rw [ht]
    obtain ⟨n1, n2⟩ := rne_near q (2 ^ (q.size - 53)) (by positivity)
    push_cast at n1 n2
    refine C115_rounded_is_nearest _ _ ⟨(q.size - 53 : ℕ), rne q (2 ^ (q.size - 53)), by omega, ?_, ?_,
      ?_, ?_, ?_⟩ z hz
    · left
      rw [zpow_natCast]
      have h1 : 2 ^ (q.size - 1) ≤ q := by
        rw [← Nat.lt_size]
        omega
      have h2 : 2 ^ 52 * 2 ^ (q.size - 53) = 2 ^ (q.size - 1) := by
        rw [← Nat.pow_add]
        congr 1
        omega
      rw [← h2] at h1
      exact_mod_cast h1
    · rw [zpow_natCast]
      have h1 : q < 2 ^ q.size := Nat.lt_size_self q
      have h2 : 2 ^ 53 * 2 ^ (q.size - 53) = 2 ^ q.size := by
        rw [← Nat.pow_add]
        congr 1
        omega
      rw [← h2] at h1
      exact_mod_cast h1
    · rw [zpow_natCast]
    · rw [zpow_natCast]
      exact n1
    · rw [zpow_natCast]
      exact n2

/-- The double an Integer is made is as near as any. -/
theorem asF64_nearest (i : ℤ) (z : ℚ) (hz : IsDouble |z|) : |(i : ℚ) - asF64 i| ≤ |(i : ℚ) - z| := by
  have h0 : IsDouble 0 := ⟨0, 0, by norm_num, by norm_num, by norm_num⟩
  have key : ∀ (q : ℕ) (z : ℚ), IsDouble |z| →
      |(q : ℚ) - ((toF q).1 : ℚ) * 2 ^ (toF q).2| ≤ |(q : ℚ) - z| := by
    intro q z hz
    rcases le_or_gt 0 z with h | h
    · rw [abs_of_nonneg h] at hz
      exact toF_nearest q z hz
    · refine (toF_nearest q 0 h0).trans ?_
      have hq : (0 : ℚ) ≤ q := by exact_mod_cast Nat.zero_le q
      rw [sub_zero, abs_of_nonneg hq, abs_of_nonneg (by linarith)]
      linarith
  simp only [asF64]
  by_cases hi : i < 0
  · rw [if_pos hi]
    have e : (i : ℚ) = -(i.natAbs : ℚ) := by
      rw [Nat.cast_natAbs, abs_of_neg hi]
      push_cast
      ring
    have := key i.natAbs (-z) (by rw [abs_neg]; exact hz)
    rw [e]
    calc _ = |(i.natAbs : ℚ) - ((toF i.natAbs).1 : ℚ) * 2 ^ (toF i.natAbs).2| := by
          rw [← abs_neg]
          congr 1
          ring
      _ ≤ |(i.natAbs : ℚ) - -z| := this
      _ = _ := by
          rw [← abs_neg]
          congr 1
          ring
  · rw [if_neg hi]
    have e : (i : ℚ) = (i.natAbs : ℚ) := by
      rw [Nat.cast_natAbs, abs_of_nonneg (not_lt.1 hi)]
    rw [e]
    exact key i.natAbs z hz

theorem asF64_small (i : ℤ) (h : |i| ≤ 2 ^ 53) : asF64 i = i := by
  have hz : IsDouble |(i : ℚ)| := by
    by_cases he : i.natAbs = 2 ^ 53
    · refine ⟨1, 2 ^ 52, by norm_num, by norm_num, ?_⟩
      have : |(i : ℚ)| = ((i.natAbs : ℕ) : ℚ) := by
        rw [Nat.cast_natAbs]
        push_cast
        rfl
      rw [this, he]
      norm_num
    · refine ⟨0, i.natAbs, by norm_num, ?_, ?_⟩
      · have : (i.natAbs : ℤ) ≤ 2 ^ 53 := by
          rw [Int.natCast_natAbs]
          exact h
        have : i.natAbs ≤ 2 ^ 53 := by exact_mod_cast this
        omega
      · rw [Nat.cast_natAbs]
        push_cast
        simp
  have := asF64_nearest i i hz
  rw [sub_self, abs_zero] at this
  have := abs_nonpos_iff.1 this
  linarith

/-! ### Bignums -/

theorem bigCmp_exact (n : ℤ) (f : F) : bigCmp n f = cmpF (.fin n) f := by
  cases f with
  | nan => rfl
  | inf neg => cases neg <;> rfl
  | fin x =>
    simp only [bigCmp, cmpF]
    have hlt : n < trunc x → (n : ℚ) < x := by
      intro h
      simp only [trunc] at h
      split at h
      · have h2 : ((n : ℤ) : ℚ) < (⌊x⌋ : ℤ) := by exact_mod_cast h
        exact h2.trans_le (Int.floor_le x)
      · exact Int.lt_ceil.1 h
    have hgt : trunc x < n → x < (n : ℚ) := by
      intro h
      simp only [trunc] at h
      split at h
      · exact Int.floor_lt.1 h
      · have h2 : ((⌈x⌉ : ℤ) : ℚ) < (n : ℤ) := by exact_mod_cast h
        exact (Int.le_ceil x).trans_lt h2
    by_cases h1 : trunc x < n
    · rw [if_pos h1]
      have := hgt h1
      rw [if_neg (not_lt.2 this.le), if_pos this]
    · rw [if_neg h1]
      by_cases h2 : n < trunc x
      · rw [if_pos h2, if_pos (hlt h2)]
      · rw [if_neg h2]
        have he : trunc x = n := by omega
        rw [he]
        by_cases h3 : (n : ℚ) < x
        · rw [if_pos h3, if_pos (by linarith)]
        · rw [if_neg h3, if_neg (by linarith)]
          by_cases h4 : x < n
          · rw [if_pos h4, if_pos (by linarith)]
          · rw [if_neg h4, if_neg (by linarith)]

theorem cmpF_swap (f g : F) : cmpF g f = (cmpF f g).map Ordering.swap := by
  cases f with
  | nan => cases g <;> rfl
  | inf a =>
    cases g with
    | nan => rfl
    | inf b => cases a <;> cases b <;> rfl
    | fin y => cases a <;> rfl
  | fin x =>
    cases g with
    | nan => rfl
    | inf b => cases b <;> rfl
    | fin y =>
      simp only [cmpF]
      rcases lt_trichotomy x y with h | h | h
      · simp [h, not_lt.2 h.le]
      · subst h
        simp
      · simp [h, not_lt.2 h.le]

theorem cmpZ_cast (i j : ℤ) : some (cmpZ i j) = cmpF (.fin i) (.fin j) := by
  simp only [cmpZ, cmpF, Int.cast_lt]

/-! ### The property -/

/-- A Fixnum compared with a Float. -/
def Mixed : Num → Num → Prop
  | .fix _, .flt _ => True
  | .flt _, .fix _ => True
  | _, _ => False

/-- The Fixnums of a comparison are at most 2^53. -/
def Small : Num → Prop
  | .fix i => |i| ≤ 2 ^ 53
  | _ => True

/-- C141, in part: `<=>` of two numbers compares the numbers they stand for, exactly.
Missing: a Fixnum above 2^53 with a Float, see `C141_equal_fails`. -/
theorem C141_exact_partial (a b : Num) (h : Mixed a b → Small a ∧ Small b) :
    cmp a b = cmpF (value a) (value b) := by
  cases a with
  | fix i =>
    cases b with
    | fix j => exact cmpZ_cast i j
    | big j => exact cmpZ_cast i j
    | flt f =>
      simp only [cmp, value]
      rw [asF64_small i (h trivial).1]
  | big i =>
    cases b with
    | fix j => exact cmpZ_cast i j
    | big j => exact cmpZ_cast i j
    | flt f => exact bigCmp_exact i f
  | flt f =>
    cases b with
    | fix j =>
      simp only [cmp, value]
      rw [asF64_small j (h trivial).2]
    | big j =>
      simp only [cmp, value]
      rw [bigCmp_exact, ← cmpF_swap]
    | flt g => rfl

example : Mixed (.fix 3) (.flt (.fin (7 / 2))) → Small (.fix 3) ∧ Small (.flt (.fin (7 / 2))) :=
  fun _ => ⟨by norm_num [Small], trivial⟩

/-- C141: comparing the other way round gives the other answer. -/
theorem C141_reverse (a b : Num) : cmp b a = (cmp a b).map Ordering.swap := by
  have hz : ∀ i j : ℤ, cmpZ j i = (cmpZ i j).swap := by
    intro i j
    simp only [cmpZ]
    rcases lt_trichotomy i j with h | h | h
    · simp [h, not_lt.2 h.le]
    · subst h
      simp
    · simp [h, not_lt.2 h.le]
  cases a with
  | fix i => cases b <;> simp [cmp, hz i, cmpF_swap (.fin (asF64 i))]
  | big i => cases b <;> simp [cmp, hz i]
  | flt f =>
    cases b with
    | fix j => simp only [cmp]; exact cmpF_swap _ _
    | big j =>
      simp only [cmp, Option.map_map]
      have : (Ordering.swap ∘ Ordering.swap) = id := by
        funext o
        cases o <;> rfl
      rw [this, Option.map_id]
      rfl
    | flt g => simp only [cmp]; exact cmpF_swap _ _

/-- C141: each operator agrees with `<=>`; with NaN `<=>` is nil and every operator false. -/
theorem C141_operators (a b : Num) :
    (oper .lt a b = true ↔ cmp a b = some .lt)
    ∧ (oper .gt a b = true ↔ cmp a b = some .gt)
    ∧ (oper .eq a b = true ↔ cmp a b = some .eq)
    ∧ (oper .le a b = true ↔ cmp a b = some .lt ∨ cmp a b = some .eq)
    ∧ (oper .ge a b = true ↔ cmp a b = some .gt ∨ cmp a b = some .eq) := by
  have hF : ∀ (op : Op) (f g : F), opF op f g = opOrd op (cmpF f g) := by
    intro op f g
    cases f with
    | nan => cases g <;> rfl
    | inf a =>
      cases g with
      | nan => rfl
      | inf b => cases a <;> cases b <;> cases op <;> rfl
      | fin y => cases a <;> cases op <;> rfl
    | fin x =>
      cases g with
      | nan => rfl
      | inf b => cases b <;> cases op <;> rfl
      | fin y =>
        simp only [cmpF]
        rcases lt_trichotomy x y with h | h | h
        · cases op <;> simp [opF, opOrd, h, not_lt.2 h.le, h.le, h.ne, not_le.2 h]
        · subst h
          cases op <;> simp [opF, opOrd]
        · cases op <;> simp [opF, opOrd, h, not_lt.2 h.le, h.le, h.ne', not_le.2 h]
  have hZ : ∀ (op : Op) (i j : ℤ), opZ op i j = opOrd op (some (cmpZ i j)) := by
    intro op i j
    simp only [cmpZ]
    rcases lt_trichotomy i j with h | h | h
    · cases op <;> simp [opZ, opOrd, h, h.le, h.ne]
    · subst h
      cases op <;> simp [opZ, opOrd]
    · cases op <;> simp [opZ, opOrd, h, not_lt.2 h.le, h.le, h.ne']
  have key : ∀ op, oper op a b = opOrd op (cmp a b) := by
    intro op
    cases a <;> cases b <;> simp only [oper, cmp, hF, hZ]
  simp only [key]
  generalize cmp a b = o
  cases o with
  | none => simp [opOrd]
  | some o => cases o <;> simp [opOrd]

/-- C141: NaN compares with nothing. -/
theorem C141_nan (a : Num) (op : Op) :
    cmp a (.flt .nan) = none ∧ cmp (.flt .nan) a = none ∧ oper op a (.flt .nan) = false := by
  cases a with
  | fix i => exact ⟨rfl, rfl, rfl⟩
  | big i => exact ⟨rfl, rfl, rfl⟩
  | flt f => cases f <;> exact ⟨rfl, rfl, rfl⟩

/-- C141: a Fixnum and a finite Float are never ordered the wrong way round, and never told apart when
equal, however large. -/
theorem C141_never_reversed (i : ℤ) (x : ℚ) (hx : IsDouble |x|) :
    (cmp (.fix i) (.flt (.fin x)) = some .lt → (i : ℚ) < x)
    ∧ (cmp (.fix i) (.flt (.fin x)) = some .gt → x < (i : ℚ))
    ∧ ((i : ℚ) = x → cmp (.fix i) (.flt (.fin x)) = some .eq) := by
  have hn := asF64_nearest i x hx
  simp only [cmp, cmpF]
  refine ⟨?_, ?_, ?_⟩
  · intro h
    have h1 : asF64 i < x := by
      by_contra hc
      rw [if_neg hc] at h
      split at h <;> simp at h
    by_contra hc
    rw [not_lt] at hc
    rw [abs_of_nonneg (by linarith), abs_of_nonneg (by linarith)] at hn
    linarith
  · intro h
    have h1 : x < asF64 i := by
      by_contra hc
      rw [if_neg hc] at h
      split at h <;> simp at h
    by_contra hc
    rw [not_lt] at hc
    rw [abs_of_nonpos (by linarith), abs_of_nonpos (by linarith)] at hn
    linarith
  · intro h
    rw [h, sub_self, abs_zero] at hn
    have := abs_nonpos_iff.1 hn
    have he : asF64 i = x := by linarith
    simp [he]

example : IsDouble |(2 ^ 53 : ℚ)| := ⟨1, 2 ^ 52, by norm_num, by norm_num, by norm_num⟩

theorem asF64_odd : asF64 (2 ^ 53 + 1) = 2 ^ 53 := by
  have h1 : ((2 : ℤ) ^ 53 + 1).natAbs = 2 ^ 53 + 1 := by decide
  have h2 : (2 ^ 53 + 1 : ℕ).size = 54 := by
    apply size_eq_of <;> norm_num
  have h3 : toF (2 ^ 53 + 1) = (2 ^ 52, 1) := by
    rw [toF, h2, if_neg (by norm_num)]
    norm_num [rne]
  simp only [asF64, h1, h3]
  norm_num

/-- C141 fails: 2^53 and 2^53+1 are both `==` to the Float 2.0^53, so `==` is not transitive, and
`2**53+1 > 2.0**53` is false. -/
theorem C141_equal_fails :
    oper .eq (.fix (2 ^ 53 + 1)) (.flt (.fin (2 ^ 53))) = true
    ∧ oper .eq (.flt (.fin (2 ^ 53))) (.fix (2 ^ 53)) = true
    ∧ oper .eq (.fix (2 ^ 53 + 1)) (.fix (2 ^ 53)) = false
    ∧ oper .gt (.fix (2 ^ 53 + 1)) (.flt (.fin (2 ^ 53))) = false
    ∧ cmpF (value (.fix (2 ^ 53 + 1))) (value (.flt (.fin (2 ^ 53)))) = some .gt := by
  have h2 : asF64 (2 ^ 53) = 2 ^ 53 := by
    have := asF64_small (2 ^ 53) (by norm_num)
    rw [this]
    norm_num
  refine ⟨?_, ?_, ?_, ?_, ?_⟩
  · simp only [oper, opF, asF64_odd, decide_true]
  · simp only [oper, opF, h2, decide_true]
  · simp [oper, opZ]
  · simp only [oper, opF, asF64_odd, lt_irrefl, decide_false]
  · simp only [value, cmpF]
    norm_num

end Verif.NumCmp
