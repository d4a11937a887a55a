import Verif.Pack.Model
import Mathlib.Tactic.Linarith
import Mathlib.Tactic.Ring
import Mathlib.Tactic.IntervalCases
import Mathlib.Data.Nat.Bitwise
import Mathlib.Data.List.Basic

/-!
# Lemmas about the pack model: integers
-/

namespace Verif.Pack

/-! ## Bits -/

theorem or_shift {a b k : Nat} (h : b < 2 ^ k) : a <<< k ||| b = a * 2 ^ k + b := by
  rw [← Nat.shiftLeft_add_eq_or_of_lt h, Nat.shiftLeft_eq]

theorem shift_or {a b k : Nat} (h : b < 2 ^ k) : b ||| a <<< k = b + a * 2 ^ k := by
  rw [Nat.or_comm, or_shift h, Nat.add_comm]

theorem and7f (v : Nat) : v &&& 0x7f = v % 128 := Nat.and_two_pow_sub_one_eq_mod v 7
theorem and3f (v : Nat) : v &&& 0x3f = v % 64 := Nat.and_two_pow_sub_one_eq_mod v 6
theorem and1 (v : Nat) : v &&& 1 = v % 2 := Nat.and_two_pow_sub_one_eq_mod v 1
theorem and0f (v : Nat) : v &&& 0x0f = v % 16 := Nat.and_two_pow_sub_one_eq_mod v 4

theorem lt_all {n : Nat} {p : Nat → Bool} (h : (List.range n).all p = true) {x : Nat} (hx : x < n) :
    p x = true := List.all_eq_true.1 h x (List.mem_range.2 hx)

theorem or80 {x : Nat} (h : x < 128) :
    (x ||| 0x80) = x + 128 ∧ (x ||| 0x80) &&& 0x80 ≠ 0 ∧ (x ||| 0x80) &&& 0x7f = x ∧
      x &&& 0x80 = 0 ∧ x &&& 0x7f = x := by
  have := lt_all (n := 128) (p := fun x => decide ((x ||| 0x80) = x + 128 ∧
    (x ||| 0x80) &&& 0x80 ≠ 0 ∧ (x ||| 0x80) &&& 0x7f = x ∧ x &&& 0x80 = 0 ∧ x &&& 0x7f = x))
    (by decide +kernel) h
  exact of_decide_eq_true this

theorem and40 {x : Nat} (h : x < 128) : x &&& 0x40 ≠ 0 ↔ 64 ≤ x := by
  have := lt_all (n := 128) (p := fun x => decide (x &&& 0x40 ≠ 0 ↔ 64 ≤ x))
    (by decide +kernel) h
  exact of_decide_eq_true this

/-! ## Fixed width -/

theorem length_toLE (w v : Nat) : (toLE w v).length = w := by
  induction w generalizing v with
  | zero => rfl
  | succ w ih => simp [toLE, ih]

theorem ofLE_toLE (w v : Nat) : ofLE (toLE w v) = v % 256 ^ w := by
  induction w generalizing v with
  | zero => simp [toLE, ofLE, Nat.mod_one]
  | succ w ih =>
    simp only [toLE, ofLE, ih]
    rw [pow_succ, Nat.mul_comm (256 ^ w) 256, Nat.mod_mul]

theorem pow256 (w : Nat) : 2 ^ (8 * w) = 256 ^ w := by
  rw [pow_mul]; norm_num

theorem length_toBytes (w : Nat) (big : Bool) (v : Nat) : (toBytes w big v).length = w := by
  unfold toBytes; split <;> simp [length_toLE]

theorem ofBytes_toBytes (w : Nat) (big : Bool) (v : Nat) :
    ofBytes big (toBytes w big v) = v % 2 ^ (8 * w) := by
  unfold ofBytes toBytes
  cases big <;> simp [ofLE_toLE, pow256]

theorem toLE_getElem? (w v j : Nat) (h : j < w) : (toLE w v)[j]? = some (v / 256 ^ j % 256) := by
  induction w generalizing v j with
  | zero => omega
  | succ w ih =>
    cases j with
    | zero => simp [toLE]
    | succ j =>
      simp only [toLE, List.getElem?_cons_succ]
      rw [ih _ _ (by omega), Nat.div_div_eq_div_mul, pow_succ, Nat.mul_comm]

theorem coerceU64_eq (i : Int) : (coerceU64 i : Int) = i % 2 ^ 64 := by
  unfold coerceU64
  split
  · rw [Int.toNat_of_nonneg (Int.emod_nonneg _ (by norm_num))]
  · split
    · push_cast
      omega
    · omega

theorem coerceU64_lt (i : Int) : coerceU64 i < 2 ^ 64 := by
  have h := coerceU64_eq i
  have := Int.emod_lt_of_pos i (show (0 : Int) < 2 ^ 64 by norm_num)
  omega

/-- The residue kept by a `w`-byte directive. -/
theorem coerce_mod {w : Nat} (hw : w ≤ 8) (i : Int) :
    ((coerceU64 i % 2 ^ (8 * w) : Nat) : Int) = i % 2 ^ (8 * w) := by
  push_cast
  rw [coerceU64_eq]
  apply Int.emod_emod_of_dvd
  exact pow_dvd_pow 2 (by omega)

theorem unpackN_append (w : Nat) (f : List Nat → PV) (cs : List (List Nat)) (rest : List Nat)
    (h : ∀ c ∈ cs, c.length = w) :
    unpackN w f cs.length (cs.flatten ++ rest) = (cs.map f, rest) := by
  induction cs with
  | nil => rfl
  | cons c cs ih =>
    have hc := h c (by simp)
    have hn : nextChunk w (c ++ (cs.flatten ++ rest)) = some (c, cs.flatten ++ rest) := by
      unfold nextChunk
      rw [if_pos (by simp [hc])]
      simp [← hc]
    simp only [List.length_cons, List.flatten_cons, List.append_assoc, unpackN, hn, List.map_cons]
    rw [ih fun c hc => h c (by simp [hc])]

theorem unpackAll_append {w : Nat} (hw : 0 < w) (f : List Nat → PV) (cs : List (List Nat))
    (h : ∀ c ∈ cs, c.length = w) (fuel : Nat) (hf : cs.length ≤ fuel) :
    unpackAll w f fuel cs.flatten = (cs.map f, []) := by
  induction cs generalizing fuel with
  | nil =>
    cases fuel with
    | zero => rfl
    | succ fuel =>
      have hn : nextChunk w [] = none := by
        unfold nextChunk; rw [if_neg (by simp; omega)]
      simp [unpackAll, hn]
  | cons c cs ih =>
    cases fuel with
    | zero => simp at hf
    | succ fuel =>
      have hc := h c (by simp)
      have hn : nextChunk w (c ++ cs.flatten) = some (c, cs.flatten) := by
        unfold nextChunk
        rw [if_pos (by simp [hc])]
        simp [← hc]
      simp only [List.flatten_cons, unpackAll, hn, List.map_cons]
      rw [ih (fun c hc => h c (by simp [hc])) fuel (by simpa using hf)]

/-! ## Loops over the arguments -/

theorem eachAll_ok {f : PV → Except Err (List Nat)} {α : Type} (mk : α → PV) (enc : α → List Nat)
    (vs : List α) (h : ∀ v ∈ vs, f (mk v) = .ok (enc v)) :
    eachAll f (vs.map mk) = .ok ((vs.map enc).flatten, []) := by
  induction vs with
  | nil => rfl
  | cons v vs ih =>
    simp only [List.map_cons, eachAll, h v (by simp)]
    rw [ih fun v hv => h v (by simp [hv])]
    rfl

theorem eachN_ok {f : PV → Except Err (List Nat)} {α : Type} (mk : α → PV) (enc : α → List Nat)
    (vs : List α) (args : List PV) (h : ∀ v ∈ vs, f (mk v) = .ok (enc v)) :
    eachN f vs.length (vs.map mk ++ args) = .ok ((vs.map enc).flatten, args) := by
  induction vs with
  | nil => rfl
  | cons v vs ih =>
    simp only [List.map_cons, List.cons_append, List.length_cons, eachN, h v (by simp)]
    rw [ih fun v hv => h v (by simp [hv])]
    rfl

/-! ## BER -/

theorem berDecode_cont (acc b : Nat) (hb : b < 128) (l : List Nat) :
    berDecode acc ((b ||| 0x80) :: l) = berDecode ((acc * 128 + b) % 2 ^ 64) l := by
  obtain ⟨_, h2, h3, _⟩ := or80 hb
  simp only [berDecode, h2, h3, if_false]
  congr 1
  have : acc <<< 7 % 2 ^ 64 = (acc % 2 ^ 57) <<< 7 := by
    simp only [Nat.shiftLeft_eq]; omega
  rw [this, or_shift (by omega)]
  omega

theorem berDecode_last (acc b : Nat) (hb : b < 128) (l : List Nat) :
    berDecode acc (b :: l) = .ok (interpret 8 true ((acc * 128 + b) % 2 ^ 64), l) := by
  obtain ⟨_, _, _, h4, h5⟩ := or80 hb
  simp only [berDecode, h4, h5, if_true]
  have : acc <<< 7 % 2 ^ 64 = (acc % 2 ^ 57) <<< 7 := by
    simp only [Nat.shiftLeft_eq]; omega
  rw [this, or_shift (by omega)]
  congr 3
  omega

theorem berDecode_groups (fuel u : Nat) (h : u < fuel) (l : List Nat) :
    berDecode 0 ((berGroups fuel u).reverse ++ l) = berDecode (u % 2 ^ 64) l := by
  induction fuel generalizing u l with
  | zero => omega
  | succ fuel ih =>
    unfold berGroups
    split
    · rename_i h0; subst h0; simp
    · have hs : u >>> 7 = u / 128 := Nat.shiftRight_eq_div_pow u 7
      rw [hs, and7f, List.reverse_cons, List.append_assoc]
      rw [ih _ (by omega), List.singleton_append, berDecode_cont _ _ (by omega)]
      congr 1
      omega

/-- What `w` gives back: the low 64 bits, as a signed number. -/
theorem ber_roundtrip (i : Int) (hi : 0 ≤ i) (l : List Nat) :
    ∃ bs, berEncode i = .ok bs ∧ bs ≠ [] ∧
      berDecode 0 (bs ++ l) = .ok (interpret 8 true (i.toNat % 2 ^ 64), l) := by
  refine ⟨_, by unfold berEncode; rw [if_neg (by omega)], by simp, ?_⟩
  rw [List.reverse_cons, List.append_assoc, List.singleton_append, and7f,
    show i.toNat >>> 7 = i.toNat / 128 from Nat.shiftRight_eq_div_pow _ 7,
    berDecode_groups _ _ (by omega), berDecode_last _ _ (by omega)]
  congr 3
  omega

/-! ## ULEB128 -/

theorem uleb_loop (fuel v r s : Nat) (hr : r < 2 ^ s) (hs : s < 64) (hv : v * 2 ^ s < 2 ^ 64)
    (hf : v < 2 ^ (7 * fuel)) (hf0 : 0 < fuel) (l : List Nat) :
    ulebLoop r s (ulebEncode fuel v ++ l) = .value (r + v * 2 ^ s) l := by
  induction fuel generalizing v r s with
  | zero => omega
  | succ fuel ih =>
    have hsh : v >>> 7 = v / 128 := Nat.shiftRight_eq_div_pow v 7
    have hpos : 0 < 2 ^ s := Nat.two_pow_pos s
    have hle : v % 128 * 2 ^ s ≤ v * 2 ^ s := Nat.mul_le_mul_right _ (Nat.mod_le _ _)
    have hcomb : r ||| (v % 128) <<< s % 2 ^ 64 = r + v % 128 * 2 ^ s := by
      rw [Nat.mod_eq_of_lt (by rw [Nat.shiftLeft_eq]; omega), shift_or hr]
    unfold ulebEncode
    rw [hsh, and7f]
    obtain ⟨_, h2, h3, h4, h5⟩ := or80 (show v % 128 < 128 by omega)
    split
    · rename_i h0
      have h128 : v / 128 * 2 ^ (s + 7) ≤ v * 2 ^ s := by
        rw [pow_add, show v / 128 * (2 ^ s * 2 ^ 7) = (v / 128 * 128) * 2 ^ s by ring]
        exact Nat.mul_le_mul_right _ (Nat.div_mul_le_self _ _)
      have hs7 : s + 7 < 64 := by
        by_contra hge
        have : 2 ^ 64 ≤ 2 ^ (s + 7) := Nat.pow_le_pow_right (by omega) (by omega)
        have : 1 * 2 ^ (s + 7) ≤ v / 128 * 2 ^ (s + 7) := Nat.mul_le_mul_right _ (by omega)
        omega
      simp only [List.cons_append, ulebLoop, h2, h3, if_pos hs, if_false, hcomb]
      have hfuel : v / 128 < 2 ^ (7 * fuel) := by
        rw [Nat.div_lt_iff_lt_mul (by omega)]
        rwa [show 7 * (fuel + 1) = 7 * fuel + 7 by ring, pow_add] at hf
      rw [ih (v / 128) _ (s + 7) _ hs7 (by omega) hfuel _]
      · congr 1
        have := Nat.div_add_mod v 128
        calc r + v % 128 * 2 ^ s + v / 128 * 2 ^ (s + 7)
            = r + (128 * (v / 128) + v % 128) * 2 ^ s := by rw [pow_add]; ring
          _ = _ := by rw [this]
      · have : v % 128 * 2 ^ s ≤ 127 * 2 ^ s := Nat.mul_le_mul_right _ (by omega)
        rw [pow_add]; omega
      · rcases Nat.eq_zero_or_pos fuel with h | h
        · subst h; simp at hfuel; omega
        · exact h
    · rename_i h0
      simp only [List.cons_append, List.nil_append, ulebLoop, h4, h5, if_pos hs, if_true, hcomb]
      congr 1
      rw [Nat.mod_eq_of_lt (by omega)]

theorem uleb_roundtrip (v : Nat) (hv : v < 2 ^ 64) (l : List Nat) :
    ulebDecode (ulebEncode 10 v ++ l) = .value v l := by
  have hne : (ulebEncode 10 v ++ l).isEmpty = false := by
    unfold ulebEncode; split <;> rfl
  unfold ulebDecode
  rw [hne, if_neg (by simp), uleb_loop 10 v 0 0 (by simp) (by omega) (by simpa using hv) (by omega)
    (by omega)]
  simp

/-! ## SLEB128 -/

theorem interpret_signed (r : Nat) (v : Int) (h : (r : Int) = v % 2 ^ 64) (hlo : -(2 ^ 63) ≤ v)
    (hhi : v < 2 ^ 63) : interpret 8 true r = v := by
  unfold interpret
  simp only [Bool.true_and, decide_eq_true_eq]
  norm_num
  split <;> omega

theorem sleb_loop (n k : Nat) (hk : k + n = 9) (v : Int) (r : Nat) (hr : r < 2 ^ (7 * k))
    (hlo : -(2 ^ (63 - 7 * k)) ≤ v) (hhi : v < 2 ^ (63 - 7 * k)) (l : List Nat) :
    slebLoop r (7 * k) (slebEncode (n + 1) v ++ l) = .value (r + v * 2 ^ (7 * k)) l := by
  induction n generalizing k v r with
  | zero =>
    obtain rfl : k = 9 := by omega
    norm_num at hlo hhi hr
    have hv : v = -1 ∨ v = 0 := by omega
    rcases hv with rfl | rfl
    · have he : slebEncode 1 (-1) = [127] := by decide
      rw [he]
      simp only [List.cons_append, List.nil_append, slebLoop]
      rw [if_pos (show 127 &&& 0x80 = 0 by decide), if_neg (show ¬ (7 * 9 + 7 < 64 ∧ _) by omega),
        if_pos (show 7 * 9 < 64 by omega),
        show (127 &&& 0x7f) <<< (7 * 9) % 2 ^ 64 = 9223372036854775808 by decide]
      norm_num
      have : r ||| 9223372036854775808 = r + 9223372036854775808 :=
        shift_or (a := 1) (k := 63) (by omega)
      rw [this]
      apply interpret_signed
      · push_cast; omega
      · omega
      · omega
    · have he : slebEncode 1 0 = [0] := by decide
      rw [he]
      simp only [List.cons_append, List.nil_append, slebLoop]
      norm_num
      apply interpret_signed <;> omega
  | succ n ih =>
    have hk9 : k < 9 := by omega
    have hb : ((v % 128).toNat : Int) = v % 128 := Int.toNat_of_nonneg (by omega)
    generalize hbd : (v % 128).toNat = b at hb
    have hb128 : b < 128 := by omega
    have hfd : v.fdiv 128 = v / 128 := Int.fdiv_eq_ediv_of_nonneg v (by omega)
    obtain ⟨_, h2, h3, h4, h5⟩ := or80 hb128
    have h64 := and40 hb128
    have hP : 0 < 2 ^ (7 * k) := Nat.two_pow_pos _
    have hcomb : r ||| b <<< (7 * k) % 2 ^ 64 = r + b * 2 ^ (7 * k) := by
      have : b * 2 ^ (7 * k) < 2 ^ 64 := by
        calc b * 2 ^ (7 * k) < 128 * 2 ^ (7 * k) := by
              exact Nat.mul_lt_mul_of_pos_right hb128 hP
          _ = 2 ^ (7 * k + 7) := by rw [pow_add]; ring
          _ ≤ 2 ^ 64 := Nat.pow_le_pow_right (by omega) (by omega)
      rw [Nat.mod_eq_of_lt (by rwa [Nat.shiftLeft_eq]), shift_or hr]
    have hr' : r + b * 2 ^ (7 * k) < 2 ^ (7 * (k + 1)) := by
      have : b * 2 ^ (7 * k) ≤ 127 * 2 ^ (7 * k) := Nat.mul_le_mul_right _ (by omega)
      rw [show 7 * (k + 1) = 7 * k + 7 by ring, pow_add]; omega
    unfold slebEncode
    rw [hbd, hfd]
    dsimp only
    split
    · rename_i hterm
      simp only [List.cons_append, List.nil_append, slebLoop, h4, h5, hcomb, if_true,
        if_pos (show 7 * k < 64 by omega)]
      congr 1
      rcases hterm with ⟨hv0, hsb⟩ | ⟨hv1, hsb⟩
      · rw [if_neg (fun h => hsb h.2)]
        have hbv : v = b := by omega
        apply interpret_signed <;> (subst hbv; interval_cases k <;> norm_num at * <;> omega)
      · have hbv : v = b - 128 := by omega
        have hb64 := h64.1 hsb
        rw [if_pos ⟨show 7 * k + 7 < 64 by omega, hsb⟩]
        have hor : r + b * 2 ^ (7 * k) ||| (2 ^ 64 - 2 ^ (7 * k + 7))
            = r + b * 2 ^ (7 * k) + (2 ^ 64 - 2 ^ (7 * k + 7)) := by
          have he : 2 ^ 64 - 2 ^ (7 * k + 7) = (2 ^ (57 - 7 * k) - 1) <<< (7 * k + 7) := by
            rw [Nat.shiftLeft_eq, Nat.sub_mul, ← pow_add, show 57 - 7 * k + (7 * k + 7) = 64 by omega,
              Nat.one_mul]
          rw [he, shift_or (by rwa [show 7 * (k + 1) = 7 * k + 7 by ring] at hr'), Nat.shiftLeft_eq]
        rw [hor]
        apply interpret_signed <;> (subst hbv; interval_cases k <;> norm_num at * <;> omega)
    · rename_i hterm
      simp only [List.cons_append, slebLoop, h2, h3, hcomb, if_false,
        if_pos (show 7 * k < 64 by omega)]
      rw [show 7 * k + 7 = 7 * (k + 1) by ring, ih (k + 1) (by omega) (v / 128) _ hr']
      · congr 1
        push_cast
        have := Int.mul_ediv_add_emod v 128
        calc (r : Int) + b * 2 ^ (7 * k) + v / 128 * 2 ^ (7 * (k + 1))
            = r + (128 * (v / 128) + b) * 2 ^ (7 * k) := by
              rw [show 7 * (k + 1) = 7 * k + 7 by ring, pow_add]; ring
          _ = _ := by rw [hb, this]
      · have : (2 : Int) ^ (63 - 7 * k) = 2 ^ (63 - 7 * (k + 1)) * 128 := by
          rw [show 63 - 7 * k = 63 - 7 * (k + 1) + 7 by omega, pow_add]; norm_num
        omega
      · have : (2 : Int) ^ (63 - 7 * k) = 2 ^ (63 - 7 * (k + 1)) * 128 := by
          rw [show 63 - 7 * k = 63 - 7 * (k + 1) + 7 by omega, pow_add]; norm_num
        omega

theorem sleb_roundtrip (v : Int) (hlo : -(2 ^ 63) ≤ v) (hhi : v < 2 ^ 63) (l : List Nat) :
    slebDecode (slebEncode 10 v ++ l) = .value v l := by
  have hne : (slebEncode 10 v ++ l).isEmpty = false := by
    unfold slebEncode; dsimp only; split <;> rfl
  unfold slebDecode
  rw [hne, if_neg (by simp)]
  have := sleb_loop 9 0 rfl v 0 (by simp) (by simpa using hlo) (by simpa using hhi) l
  simpa using this

end Verif.Pack
