import Verif.IntMeth.ArithProps

/-!
C113: `bit_length`, `Integer.sqrt`, `digits`, `to_s(base)`.
-/

namespace Verif.IntMeth

theorem bitLength_eq (n : Int) : bitLength n = (if n < 0 then -n - 1 else n).toNat.size := by
  unfold bitLength lz64
  split
  · rename_i h
    simp [isFix] at h
    have : (if n < 0 then -n - 1 else n).toNat.size ≤ 64 := by
      rw [Nat.size_le]; split <;> omega
    omega
  · congr 1
    split <;> omega

/-- `n.bit_length` is the least `k` with `-2^k ≤ n < 2^k`. -/
theorem C113_bit_length (n : Int) (k : Nat) :
    bitLength n ≤ k ↔ (-(2 ^ k) ≤ n ∧ n < 2 ^ k) := by
  rw [bitLength_eq, Nat.size_le]
  have h : ((2 ^ k : Nat) : Int) = 2 ^ k := by push_cast; rfl
  have hp : (0 : Int) < 2 ^ k := by positivity
  rw [← h] at *
  generalize 2 ^ k = X at *
  split <;> omega

example : bitLength 255 = 8 ∧ bitLength (-256) = 8 ∧ bitLength (2 ^ 80) = 81 := by decide +kernel

/-! ### Integer.sqrt -/

theorem sqrtLoop_spec (n : Nat) (hn : 0 < n) : ∀ x, 0 < x → n < (x + 1) ^ 2 →
    sqrtLoop n x ^ 2 ≤ n ∧ n < (sqrtLoop n x + 1) ^ 2 := by
  intro x
  induction x using Nat.strongRecOn with
  | ind x ih =>
    intro hx hlt
    rw [sqrtLoop]
    have hq := Nat.div_add_mod n x
    have hr := Nat.mod_lt n hx
    by_cases h : (x + n / x) / 2 ≥ x
    · rw [dif_pos h]
      refine ⟨?_, hlt⟩
      have : x ≤ n / x := by omega
      calc x ^ 2 = x * x := by ring
        _ ≤ x * (n / x) := Nat.mul_le_mul_left _ this
        _ ≤ n := Nat.mul_div_le n x
    · rw [dif_neg h]
      apply ih _ (by omega)
      · have : 2 ≤ x + n / x := by
          by_cases h1 : x = 1
          · subst h1; simp; omega
          · generalize n / x = q; omega
        generalize n / x = q at *
        omega
      · generalize hy : (x + n / x) / 2 = y
        generalize n / x = q at *
        have h2 : x + q + 1 ≤ 2 * (y + 1) := by omega
        have h3 : n < x * (q + 1) := by rw [mul_add, mul_one]; omega
        have h4 : (x + q + 1) ^ 2 ≤ (2 * (y + 1)) ^ 2 := Nat.pow_le_pow_left h2 2
        have h5 : 4 * (x * (q + 1)) ≤ (x + q + 1) ^ 2 := by
          have := sq_nonneg ((x : Int) - (q + 1))
          have h6 : (4 * ((x : Int) * (q + 1))) ≤ (x + q + 1) ^ 2 := by nlinarith
          exact_mod_cast h6
        have h7 : (2 * (y + 1)) ^ 2 = 4 * (y + 1) ^ 2 := by ring
        omega

/-- `Integer.sqrt(n)` is the floor of the square root, for every `n ≥ 0`, however large;
a negative number is refused. -/
theorem C113_sqrt (n : Int) :
    (n < 0 → sqrt n = .error .domain) ∧
    (0 ≤ n → ∃ r : Nat, sqrt n = .ok r ∧ (r : Int) ^ 2 ≤ n ∧ n < ((r : Int) + 1) ^ 2) := by
  unfold sqrt
  constructor
  · intro h; rw [if_pos h]
  · intro h
    rw [if_neg (by omega)]
    by_cases h0 : n = 0
    · subst h0; exact ⟨0, rfl, by norm_num, by norm_num⟩
    · rw [if_neg h0]
      obtain ⟨m, rfl⟩ := Int.eq_ofNat_of_zero_le h
      simp only [Int.toNat_natCast]
      have hb := ((C113_bit_length m _).1 le_rfl).2
      generalize bitLength m = b at *
      have h1 : m < 2 ^ b := by exact_mod_cast hb
      have h2 : 2 ^ b ≤ (2 ^ ((b + 1) / 2)) ^ 2 := by
        rw [← pow_mul]; exact Nat.pow_le_pow_right (by omega) (by omega)
      have h3 : (2 ^ ((b + 1) / 2)) ^ 2 ≤ (2 ^ ((b + 1) / 2) + 1) ^ 2 :=
        Nat.pow_le_pow_left (by omega) 2
      have := sqrtLoop_spec m (by omega) (2 ^ ((b + 1) / 2)) (by positivity) (by omega)
      exact ⟨_, rfl, by exact_mod_cast this.1, by exact_mod_cast this.2⟩

example : sqrt 24 = .ok 4 ∧ sqrt 25 = .ok 5 ∧ sqrt (2 ^ 130) = .ok (2 ^ 65) := by decide +kernel

/-! ### digits -/

theorem digitLoop_acc (base : Nat) : ∀ n acc, digitLoop base n acc = acc ++ digitLoop base n [] := by
  intro n
  induction n using Nat.strongRecOn with
  | ind n ih =>
    intro acc
    rw [digitLoop]
    conv_rhs => rw [digitLoop]
    by_cases h : n = 0 ∨ base < 2
    · simp [h]
    · rw [dif_neg h, dif_neg h, ih _ (Nat.div_lt_self (by omega) (by omega)),
        ih _ (Nat.div_lt_self (by omega) (by omega)) ([] ++ _)]
      simp

theorem digitLoop_step {base n : Nat} (hb : 2 ≤ base) (hn : n ≠ 0) :
    digitLoop base n [] = n % base :: digitLoop base (n / base) [] := by
  rw [digitLoop, dif_neg (by omega), digitLoop_acc]; rfl

theorem digitLoop_zero (base : Nat) : digitLoop base 0 [] = [] := by
  rw [digitLoop, dif_pos (by simp)]

/-- The number written by digits, low digit first. -/
def valueLE (base : Nat) : List Nat → Nat
  | [] => 0
  | d :: ds => d + base * valueLE base ds

theorem digitLoop_spec {base : Nat} (hb : 2 ≤ base) : ∀ n,
    valueLE base (digitLoop base n []) = n ∧ (∀ d ∈ digitLoop base n [], d < base) ∧
    (n ≠ 0 → (digitLoop base n []).getLast? ≠ some 0 ∧ digitLoop base n [] ≠ []) := by
  intro n
  induction n using Nat.strongRecOn with
  | ind n ih =>
    by_cases h : n = 0
    · subst h; rw [digitLoop_zero]; simp [valueLE]
    · rw [digitLoop_step hb h]
      have ih := ih (n / base) (Nat.div_lt_self (by omega) (by omega))
      refine ⟨?_, ?_, fun _ => ⟨?_, by simp⟩⟩
      · rw [valueLE, ih.1]; exact Nat.mod_add_div n base
      · intro d hd
        rcases List.mem_cons.1 hd with rfl | hd
        · exact Nat.mod_lt _ (by omega)
        · exact ih.2.1 d hd
      · by_cases h2 : n / base = 0
        · rw [h2, digitLoop_zero]
          have : n % base = n := Nat.mod_eq_of_lt (by
            rcases Nat.div_eq_zero_iff.1 h2 with h | h <;> omega)
          simp [this, h]
        · have := ih.2.2 h2
          cases hd : digitLoop base (n / base) [] with
          | nil => exact absurd hd this.2
          | cons a l =>
            rw [hd] at this
            rw [List.getLast?_cons_cons]
            exact this.1

/-- `n.digits(base)` lists the digits of `n`, low digit first: each below the base, no zero
at the top, and the number they write is `n`. -/
theorem C113_digits (n base : Int) (hn : 0 ≤ n) (hb : 2 ≤ base) :
    ∃ ds, digits n base = .ok ds ∧ (valueLE base.toNat ds : Int) = n ∧
      (∀ d ∈ ds, (d : Int) < base) ∧ (n ≠ 0 → ds.getLast? ≠ some 0) ∧ ds ≠ [] := by
  unfold digits
  rw [if_neg (by omega), if_neg (by omega)]
  by_cases h0 : n = 0
  · subst h0
    refine ⟨[0], by simp, by simp [valueLE], by simp; omega, by simp, by simp⟩
  · rw [if_neg h0]
    obtain ⟨h1, h2, h3⟩ := digitLoop_spec (base := base.toNat) (by omega) n.toNat
    refine ⟨_, rfl, by rw [h1]; omega, ?_, fun _ => (h3 (by omega)).1, (h3 (by omega)).2⟩
    intro d hd
    have := h2 d hd
    omega

/-- A negative number has no digits, a base below 2 is refused. -/
theorem C113_digits_errors (n base : Int) :
    (n < 0 → digits n base = .error .domain) ∧
    (0 ≤ n → base < 2 → digits n base = .error .argument) := by
  unfold digits
  constructor
  · intro h; rw [if_pos h]
  · intro h1 h2; rw [if_neg (by omega), if_pos h2]

example : digits 1230 10 = .ok [0, 3, 2, 1] := by decide +kernel

/-! ### to_s -/

/-- What a reader makes of a character as a digit. -/
def digitVal (c : Char) : Nat :=
  if '0' ≤ c ∧ c ≤ '9' then c.toNat - '0'.toNat
  else if 'a' ≤ c ∧ c ≤ 'z' then c.toNat - 'a'.toNat + 10
  else 99

/-- The number written by characters, high digit first. -/
def readNat (base : Nat) (cs : List Char) : Nat :=
  cs.foldl (fun v c => v * base + digitVal c) 0

/-- The number written with an optional sign. -/
def readInt (base : Nat) : List Char → Int
  | '-' :: cs => -(readNat base cs : Int)
  | cs => readNat base cs

theorem digitVal_DIGITS : ∀ d, d < 36 → digitVal (DIGITS.getD d '?') = d := by decide +kernel

theorem readNat_append (base : Nat) (xs : List Char) (c : Char) :
    readNat base (xs ++ [c]) = readNat base xs * base + digitVal c := by
  simp [readNat]

theorem readNat_map {base : Nat} (hb : base ≤ 36) : ∀ ds : List Nat, (∀ d ∈ ds, d < base) →
    readNat base ((ds.map (fun d => DIGITS.getD d '?')).reverse) = valueLE base ds := by
  intro ds
  induction ds with
  | nil => intro _; rfl
  | cons d ds ih =>
    intro h
    rw [List.map_cons, List.reverse_cons, readNat_append, ih (fun x hx => h x (by simp [hx])),
      digitVal_DIGITS d (by have := h d (by simp); omega), valueLE]
    ring

/-- No sign, digits of the base only, and no leading zero except for the number 0 itself. -/
def WellWritten (base : Nat) (cs : List Char) : Prop :=
  cs ≠ [] ∧ (∀ c ∈ cs, digitVal c < base) ∧ (cs.head? = some '0' → cs = ['0'])

theorem formatBase_spec {n base : Nat} (hb : 2 ≤ base ∧ base ≤ 36) :
    readNat base (formatBase n base) = n ∧ WellWritten base (formatBase n base) := by
  unfold formatBase
  by_cases h : n = 0
  · subst h
    simp only [if_true]
    refine ⟨by simp [readNat, digitVal], by simp, ?_, by simp⟩
    simp [digitVal]; omega
  · rw [if_neg h]
    obtain ⟨h1, h2, h3⟩ := digitLoop_spec hb.1 n
    refine ⟨by rw [readNat_map hb.2 _ h2, h1], by simp [(h3 h).2], ?_, ?_⟩
    · intro c hc
      rw [List.mem_reverse, List.mem_map] at hc
      obtain ⟨d, hd, rfl⟩ := hc
      have := h2 d hd
      rw [digitVal_DIGITS d (by omega)]
      exact this
    · intro hc
      exfalso
      rw [List.head?_reverse, List.getLast?_map] at hc
      cases hl : (digitLoop base n []).getLast? with
      | none => rw [hl] at hc; simp at hc
      | some d =>
        rw [hl] at hc
        simp only [Option.map_some, Option.some.injEq] at hc
        have hd : d < 36 := by have := h2 d (List.mem_of_getLast? hl); omega
        have e := digitVal_DIGITS d hd
        rw [hc] at e
        have : d = 0 := by rw [← e]; rfl
        exact (h3 h).1 (by rw [hl, this])

theorem wellWritten_head {base : Nat} {cs : List Char} (h : WellWritten base cs) (hb : base ≤ 36) :
    readInt base cs = readNat base cs := by
  cases cs with
  | nil => exact absurd rfl h.1
  | cons c cs =>
    unfold readInt
    split
    · rename_i heq
      have : c = '-' := by simp at heq; exact heq.1
      have := h.2.1 c (by simp)
      subst_vars
      have e : digitVal '-' = 99 := by decide
      omega
    · rfl

/-- `n.to_s(base)` reads back as `n`: an optional minus for a negative number and then
digits of the base without leading zeros. -/
theorem C113_to_s (n base : Int) (hb : 2 ≤ base ∧ base ≤ 36) :
    ∃ cs, toS n base = .ok cs ∧ readInt base.toNat cs = n ∧
      (0 ≤ n → WellWritten base.toNat cs) ∧
      (n < 0 → ∃ ds, cs = '-' :: ds ∧ WellWritten base.toNat ds) := by
  unfold toS
  rw [i64Arg_ok (by omega)]
  simp only [bind, Except.bind]
  rw [if_neg (by omega)]
  have hb' : 2 ≤ base.toNat ∧ base.toNat ≤ 36 := by omega
  split
  · obtain ⟨h1, h2⟩ := formatBase_spec (n := (-n).toNat) hb'
    refine ⟨_, rfl, ?_, fun h => by omega, fun _ => ⟨_, rfl, h2⟩⟩
    simp only [readInt]
    rw [h1]; omega
  · obtain ⟨h1, h2⟩ := formatBase_spec (n := n.toNat) hb'
    refine ⟨_, rfl, ?_, fun _ => h2, fun h => by omega⟩
    rw [wellWritten_head h2 hb'.2, h1]; omega

/-- Different integers have different texts in the same base. -/
theorem C113_to_s_injective (n m base : Int) (hb : 2 ≤ base ∧ base ≤ 36)
    (h : toS n base = toS m base) : n = m := by
  obtain ⟨c1, e1, r1, _⟩ := C113_to_s n base hb
  obtain ⟨c2, e2, r2, _⟩ := C113_to_s m base hb
  rw [e1, e2] at h
  cases h
  rw [← r1, r2]

/-- Any other base is refused. -/
theorem C113_to_s_radix (n base : Int) (hb : ¬ (2 ≤ base ∧ base ≤ 36))
    (hf : -(2 ^ 63) ≤ base ∧ base < 2 ^ 63) : toS n base = .error .argument := by
  unfold toS
  rw [i64Arg_ok hf]
  simp only [bind, Except.bind]
  rw [if_pos hb]

example : toS (-255) 16 = .ok "-ff".toList ∧ toS 0 2 = .ok ['0'] := by decide +kernel

end Verif.IntMeth
