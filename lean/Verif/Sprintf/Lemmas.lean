import Verif.Sprintf.Model

/-! # Lemmas for C156 -/

namespace Verif.Sprintf

/-- The number a list of digits stands for. -/
def val (b : Nat) : List Nat → Nat
  | [] => 0
  | d :: t => d * b ^ t.length + val b t

theorem val_append (b : Nat) (xs ys : List Nat) :
    val b (xs ++ ys) = val b xs * b ^ ys.length + val b ys := by
  induction xs with
  | nil => simp [val]
  | cons d t ih =>
    simp only [List.cons_append, val, ih, List.length_append, Nat.pow_add, Nat.add_mul, Nat.mul_assoc,
      Nat.add_assoc]

theorem val_lt {b : Nat} : ∀ {ds : List Nat}, (∀ d ∈ ds, d < b) → val b ds < b ^ ds.length := by
  intro ds
  induction ds with
  | nil => intro _; simp [val]
  | cons d t ih =>
    intro h
    have h1 := ih (fun x hx => h x (List.mem_cons_of_mem _ hx))
    have h2 : d + 1 ≤ b := h d (by simp)
    have h3 := Nat.mul_le_mul_right (b ^ t.length) h2
    simp only [val, List.length_cons, Nat.pow_succ, Nat.mul_comm (b ^ t.length)]
    rw [Nat.add_mul, Nat.one_mul] at h3
    omega

theorem val_inj {b : Nat} : ∀ {xs ys : List Nat}, (∀ d ∈ xs, d < b) → (∀ d ∈ ys, d < b) →
    xs.length = ys.length → val b xs = val b ys → xs = ys := by
  intro xs
  induction xs with
  | nil => intro ys _ _ hl _; simp at hl; exact (List.length_eq_zero_iff.1 hl.symm).symm
  | cons d t ih =>
    intro ys hx hy hl hv
    cases ys with
    | nil => simp at hl
    | cons e u =>
      simp only [List.length_cons, Nat.add_right_cancel_iff] at hl
      have ht := val_lt (fun x hxm => hx x (List.mem_cons_of_mem _ hxm))
      have hu := val_lt (fun x hxm => hy x (List.mem_cons_of_mem _ hxm))
      simp only [val, hl] at hv
      rw [hl] at ht
      have hp : 0 < b ^ u.length := Nat.lt_of_le_of_lt (Nat.zero_le _) hu
      have hde : d = e := by
        have h1 : (d * b ^ u.length + val b t) / b ^ u.length = d := by
          rw [Nat.mul_comm, Nat.mul_add_div hp, Nat.div_eq_of_lt ht, Nat.add_zero]
        have h2 : (e * b ^ u.length + val b u) / b ^ u.length = e := by
          rw [Nat.mul_comm, Nat.mul_add_div hp, Nat.div_eq_of_lt hu, Nat.add_zero]
        rw [← h1, hv, h2]
      subst hde
      rw [ih (fun x hxm => hx x (List.mem_cons_of_mem _ hxm))
        (fun x hxm => hy x (List.mem_cons_of_mem _ hxm)) hl (by omega)]

theorem digs_spec {b : Nat} (hb : 2 ≤ b) : ∀ n, val b (digs b n) = n ∧ (∀ d ∈ digs b n, d < b) ∧
    digs b n ≠ [] ∧ (n ≠ 0 → (digs b n).head? ≠ some 0) := by
  intro n
  induction n using Nat.strongRecOn with
  | ind n ih =>
    rw [digs]
    by_cases h : n < b
    · rw [dif_pos (.inr h)]
      simp [val, h]
    · rw [dif_neg (by omega)]
      obtain ⟨h1, h2, h3, h4⟩ := ih (n / b) (Nat.div_lt_self (by omega) (by omega))
      refine ⟨?_, ?_, by simp, ?_⟩
      · rw [val_append, h1]
        simp only [val, List.length_cons, List.length_nil, Nat.pow_zero, Nat.mul_one, Nat.pow_one,
          Nat.add_zero, Nat.zero_add]
        rw [Nat.mul_comm]
        exact Nat.div_add_mod n b
      · intro d hd
        rcases List.mem_append.1 hd with hd | hd
        · exact h2 d hd
        · simp at hd; subst hd; exact Nat.mod_lt _ (by omega)
      · intro _
        have : n / b ≠ 0 := by
          have := Nat.div_pos (Nat.le_of_not_lt h) (by omega : 0 < b)
          omega
        have h5 := h4 this
        cases hq : digs b (n / b) with
        | nil => exact absurd hq h3
        | cons x y => rw [hq] at h5; simpa using h5

/-! ### Two's complement -/

theorem comp_val {b : Nat} : ∀ {ds : List Nat}, (∀ d ∈ ds, d < b) →
    val b (ds.map (b - 1 - ·)) + val b ds + 1 = b ^ ds.length := by
  intro ds
  induction ds with
  | nil => intro _; simp [val]
  | cons d t ih =>
    intro h
    have h1 := ih (fun x hx => h x (List.mem_cons_of_mem _ hx))
    have h2 : d < b := h d (by simp)
    simp only [List.map_cons, val, List.length_map, List.length_cons, Nat.pow_succ]
    have h3 : (b - 1 - d) * b ^ t.length + d * b ^ t.length = (b - 1) * b ^ t.length := by
      rw [← Nat.add_mul]; congr 1; omega
    have h4 : (b - 1) * b ^ t.length + b ^ t.length = b ^ t.length * b := by
      rw [← Nat.succ_mul, Nat.mul_comm]; congr 1; omega
    omega

theorem addOne_val {b : Nat} (hb : 2 ≤ b) : ∀ ds : List Nat,
    val b (addOne b ds).1 + (addOne b ds).2 * b ^ ds.length = val b ds + 1 ∧
    (addOne b ds).1.length = ds.length ∧ ∀ d ∈ (addOne b ds).1, d < b := by
  intro ds
  induction ds with
  | nil => simp [addOne, val]
  | cons d t ih =>
    obtain ⟨h1, h2, h3⟩ := ih
    simp only [addOne, val, List.length_cons, h2]
    refine ⟨?_, trivial, ?_⟩
    · have := Nat.div_add_mod (d + (addOne b t).2) b
      generalize (d + (addOne b t).2) / b = q at this ⊢
      generalize (d + (addOne b t).2) % b = r at this ⊢
      have h4 : r * b ^ t.length + q * b ^ (t.length + 1) = (d + (addOne b t).2) * b ^ t.length := by
        rw [← this, Nat.pow_succ, Nat.add_mul, Nat.mul_comm (b ^ t.length) b, ← Nat.mul_assoc,
          Nat.mul_comm q b]
        omega
      rw [Nat.add_mul] at h4
      omega
    · intro x hx
      rcases List.mem_cons.1 hx with rfl | hx
      · exact Nat.mod_lt _ (by omega)
      · exact h3 x hx

/-- What is missing to the next power of the base. -/
theorem deficit_cons {b : Nat} (hb : 2 ≤ b) (t : List Nat) (n : Nat) :
    val b ((b - 1) :: t) + n = b ^ (t.length + 1) ↔ val b t + n = b ^ t.length := by
  simp only [val, Nat.pow_succ]
  have h4 : (b - 1) * b ^ t.length + b ^ t.length = b ^ t.length * b := by
    rw [← Nat.succ_mul, Nat.mul_comm]; congr 1; omega
  omega

theorem deficit_dropWhile {b : Nat} (hb : 2 ≤ b) (n : Nat) : ∀ ds : List Nat,
    val b ds + n = b ^ ds.length →
    val b (ds.dropWhile (· == b - 1)) + n = b ^ (ds.dropWhile (· == b - 1)).length := by
  intro ds
  induction ds with
  | nil => intro h; exact h
  | cons d t ih =>
    intro h
    rw [List.dropWhile_cons]
    by_cases hd : d = b - 1
    · subst hd
      simp only [beq_self_eq_true, if_true]
      exact ih ((deficit_cons hb t n).1 h)
    · have : (d == b - 1) = false := by simpa using hd
      simp only [this, Bool.false_eq_true, if_false]
      exact h

theorem mem_dropWhile' {p : Nat → Bool} : ∀ {ds : List Nat} {d : Nat}, d ∈ ds.dropWhile p → d ∈ ds := by
  intro ds
  induction ds with
  | nil => intro d h; exact h
  | cons e t ih =>
    intro d h
    rw [List.dropWhile_cons] at h
    split at h
    · exact List.mem_cons_of_mem _ (ih h)
    · exact h

theorem head_dropWhile {x : Nat} : ∀ ds : List Nat, (ds.dropWhile (· == x)).head? ≠ some x := by
  intro ds
  induction ds with
  | nil => simp
  | cons e t ih =>
    rw [List.dropWhile_cons]
    split
    · exact ih
    · rename_i h
      simpa using h

theorem negDigits_spec {b n : Nat} (hb : 2 ≤ b) (hn : 0 < n) :
    val b (negDigits b n) + n = b ^ (negDigits b n).length ∧ (∀ d ∈ negDigits b n, d < b) ∧
    (negDigits b n).head? = some (b - 1) ∧ (negDigits b n).tail.head? ≠ some (b - 1) := by
  obtain ⟨h1, h2, h3, _⟩ := digs_spec hb n
  have h4 := comp_val h2
  rw [h1] at h4
  obtain ⟨a1, a2, a3⟩ := addOne_val hb ((digs b n).map (b - 1 - ·))
  rw [List.length_map] at a1 a2
  have hc : (addOne b ((digs b n).map (b - 1 - ·))).2 = 0 := by
    rcases Nat.eq_zero_or_pos (addOne b ((digs b n).map (b - 1 - ·))).2 with h | h
    · exact h
    · have := Nat.mul_le_mul_right (b ^ (digs b n).length) h
      omega
  rw [hc] at a1
  have hd : val b (addOne b ((digs b n).map (b - 1 - ·))).1 + n =
      b ^ (addOne b ((digs b n).map (b - 1 - ·))).1.length := by rw [a2]; omega
  have he := deficit_dropWhile hb n _ hd
  refine ⟨?_, ?_, rfl, ?_⟩
  · simp only [negDigits, List.length_cons]
    exact (deficit_cons hb _ n).2 he
  · intro d hd
    simp only [negDigits] at hd
    rcases List.mem_cons.1 hd with rfl | hd
    · omega
    · exact a3 d (mem_dropWhile' hd)
  · simp only [negDigits, List.tail_cons]
    exact head_dropWhile _

theorem deficit_replicate {b : Nat} (hb : 2 ≤ b) (n : Nat) (es : List Nat) (h : val b es + n = b ^ es.length) :
    ∀ k, val b (List.replicate k (b - 1) ++ es) + n = b ^ (k + es.length) := by
  intro k
  induction k with
  | zero => simpa using h
  | succ k ih =>
    rw [List.replicate_succ, List.cons_append]
    have := (deficit_cons hb (List.replicate k (b - 1) ++ es) n).2 (by simpa using ih)
    rw [this]
    simp only [List.length_append, List.length_replicate]
    congr 1
    omega

/-! ### Layout -/

def Ascii (s : List Char) : Prop := ∀ c ∈ s, c.utf8Size = 1

theorem blen_ascii : ∀ {s : List Char}, Ascii s → blen s = s.length := by
  intro s
  induction s with
  | nil => intro _; rfl
  | cons c t ih =>
    intro h
    have := ih (fun x hx => h x (List.mem_cons_of_mem _ hx))
    simp only [blen] at this
    simp only [blen, List.map_cons, List.sum_cons, this, h c (by simp), List.length_cons]
    omega

theorem Ascii.append {s t : List Char} (hs : Ascii s) (ht : Ascii t) : Ascii (s ++ t) := by
  intro c hc
  rcases List.mem_append.1 hc with h | h
  · exact hs c h
  · exact ht c h

theorem ascii_replicate {c : Char} (h : c.utf8Size = 1) (k : Nat) : Ascii (List.replicate k c) := by
  intro d hd
  rw [(List.mem_replicate.1 hd).2]; exact h

theorem dchar_ascii (up : Bool) : ∀ d, d < 16 → (dchar up d).utf8Size = 1 := by
  cases up <;> decide

theorem dchar_zero (up : Bool) : ∀ d, d < 16 → dchar up d = '0' → d = 0 := by
  cases up <;> decide

theorem ascii_digits {ds : List Nat} {b : Nat} (hb : b ≤ 16) (h : ∀ d ∈ ds, d < b) (up : Bool) :
    Ascii (ds.map (dchar up)) := by
  intro c hc
  obtain ⟨d, hd, rfl⟩ := List.mem_map.1 hc
  exact dchar_ascii up d (Nat.lt_of_lt_of_le (h d hd) hb)

theorem ascii_sign (neg : Bool) (f : Flags) : Ascii (signOf neg f) := by
  unfold signOf
  intro c hc
  split at hc
  · simp at hc; subst hc; decide
  · split at hc
    · simp at hc; subst hc; decide
    · split at hc
      · simp at hc; subst hc; decide
      · simp at hc

end Verif.Sprintf
