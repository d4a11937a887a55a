import Verif.Marshal.Model

/-! # Reading back what the small writers write (helper lemmas) -/

namespace Verif.Marshal

theorem bind_ok {α β : Type} {m : M α} {f : α → M β} {r r1 : RS} {a : α} (h : m r = .ok (a, r1)) :
    (m >>= f) r = f a r1 := by
  show M.bind m f r = _
  unfold M.bind
  rw [h]

theorem pure_eq {α : Type} (a : α) (r : RS) : (pure a : M α) r = .ok (a, r) := rfl

theorem readByte_cons {r : RS} {b : UInt8} {rest : List UInt8} (h : r.inp = b :: rest) :
    readByte r = .ok (b, { r with inp := rest, pos := r.pos + 1 }) := by
  unfold readByte; rw [h]

theorem readBytes_append {r : RS} {bs rest : List UInt8} {n : Nat} (h : r.inp = bs ++ rest)
    (hn : n = bs.length) (hp : r.pos + n < 2 ^ 64) :
    readBytes n r = .ok (bs, { r with inp := rest, pos := r.pos + bs.length }) := by
  subst hn
  unfold readBytes
  rw [if_neg (by omega), h, if_neg (by simp)]
  simp

/-! ## Integers -/

theorem byte_toNat (n : Nat) (h : n < 256) : (UInt8.ofNat n).toNat = n := by
  rw [UInt8.toNat_ofNat']
  exact Nat.mod_eq_of_lt h

theorem leByte_toNat (n : Int) (i : Nat) : ((leByte n i).toNat : Int) = (n / 256 ^ i) % 256 := by
  unfold leByte
  rw [byte_toNat]
  · omega
  · omega

theorem leBytes_length (n : Int) (k : Nat) : (leBytes n k).length = k := by simp [leBytes]

theorem emod_mul256 (m K : Int) (hK : 0 < K) : m % (256 * K) = m % 256 + 256 * (m / 256 % K) := by
  have h1 := Int.mul_ediv_add_emod m 256
  have h2 := Int.mul_ediv_add_emod (m / 256) K
  have h3 := Int.emod_nonneg (m / 256) (Int.ne_of_gt hK)
  have h4 := Int.emod_lt_of_pos (m / 256) hK
  have h5 : m = m % 256 + 256 * (m / 256 % K) + (256 * K) * (m / 256 / K) := by
    rw [Int.mul_assoc]; omega
  conv => lhs; rw [h5]
  rw [Int.add_mul_emod_self_left]
  exact Int.emod_eq_of_lt (by omega) (by omega)

theorem leNat_leBytes (n : Int) (k : Nat) : (leNat (leBytes n k) : Int) = n % 256 ^ k := by
  have key : ∀ (k i : Nat), (leNat ((List.range' i k).map (leByte n)) : Int) =
      (n / 256 ^ i) % 256 ^ k := by
    intro k
    induction k with
    | zero => intro i; simp [leNat, Int.emod_one]
    | succ k ih =>
      intro i
      rw [List.range'_succ, List.map_cons]
      unfold leNat
      have h1 := ih (i + 1)
      have h2 := leByte_toNat n i
      have e1 : n / 256 ^ (i + 1) = (n / 256 ^ i) / 256 := by
        rw [Int.pow_succ, Int.ediv_ediv_of_nonneg (Int.le_of_lt (Int.pow_pos (by decide)))]
      rw [e1] at h1
      generalize n / 256 ^ i = m at *
      have e2 : (256 : Int) ^ (k + 1) = 256 * 256 ^ k := by rw [Int.pow_succ]; omega
      rw [e2, emod_mul256 _ _ (Int.pow_pos (by decide))]
      rw [Int.natCast_add, Int.natCast_mul, h1, h2]
      rfl
  have := key k 0
  rw [← List.range_eq_range'] at this
  simpa [leBytes] using this

theorem readFix_wFix {r : RS} {n : Int} {rest : List UInt8} (h : r.inp = wFix n ++ rest)
    (h1 : -(2 ^ 31) ≤ n) (h2 : n < 2 ^ 31) (hp : r.pos < 2 ^ 62) :
    readFix r = .ok (n, { r with inp := rest, pos := r.pos + (wFix n).length }) := by
  unfold wFix at h ⊢
  unfold readFix
  split at h
  · rename_i h0
    subst h0
    rw [bind_ok (readByte_cons h)]
    simp [pure_eq]
  rename_i h0
  rw [if_neg h0]
  split at h
  · rename_i hs
    rw [if_pos hs]
    rw [bind_ok (readByte_cons h)]
    have hb := byte_toNat (n + 5).toNat (by omega)
    simp only [hb]
    rw [if_neg (by omega), if_pos (by omega), if_neg (by omega), pure_eq]
    refine congrArg Res.ok (Prod.ext ?_ rfl)
    show (((n + 5).toNat : Nat) : Int) - 5 = n
    omega
  rename_i h3
  rw [if_neg h3]
  split at h
  · rename_i hs
    rw [if_pos hs]
    rw [bind_ok (readByte_cons h)]
    have hb := leByte_toNat (n - 5) 0
    simp only [Int.pow_zero, Int.ediv_one] at hb
    have hb' : (leByte (n - 5) 0).toNat = (n + 251).toNat := by omega
    simp only [hb']
    rw [if_neg (by omega), if_neg (by omega), if_neg (by omega), pure_eq]
    refine congrArg Res.ok (Prod.ext ?_ rfl)
    show (((n + 251).toNat : Nat) : Int) - 256 + 5 = n
    omega
  rename_i h4
  rw [if_neg h4]
  split at h
  · rename_i hs
    rw [if_pos hs]
    simp only at h ⊢
    obtain ⟨len, hlen, e⟩ : ∃ len : Nat, (1 ≤ len ∧ len ≤ 4 ∧ n < 256 ^ len) ∧
        (if n ≤ 0xff then 1 else if n ≤ 0xffff then 2 else if n ≤ 0xffffff then 3 else 4) = len := by
      refine ⟨_, ?_, rfl⟩
      split
      · exact ⟨by omega, by omega, by omega⟩
      · split
        · exact ⟨by omega, by omega, by omega⟩
        · split
          · exact ⟨by omega, by omega, by omega⟩
          · exact ⟨by omega, by omega, by omega⟩
    rw [e] at h ⊢
    rw [bind_ok (readByte_cons h)]
    have hb := byte_toNat len (by omega)
    simp only [hb]
    rw [if_neg (by omega), if_pos (by omega), if_pos (by omega)]
    rw [bind_ok (readBytes_append (bs := leBytes n len) (rest := rest) rfl (leBytes_length n len).symm
      (by show r.pos + 1 + len < 2 ^ 64; omega))]
    have hv := leNat_leBytes n len
    rw [Int.emod_eq_of_lt (by omega) hlen.2.2] at hv
    have hv' : asI32 (leNat (leBytes n len)) = n := by unfold asI32; split <;> omega
    rw [pure_eq, hv']
    simp only [List.length_cons, leBytes_length]
    congr 3; omega
  · rename_i hs
    rw [if_neg hs]
    simp only at h ⊢
    obtain ⟨len, hlen, e⟩ : ∃ len : Nat, (1 ≤ len ∧ len ≤ 4 ∧ -(256 ^ len) ≤ n) ∧
        (if -0x100 ≤ n then 1 else if -0x10000 ≤ n then 2 else if -0x1000000 ≤ n then 3 else 4) = len := by
      refine ⟨_, ?_, rfl⟩
      split
      · exact ⟨by omega, by omega, by omega⟩
      · split
        · exact ⟨by omega, by omega, by omega⟩
        · split
          · exact ⟨by omega, by omega, by omega⟩
          · exact ⟨by omega, by omega, by omega⟩
    rw [e] at h ⊢
    rw [bind_ok (readByte_cons h)]
    have hb := byte_toNat (256 - len) (by omega)
    simp only [hb]
    rw [if_neg (by omega), if_neg (by omega), if_pos (by omega)]
    have el : 256 - (256 - len) = len := by omega
    rw [el]
    rw [bind_ok (readBytes_append (bs := leBytes n len) (rest := rest) rfl (leBytes_length n len).symm
      (by show r.pos + 1 + len < 2 ^ 64; omega))]
    have hv := leNat_leBytes n len
    have hpow : (256 : Int) ^ len = 256 ∨ (256 : Int) ^ len = 65536 ∨ (256 : Int) ^ len = 16777216 ∨
        (256 : Int) ^ len = 4294967296 := by
      have : len = 1 ∨ len = 2 ∨ len = 3 ∨ len = 4 := by omega
      rcases this with h | h | h | h <;> subst h <;> decide
    have hpn : ((256 ^ len : Nat) : Int) = 256 ^ len := Int.natCast_pow 256 len
    have hem : n % 256 ^ len = n + 256 ^ len := by
      have : n % 256 ^ len = (n + 256 ^ len) % 256 ^ len := by simp
      rw [this]
      exact Int.emod_eq_of_lt (by omega) (by omega)
    rw [hem] at hv
    have hv' : asI32 (2 ^ 32 - 256 ^ len + leNat (leBytes n len)) = n := by
      unfold asI32
      rcases hpow with h | h | h | h <;> (rw [h] at hv hpn; split <;> omega)
    rw [pure_eq, hv']
    simp only [List.length_cons, leBytes_length]
    congr 3; omega

theorem toI32_small {k : Nat} (h : k < 2 ^ 31) : toI32 k = k := by
  unfold toI32
  simp only
  rw [Nat.mod_eq_of_lt (by omega), if_pos h]

theorem readLen_wLen {r : RS} {k : Nat} {rest : List UInt8} (h : r.inp = wLen k ++ rest)
    (hk : k < 2 ^ 31) (hp : r.pos < 2 ^ 62) :
    readLen r = .ok (k, { r with inp := rest, pos := r.pos + (wLen k).length }) := by
  unfold wLen at h ⊢
  rw [toI32_small hk] at h ⊢
  unfold readLen
  rw [bind_ok (readFix_wFix h (by omega) (by omega) hp), pure_eq]
  simp [toUsize]

theorem wFix_pos (n : Int) : 1 ≤ (wFix n).length := by
  unfold wFix
  split
  · simp
  · split
    · simp
    · split
      · simp
      · split <;> simp

theorem wLen_pos (n : Nat) : 1 ≤ (wLen n).length := wFix_pos _

theorem leNat_natLE (n : Nat) : leNat (natLE n) = n := by
  induction n using Nat.strongRecOn with
  | ind n ih =>
    unfold natLE
    split
    · rename_i h; subst h; rfl
    · rename_i h
      simp only [leNat]
      rw [ih (n / 256) (by omega), byte_toNat _ (by omega)]
      omega

theorem leNat_append_zero (bs : List UInt8) : leNat (bs ++ [0]) = leNat bs := by
  induction bs with
  | nil => rfl
  | cons b bs ih => simp only [List.cons_append, leNat, ih]

/-- The bytes of a bignum after the word count. -/
theorem bigBytes (n : Nat) :
    ∃ pad : List UInt8, (if (natLE n).length % 2 ≠ 0 then [(0 : UInt8)] else []) = pad ∧
      (natLE n ++ pad).length = ((natLE n).length + 1) / 2 * 2 ∧ leNat (natLE n ++ pad) = n := by
  refine ⟨_, rfl, ?_, ?_⟩
  · split
    · simp; omega
    · simp; omega
  · split
    · rw [leNat_append_zero, leNat_natLE]
    · rw [List.append_nil, leNat_natLE]

end Verif.Marshal
