import Verif.Arr.Search

namespace Verif.Arr

theorem bsearchLoop_min (size : Nat) (f : Nat → Ans) (hb : ∀ i, i < size → f i = .yes ∨ f i = .no)
    (hm : ∀ i j, i ≤ j → j < size → f i = .yes → f j = .yes) (n : Nat) :
    ∀ m low high, high - low = n → (m = none → low < high) → m ≠ some .findExact → low ≤ high → high ≤ size →
      (∀ i, i < low → f i = .no) → (∀ i, high ≤ i → i < size → f i = .yes) →
      (bsearchLoop size f m low high = .nil ∧ (∀ i, i < size → f i = .no)) ∨
      ∃ i, bsearchLoop size f m low high = .at i ∧ i < size ∧ f i = .yes ∧ ∀ j, j < i → f j = .no := by
  induction n using Nat.strongRecOn with
  | ind n ih =>
    intro m low high hn hmode hmode' hle hhs hno hyes
    rw [bsearchLoop]
    by_cases h : low < high
    · rw [dif_pos h]
      simp only
      have hmid : (low + high) / 2 < high := by omega
      have hmid' : low ≤ (low + high) / 2 := by omega
      generalize (low + high) / 2 = mid at *
      have hmo : modeOf m (f mid) = some .findMin := by
        rcases m with _ | m
        · rcases hb mid (by omega) with h | h <;> simp [modeOf, h]
        · cases m
          · rfl
          · exact absurd rfl hmode'
      rw [hmo]
      simp only
      rcases hb mid (by omega) with hy | hy
      · rw [if_neg (by rw [hy]; simp)]
        exact ih (mid - low) (by omega) _ low mid rfl (by simp) (by simp) (by omega) (by omega) hno
          (fun i h1 h2 => hm mid i h1 h2 hy)
      · rw [if_pos hy]
        refine ih (high - (mid + 1)) (by omega) _ (mid + 1) high rfl (by simp) (by simp) (by omega) hhs ?_ hyes
        intro i hi
        rcases hb i (by omega) with h1 | h1
        · have := hm i mid (by omega) (by omega) h1
          rw [hy] at this; simp at this
        · exact h1
    · rw [dif_neg h]
      cases m with
      | none => exact absurd (hmode rfl) h
      | some m =>
        cases m with
        | findExact => exact absurd rfl hmode'
        | findMin =>
          simp only [finish]
          by_cases h2 : low < size
          · rw [if_pos h2]
            exact .inr ⟨low, rfl, h2, hyes low (by omega) h2, hno⟩
          · rw [if_neg h2]
            exact .inl ⟨rfl, fun i hi => hno i (by omega)⟩

theorem bsearchLoop_exact (size : Nat) (f : Nat → Ans) (n : Nat) : ∀ m low high, high - low = n →
    m ≠ some .findMin → high ≤ size → (∀ i, i < size → ∃ v, f i = .num v) →
    bsearchLoop size f m low high = .nil ∨
      ∃ i, bsearchLoop size f m low high = .at i ∧ low ≤ i ∧ i < high ∧ f i = .num 0 := by
  induction n using Nat.strongRecOn with
  | ind n ih =>
    intro m low high hn hm hs hf
    rw [bsearchLoop]
    by_cases h : low < high
    · rw [dif_pos h]
      simp only
      have hmid : (low + high) / 2 < high := by omega
      have hmid' : low ≤ (low + high) / 2 := by omega
      generalize (low + high) / 2 = mid at *
      obtain ⟨v, hv⟩ := hf mid (by omega)
      have hmo : modeOf m (f mid) = some .findExact := by
        rcases m with _ | m
        · simp [modeOf, hv]
        · cases m
          · exact absurd rfl hm
          · rfl
      rw [hmo, hv]
      simp only
      split
      · rcases ih (high - (mid + 1)) (by omega) (some .findExact) (mid + 1) high rfl (by simp) hs hf with h | ⟨i, h1, h2, h3, h4⟩
        · exact .inl h
        · exact .inr ⟨i, h1, by omega, h3, h4⟩
      · split
        · rcases ih (mid - low) (by omega) (some .findExact) low mid rfl (by simp) (by omega) hf with h | ⟨i, h1, h2, h3, h4⟩
          · exact .inl h
          · exact .inr ⟨i, h1, h2, by omega, h4⟩
        · exact .inr ⟨mid, rfl, hmid', hmid, by rw [hv]; congr 1; omega⟩
    · rw [dif_neg h]
      left
      rcases m with _ | m
      · rfl
      · cases m
        · exact absurd rfl hm
        · rfl

theorem bsearchLoop_rising (size : Nat) (f : Nat → Ans) (v : Nat → Int) (hf : ∀ i, i < size → f i = .num (v i))
    (hv : ∀ i j, i ≤ j → j < size → v i ≤ v j) (n : Nat) : ∀ m low high, high - low = n →
    m ≠ some .findMin → high ≤ size → (∀ i, i < low → i < size → v i < 0) → (∀ i, high ≤ i → i < size → v i > 0) →
    bsearchLoop size f m low high = .nil → ∀ i, i < size → v i ≠ 0 := by
  induction n using Nat.strongRecOn with
  | ind n ih =>
    intro m low high hn hm hs hlo hhi
    rw [bsearchLoop]
    by_cases h : low < high
    · rw [dif_pos h]
      simp only
      have hmid : (low + high) / 2 < high := by omega
      have hmid' : low ≤ (low + high) / 2 := by omega
      generalize (low + high) / 2 = mid at *
      have hmo : modeOf m (f mid) = some .findExact := by
        rcases m with _ | m
        · simp [modeOf, hf mid (by omega)]
        · cases m
          · exact absurd rfl hm
          · rfl
      rw [hmo, hf mid (by omega)]
      simp only
      split
      · refine ih (high - (mid + 1)) (by omega) _ (mid + 1) high rfl (by simp) hs ?_ hhi
        intro i h1 h2
        have := hv i mid (by omega) (by omega)
        omega
      · split
        · refine ih (mid - low) (by omega) _ low mid rfl (by simp) (by omega) hlo ?_
          intro i h1 h2
          have := hv mid i h1 h2
          omega
        · simp
    · rw [dif_neg h]
      intro _ i hi
      rcases Nat.lt_or_ge i low with h1 | h1
      · have := hlo i h1 hi; omega
      · have := hhi i (by omega) hi; omega

/-! ## Ranges -/

theorem searchLoop_sound (f : Int → Ans) (n : Nat) : ∀ lo hi sat r, (hi + 1 - lo).toNat = n →
    searchLoop f lo hi sat = some (some r) → sat = some r ∨ (lo ≤ r ∧ r ≤ hi ∧ (f r = .yes ∨ f r = .num 0)) := by
  induction n using Nat.strongRecOn with
  | ind n ih =>
    intro lo hi sat r hn hs
    rw [searchLoop] at hs
    by_cases h : lo ≤ hi
    · rw [dif_pos h] at hs
      simp only at hs
      have h1 : lo ≤ lo + (hi - lo) / 2 := by omega
      have h2 : lo + (hi - lo) / 2 ≤ hi := by omega
      generalize lo + (hi - lo) / 2 = mid at *
      cases hf : f mid with
      | yes =>
        simp only [hf, classify] at hs
        rcases ih _ (by omega) lo (mid - 1) _ r rfl hs with h | ⟨h3, h4, h5⟩
        · simp only [Option.some.injEq] at h
          subst h; exact .inr ⟨h1, h2, .inl hf⟩
        · exact .inr ⟨h3, by omega, h5⟩
      | no =>
        simp only [hf, classify] at hs
        rcases ih _ (by omega) (mid + 1) hi _ r rfl hs with h | ⟨h3, h4, h5⟩
        · exact .inl h
        · exact .inr ⟨by omega, h4, h5⟩
      | other => simp [hf, classify] at hs
      | num v =>
        simp only [hf, classify] at hs
        by_cases hz : v = 0
        · simp only [hz, if_true, Option.some.injEq] at hs
          subst hs
          exact .inr ⟨h1, h2, .inr (by rw [hf, hz])⟩
        · by_cases hp : v > 0
          · simp only [if_neg hz, if_pos hp] at hs
            rcases ih _ (by omega) (mid + 1) hi _ r rfl hs with h | ⟨h3, h4, h5⟩
            · exact .inl h
            · exact .inr ⟨by omega, h4, h5⟩
          · simp only [if_neg hz, if_neg hp] at hs
            rcases ih _ (by omega) lo (mid - 1) _ r rfl hs with h | ⟨h3, h4, h5⟩
            · exact .inl h
            · exact .inr ⟨h3, by omega, h5⟩
    · rw [dif_neg h] at hs
      exact .inl (by simpa using hs)

theorem searchLoop_min (f : Int → Ans) (L H : Int) (hb : ∀ i, L ≤ i → i ≤ H → f i = .yes ∨ f i = .no)
    (hm : ∀ i j, L ≤ i → i ≤ j → j ≤ H → f i = .yes → f j = .yes) (n : Nat) :
    ∀ lo hi sat, (hi + 1 - lo).toNat = n → L ≤ lo → lo ≤ hi + 1 → hi ≤ H →
      (∀ i, L ≤ i → i < lo → f i = .no) → (sat = none → hi = H) →
      (∀ s, sat = some s → s = hi + 1 ∧ hi < H ∧ f s = .yes) →
      ∃ r, searchLoop f lo hi sat = some r ∧ (r = none → ∀ i, L ≤ i → i ≤ H → f i = .no) ∧
        ∀ s, r = some s → L ≤ s ∧ s ≤ H ∧ f s = .yes ∧ ∀ i, L ≤ i → i < s → f i = .no := by
  induction n using Nat.strongRecOn with
  | ind n ih =>
    intro lo hi sat hn hL hlh hH hno hsat hsat'
    rw [searchLoop]
    by_cases h : lo ≤ hi
    · rw [dif_pos h]
      simp only
      have h1 : lo ≤ lo + (hi - lo) / 2 := by omega
      have h2 : lo + (hi - lo) / 2 ≤ hi := by omega
      generalize lo + (hi - lo) / 2 = mid at *
      rcases hb mid (by omega) (by omega) with hf | hf
      · rw [hf]
        simp only [classify]
        refine ih _ (by omega) lo (mid - 1) (some mid) rfl hL (by omega) (by omega) hno (by simp) ?_
        intro s hs
        simp only [Option.some.injEq] at hs
        subst hs; exact ⟨by omega, by omega, hf⟩
      · rw [hf]
        simp only [classify]
        refine ih _ (by omega) (mid + 1) hi sat rfl (by omega) (by omega) hH ?_ hsat hsat'
        intro i hi1 hi2
        rcases hb i hi1 (by omega) with h3 | h3
        · have := hm i mid hi1 (by omega) (by omega) h3
          rw [hf] at this; simp at this
        · exact h3
    · rw [dif_neg h]
      refine ⟨sat, rfl, ?_, ?_⟩
      · intro hs i hi1 hi2
        exact hno i hi1 (by have := hsat hs; omega)
      · intro s hs
        obtain ⟨h3, h4, h5⟩ := hsat' s hs
        exact ⟨by omega, by omega, h5, fun i hi1 hi2 => hno i hi1 (by omega)⟩

theorem searchLoop_any (f : Int → Ans) (v : Int → Int) (L H : Int) (hf : ∀ i, L ≤ i → i ≤ H → f i = .num (v i))
    (hv : ∀ i j, L ≤ i → i ≤ j → j ≤ H → v j ≤ v i) (n : Nat) :
    ∀ lo hi, (hi + 1 - lo).toNat = n → L ≤ lo → hi ≤ H →
      (∀ i, L ≤ i → i < lo → i ≤ H → v i > 0) → (∀ i, hi < i → L ≤ i → i ≤ H → v i < 0) →
      ∃ r, searchLoop f lo hi none = some r ∧ (r = none → ∀ i, L ≤ i → i ≤ H → v i ≠ 0) ∧
        ∀ s, r = some s → L ≤ s ∧ s ≤ H ∧ v s = 0 := by
  induction n using Nat.strongRecOn with
  | ind n ih =>
    intro lo hi hn hL hH hlo hhi
    rw [searchLoop]
    by_cases h : lo ≤ hi
    · rw [dif_pos h]
      simp only
      have h1 : lo ≤ lo + (hi - lo) / 2 := by omega
      have h2 : lo + (hi - lo) / 2 ≤ hi := by omega
      generalize lo + (hi - lo) / 2 = mid at *
      rw [hf mid (by omega) (by omega)]
      simp only [classify]
      by_cases hz : v mid = 0
      · simp only [hz, if_true]
        exact ⟨some mid, rfl, by simp, by intro s hs; simp only [Option.some.injEq] at hs; subst hs; exact ⟨by omega, by omega, hz⟩⟩
      · by_cases hp : v mid > 0
        · simp only [if_neg hz, if_pos hp]
          refine ih _ (by omega) (mid + 1) hi rfl (by omega) hH ?_ hhi
          intro i hi1 hi2 hi3
          have := hv i mid hi1 (by omega) (by omega)
          omega
        · simp only [if_neg hz, if_neg hp]
          refine ih _ (by omega) lo (mid - 1) rfl hL (by omega) hlo ?_
          intro i hi1 hi2 hi3
          have := hv mid i (by omega) (by omega) hi3
          omega
    · rw [dif_neg h]
      refine ⟨none, rfl, ?_, by simp⟩
      intro _ i hi1 hi2
      rcases Int.lt_or_le i lo with h3 | h3
      · have := hlo i hi1 h3 hi2; omega
      · have := hhi i (by omega) hi1 hi2; omega

theorem ScanUp.unique {f : Int → Ans} {lo step : Int} {r r' : Option Int} (h : ScanUp f lo step r)
    (h' : ScanUp f lo step r') : r = r' := by
  induction h with
  | raises h1 => cases h' <;> simp_all
  | stop h1 hc => cases h' <;> simp_all
  | go h1 hc t ih =>
    cases h' with
    | raises h2 => simp_all
    | stop h2 hc' => rw [h1] at h2; simp only [Option.some.injEq] at h2; subst h2; exact absurd hc' hc
    | go h2 hc' t' => exact ih t'

theorem ScanDown.unique {f : Int → Ans} {hi step : Int} {r r' : Option Int} (h : ScanDown f hi step r)
    (h' : ScanDown f hi step r') : r = r' := by
  induction h with
  | raises h1 => cases h' <;> simp_all
  | stop h1 hc => cases h' <;> simp_all
  | go h1 hc t ih =>
    cases h' with
    | raises h2 => simp_all
    | stop h2 hc' => rw [h1] at h2; simp only [Option.some.injEq] at h2; subst h2; exact absurd hc' hc
    | go h2 hc' t' => exact ih t'

theorem scanUp_ends (f : Int → Ans) (lo b : Int) (hcl : ∀ i, lo < i → classify (f i) ≠ none)
    (hb : ∀ i, b ≤ i → ∃ c, classify (f i) = some c ∧ (c = .satisfied ∨ c = .equal ∨ c = .less)) (n : Nat) :
    ∀ step, 0 < step → (b - lo - step).toNat ≤ n → ∃ hi, ScanUp f lo step (some hi) ∧ lo < hi ∧
      ∃ c, classify (f hi) = some c ∧ (c = .satisfied ∨ c = .equal ∨ c = .less) := by
  induction n with
  | zero =>
    intro step hs hn
    obtain ⟨c, h1, h2⟩ := hb (lo + step) (by omega)
    exact ⟨lo + step, .stop h1 h2, by omega, c, h1, h2⟩
  | succ n ih =>
    intro step hs hn
    cases hc : classify (f (lo + step)) with
    | none => exact absurd hc (hcl _ (by omega))
    | some c =>
      by_cases h2 : c = .satisfied ∨ c = .equal ∨ c = .less
      · exact ⟨lo + step, .stop hc h2, by omega, c, hc, h2⟩
      · obtain ⟨hi, h3, h4, h5⟩ := ih (step * 2) (by omega) (by omega)
        exact ⟨hi, .go hc h2 h3, h4, h5⟩

theorem scanDown_ends (f : Int → Ans) (hi b : Int) (hcl : ∀ i, i < hi → classify (f i) ≠ none)
    (hb : ∀ i, i ≤ b → ∃ c, classify (f i) = some c ∧ (c = .unsatisfied ∨ c = .greater)) (n : Nat) :
    ∀ step, 0 < step → (hi - step - b).toNat ≤ n → ∃ lo, ScanDown f hi step (some lo) ∧ lo < hi ∧
      ∃ c, classify (f lo) = some c ∧ (c = .unsatisfied ∨ c = .greater) := by
  induction n with
  | zero =>
    intro step hs hn
    obtain ⟨c, h1, h2⟩ := hb (hi - step) (by omega)
    exact ⟨hi - step, .stop h1 h2, by omega, c, h1, h2⟩
  | succ n ih =>
    intro step hs hn
    cases hc : classify (f (hi - step)) with
    | none => exact absurd hc (hcl _ (by omega))
    | some c =>
      by_cases h2 : c = .unsatisfied ∨ c = .greater
      · exact ⟨hi - step, .stop hc h2, by omega, c, hc, h2⟩
      · obtain ⟨lo, h3, h4, h5⟩ := ih (step * 2) (by omega) (by omega)
        exact ⟨lo, .go hc h2 h3, h4, h5⟩

/-! ## Keys of floats -/

theorem fromKey_toKey (b : Nat) (h : b < 2 ^ 64) : fromKey (toKey b) = b := by
  simp only [toKey, fromKey]
  split <;> split <;> omega

theorem toKey_fromKey (k : Nat) (h : k < 2 ^ 64) : toKey (fromKey k) = k := by
  simp only [toKey, fromKey]
  split <;> split <;> omega

theorem toKey_lt (b : Nat) (h : b < 2 ^ 64) : toKey b < 2 ^ 64 := by
  simp only [toKey]; split <;> omega

theorem fromKey_lt (k : Nat) (h : k < 2 ^ 64) : fromKey k < 2 ^ 64 := by
  simp only [fromKey]; split <;> omega

theorem toKey_mono (a b : Nat) (ha : a < 2 ^ 64) (hb : b < 2 ^ 64) (h : fval a < fval b) : toKey a < toKey b := by
  simp only [fval, toKey] at *
  split at h <;> split at h <;> split <;> split <;> omega

theorem fval_mono (a b : Nat) (ha : a < 2 ^ 64) (hb : b < 2 ^ 64) (h : toKey a ≤ toKey b) : fval a ≤ fval b := by
  rcases Int.lt_or_le (fval b) (fval a) with h1 | h1
  · have := toKey_mono b a hb ha h1; omega
  · exact h1

theorem fval_strict (a b : Nat) (ha : a < 2 ^ 64) (hb : b < 2 ^ 64) (h : toKey a < toKey b) (hz : b ≠ 0) :
    fval a < fval b := by
  simp only [fval, toKey] at *
  split at h <;> split at h <;> split <;> split <;> omega

end Verif.Arr
