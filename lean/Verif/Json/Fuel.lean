import Verif.Json.Sound

/-
  The bounds that make the parser total never end it early: every value takes at least a
  byte.
-/
namespace Verif.Json

theorem skipWs_len (s : List Byte) : (skipWs s).length ≤ s.length := by
  unfold skipWs; exact (List.dropWhile_sublist _).length_le

theorem skipWs_cons_len {s : List Byte} {b : Byte} {r : List Byte} (h : skipWs s = b :: r) : r.length < s.length := by
  have := skipWs_len s
  rw [h, List.length_cons] at this; omega

theorem hex4_len {s r : List Byte} {v : Nat} (h : hex4 s = some (v, r)) : r.length < s.length := by
  unfold hex4 at h
  split at h
  · simp only [Option.map_eq_some_iff, Prod.mk.injEq] at h
    obtain ⟨_, _, _, rfl⟩ := h
    simp only [List.length_cons]; omega
  · cases h

theorem lowStep_len {cp : Nat} {s : List Byte} : ∀ {cs : List Char} {r : List Byte}, lowStep cp s = .push cs r →
    r.length ≤ s.length := by
  intro cs r h
  unfold lowStep at h
  split at h
  · split at h
    · split at h
      · cases h
      · rename_i _ _ _ _ _ low r' hh
        have := hex4_len hh
        split at h <;> cases h <;> simp only [List.length_cons] <;> omega
    · cases h; exact Nat.le_refl _
  · cases h; exact Nat.le_refl _

theorem uniStep_len {s : List Byte} {cs : List Char} {r : List Byte} (h : uniStep s = .push cs r) :
    r.length ≤ s.length := by
  unfold uniStep at h
  split at h
  · cases h
  · rename_i cp r' hh
    have := hex4_len hh
    split at h
    · have := lowStep_len h; omega
    · split at h
      · cases h; omega
      · cases h

theorem escStep_len {s : List Byte} {cs : List Char} {r : List Byte} (h : escStep s = .push cs r) :
    r.length ≤ s.length := by
  unfold escStep at h
  split at h
  · cases h
  · rename_i e r'
    simp only [List.length_cons]
    split_ifs at h
    all_goals first
      | (have := uniStep_len h; omega)
      | (cases h; omega)

theorem strStep_close {s r : List Byte} (h : strStep s = .close r) : r.length < s.length := by
  have hl : ∀ {cp : Nat} {s : List Byte}, lowStep cp s ≠ .close r := by
    intro cp s h
    unfold lowStep at h
    repeat' split at h
    all_goals cases h
  have hu : ∀ {s : List Byte}, uniStep s ≠ .close r := by
    intro s h
    unfold uniStep at h
    split at h
    · cases h
    · split at h
      · exact hl h
      · split at h <;> cases h
  have he : ∀ {s : List Byte}, escStep s ≠ .close r := by
    intro s h
    unfold escStep at h
    split at h
    · cases h
    · split_ifs at h
      exact hu h
  unfold strStep at h
  split at h
  · cases h
  · split at h
    · cases h; simp
    · split at h
      · exact absurd h he
      · split at h
        · split at h <;> cases h
        · cases h

theorem strStep_push {s : List Byte} {cs : List Char} {r : List Byte} (h : strStep s = .push cs r) :
    r.length < s.length := by
  unfold strStep at h
  split at h
  · cases h
  · rename_i b r'
    simp only [List.length_cons]
    split at h
    · cases h
    · split at h
      · have := escStep_len h; omega
      · split at h
        · split at h
          · rename_i c _
            cases h
            have := Char.utf8Size_pos c
            rw [List.length_drop, List.length_cons]; omega
          · cases h; omega
        · cases h; omega

theorem pStr_fuel : ∀ (n m : Nat) (s : List Byte), s.length < n → s.length < m → pStr n s = pStr m s
  | 0, _, _, h, _ => absurd h (by omega)
  | _ + 1, 0, _, _, h => absurd h (by omega)
  | n + 1, m + 1, s, hn, hm => by
    simp only [pStr]
    cases h : strStep s with
    | fail => rfl
    | close r => rfl
    | push cs r =>
      have := strStep_push h
      simp only
      rw [pStr_fuel n m r (by omega) (by omega)]

theorem pStr_len : ∀ (n : Nat) {s : List Byte} {q : List Char × List Byte}, pStr n s = some q → q.2.length < s.length
  | 0, _, _, h => by cases h
  | n + 1, s, q, h => by
    simp only [pStr] at h
    cases hs : strStep s with
    | fail => rw [hs] at h; cases h
    | close r => rw [hs] at h; cases h; exact strStep_close hs
    | push cs r =>
      rw [hs] at h
      have := strStep_push hs
      simp only [Option.map_eq_some_iff] at h
      obtain ⟨q', h1, rfl⟩ := h
      have := pStr_len n h1
      simp only; omega

theorem digits_len (s : List Byte) : (digits s).2.length ≤ s.length := by
  unfold digits; exact (List.dropWhile_sublist _).length_le

theorem pNat_len {sign s t r : List Byte} (h : pNat sign s = some (t, r)) : r.length < s.length := by
  unfold pNat at h
  split at h
  · cases h
  · rename_i b r'
    have := digits_len r'
    simp only [List.length_cons]
    split_ifs at h
    · cases h; omega
    · cases h; omega

theorem pNumber_len {P : FloatIO} {s r : List Byte} {v : JV P.F} (h : pNumber P s = some (v, r)) : r.length < s.length := by
  unfold pNumber at h
  cases h1 : pIntPart s with
  | none => rw [h1] at h; cases h
  | some q1 =>
    have l1 : q1.2.length < s.length := by
      unfold pIntPart at h1
      split at h1
      · cases h1
      · split at h1
        · have := pNat_len (t := q1.1) (r := q1.2) h1
          simp only [List.length_cons]; omega
        · exact pNat_len (t := q1.1) (r := q1.2) h1
    rw [h1] at h
    simp only at h
    cases h2 : pFrac q1.2 with
    | none => rw [h2] at h; cases h
    | some q2 =>
      have l2 : q2.2.length ≤ q1.2.length := by
        generalize q1.2 = u at h2
        unfold pFrac at h2
        split at h2
        · cases h2; simp
        · rename_i b u
          have := digits_len u
          split_ifs at h2
          · cases h2; simp only [List.length_cons]; omega
          · cases h2; exact Nat.le_refl _
      rw [h2] at h
      simp only at h
      cases h3 : pExp q2.2 with
      | none => rw [h3] at h; cases h
      | some q3 =>
        have l3 : q3.2.length ≤ q2.2.length := by
          generalize q2.2 = u at h3
          unfold pExp at h3
          split at h3
          · cases h3; simp
          · rename_i b u
            have l := digits_len (pSign u).2
            have l' : (pSign u).2.length ≤ u.length := by
              unfold pSign
              split
              · simp
              · split
                · simp
                · simp
            split_ifs at h3
            · cases h3; simp only [List.length_cons]; omega
            · cases h3; exact Nat.le_refl _
        rw [h3] at h
        cases h
        omega

theorem pKey_len {s r : List Byte} {k : List Char} (h : pKey s = some (k, r)) : r.length < s.length := by
  unfold pKey at h
  cases h1 : skipWs s with
  | nil => rw [h1] at h; cases h
  | cons b u =>
    rw [h1] at h
    have l1 := skipWs_cons_len h1
    simp only at h
    split at h
    · cases h2 : pString u with
      | none => rw [h2] at h; cases h
      | some q =>
        have l2 := pStr_len _ h2
        rw [h2] at h
        simp only at h
        cases h3 : skipWs q.2 with
        | nil => rw [h3] at h; cases h
        | cons b' u' =>
          have l3 := skipWs_cons_len h3
          rw [h3] at h
          simp only at h
          split at h
          · cases h; omega
          · cases h
    · cases h

/-- parsers that use up something -/
def Eats {F : Type} (pv : PV F) : Prop := ∀ s v r, pv s = some (v, r) → r.length < s.length

theorem pItems_len {F : Type} {pv : PV F} (hpv : Eats pv) : ∀ (k : Nat) {acc : List (JV F)} {s r : List Byte} {v : JV F},
    pItems pv k acc s = some (v, r) → r.length < s.length
  | 0, _, _, _, _, h => by cases h
  | k + 1, acc, s, r, v, h => by
    simp only [pItems] at h
    cases h1 : pv s with
    | none => rw [h1] at h; cases h
    | some q =>
      have l1 := hpv s q.1 q.2 h1
      rw [h1] at h
      simp only at h
      cases h2 : skipWs q.2 with
      | nil => rw [h2] at h; cases h
      | cons b u =>
        have l2 := skipWs_cons_len h2
        rw [h2] at h
        simp only at h
        split_ifs at h
        · have := pItems_len hpv k h; omega
        · cases h; omega

theorem pPairs_len {F : Type} {pv : PV F} (hpv : Eats pv) : ∀ (k : Nat) {acc : List (List Char × JV F)} {s r : List Byte}
    {v : JV F}, pPairs pv k acc s = some (v, r) → r.length < s.length
  | 0, _, _, _, _, h => by cases h
  | k + 1, acc, s, r, v, h => by
    simp only [pPairs] at h
    cases h0 : pKey s with
    | none => rw [h0] at h; cases h
    | some q0 =>
      have l0 := pKey_len (k := q0.1) (r := q0.2) h0
      rw [h0] at h
      simp only at h
      cases h1 : pv q0.2 with
      | none => rw [h1] at h; cases h
      | some q =>
        have l1 := hpv q0.2 q.1 q.2 h1
        rw [h1] at h
        simp only at h
        cases h2 : skipWs q.2 with
        | nil => rw [h2] at h; cases h
        | cons b u =>
          have l2 := skipWs_cons_len h2
          rw [h2] at h
          simp only at h
          split_ifs at h
          · have := pPairs_len hpv k h; omega
          · cases h; omega

theorem pArray_len {F : Type} {pv : PV F} (hpv : Eats pv) {s r : List Byte} {v : JV F} (h : pArray pv s = some (v, r)) :
    r.length ≤ s.length := by
  unfold pArray at h
  cases h1 : skipWs s with
  | nil => rw [h1] at h; cases h
  | cons b u =>
    have l1 := skipWs_cons_len h1
    rw [h1] at h
    simp only at h
    split at h
    · cases h; omega
    · have := pItems_len hpv _ h
      simp only [List.length_cons] at this; omega

theorem pObject_len {F : Type} {pv : PV F} (hpv : Eats pv) {s r : List Byte} {v : JV F} (h : pObject pv s = some (v, r)) :
    r.length ≤ s.length := by
  unfold pObject at h
  cases h1 : skipWs s with
  | nil => rw [h1] at h; cases h
  | cons b u =>
    have l1 := skipWs_cons_len h1
    rw [h1] at h
    simp only at h
    split at h
    · cases h; omega
    · have := pPairs_len hpv _ h
      simp only [List.length_cons] at this; omega

theorem pLit_len {F : Type} {word : List Char} {v v' : JV F} {s r : List Byte} (hw : word ≠ [])
    (h : pLit word v s = some (v', r)) : r.length < s.length := by
  unfold pLit at h
  split at h
  · rename_i hp
    cases h
    have hl := (List.isPrefixOf_iff_prefix.mp hp).length_le
    rw [List.length_map] at hl
    have : 0 < word.length := List.length_pos_iff.mpr hw
    rw [List.length_drop]; omega
  · cases h

theorem pValue_eats (P : FloatIO) : ∀ n, Eats (pValue P n)
  | 0 => by intro s v r h; cases h
  | n + 1 => by
    intro s v r h
    simp only [pValue] at h
    cases h1 : skipWs s with
    | nil => rw [h1] at h; cases h
    | cons b u =>
      have l1 := skipWs_cons_len h1
      have l2 := skipWs_len s
      rw [h1] at h l2
      simp only at h
      split_ifs at h
      · simp only [Option.map_eq_some_iff] at h
        obtain ⟨q, hq, he⟩ := h
        cases he
        have := pStr_len _ hq
        omega
      · have := pObject_len (pValue_eats P n) h; omega
      · have := pArray_len (pValue_eats P n) h; omega
      · have := pLit_len (by decide) h; omega
      · have := pLit_len (by decide) h; omega
      · have := pLit_len (by decide) h; omega
      · have := pNumber_len h; omega

theorem pItems_congr {F : Type} {pv pv' : PV F} (hpv : Eats pv) : ∀ (k k' : Nat) (acc : List (JV F)) (s : List Byte),
    (∀ u : List Byte, u.length ≤ s.length → pv u = pv' u) → s.length < k → s.length < k' →
    pItems pv k acc s = pItems pv' k' acc s
  | 0, _, _, _, _, h, _ => absurd h (by omega)
  | _ + 1, 0, _, _, _, _, h => absurd h (by omega)
  | k + 1, k' + 1, acc, s, he, hk, hk' => by
    simp only [pItems, ← he s (Nat.le_refl _)]
    cases h1 : pv s with
    | none => rfl
    | some q =>
      have l1 := hpv s q.1 q.2 h1
      simp only
      cases h2 : skipWs q.2 with
      | nil => rfl
      | cons b u =>
        have l2 := skipWs_cons_len h2
        simp only
        rw [pItems_congr hpv k k' _ u (fun x hx => he x (by omega)) (by omega) (by omega)]

theorem pPairs_congr {F : Type} {pv pv' : PV F} (hpv : Eats pv) : ∀ (k k' : Nat) (acc : List (List Char × JV F))
    (s : List Byte), (∀ u : List Byte, u.length ≤ s.length → pv u = pv' u) → s.length < k → s.length < k' →
    pPairs pv k acc s = pPairs pv' k' acc s
  | 0, _, _, _, _, h, _ => absurd h (by omega)
  | _ + 1, 0, _, _, _, _, h => absurd h (by omega)
  | k + 1, k' + 1, acc, s, he, hk, hk' => by
    simp only [pPairs]
    cases h0 : pKey s with
    | none => rfl
    | some q0 =>
      have l0 := pKey_len (k := q0.1) (r := q0.2) h0
      simp only [← he q0.2 (by omega)]
      cases h1 : pv q0.2 with
      | none => rfl
      | some q =>
        have l1 := hpv q0.2 q.1 q.2 h1
        simp only
        cases h2 : skipWs q.2 with
        | nil => rfl
        | cons b u =>
          have l2 := skipWs_cons_len h2
          simp only
          rw [pPairs_congr hpv k k' _ u (fun x hx => he x (by omega)) (by omega) (by omega)]

theorem pValue_fuel (P : FloatIO) : ∀ (n m : Nat) (s : List Byte), s.length < n → s.length < m →
    pValue P n s = pValue P m s
  | 0, _, _, h, _ => absurd h (by omega)
  | _ + 1, 0, _, _, h => absurd h (by omega)
  | n + 1, m + 1, s, hn, hm => by
    simp only [pValue]
    cases h1 : skipWs s with
    | nil => rfl
    | cons b u =>
      have l1 := skipWs_cons_len h1
      have hA : pArray (pValue P n) u = pArray (pValue P m) u := by
        unfold pArray
        cases h2 : skipWs u with
        | nil => rfl
        | cons b' u' =>
          have l2 := skipWs_len u
          rw [h2] at l2
          simp only
          rw [pItems_congr (pValue_eats P n) _ (u.length + 1) [] (b' :: u')
            (fun x hx => pValue_fuel P n m x (by omega) (by omega)) (by omega) (by omega)]
      have hO : pObject (pValue P n) u = pObject (pValue P m) u := by
        unfold pObject
        cases h2 : skipWs u with
        | nil => rfl
        | cons b' u' =>
          have l2 := skipWs_len u
          rw [h2] at l2
          simp only
          rw [pPairs_congr (pValue_eats P n) _ (u.length + 1) [] (b' :: u')
            (fun x hx => pValue_fuel P n m x (by omega) (by omega)) (by omega) (by omega)]
      simp only [hA, hO]

end Verif.Json
