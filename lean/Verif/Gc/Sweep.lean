import Verif.Gc.Gen

/-! # Sweeping and salvaging -/

namespace Verif.Gc

/-- The free list: following the links from `p` visits exactly `l`. -/
def Chain (c : Addr → Cell) : Option Addr → List Addr → Prop
  | p, [] => p = none
  | p, a :: l => p = some a ∧ ∃ n, c a = .free n ∧ Chain c n l

theorem Chain.congr {c c' : Addr → Cell} : ∀ {l : List Addr} {p : Option Addr},
    (∀ a ∈ l, c' a = c a) → Chain c p l → Chain c' p l
  | [], _, _, h => h
  | a :: l, p, he, ⟨hp, n, hn, ht⟩ =>
    ⟨hp, n, by rw [he a (by simp)]; exact hn, ht.congr (fun x hx => he x (by simp [hx]))⟩

theorem Chain.free {c : Addr → Cell} : ∀ {l : List Addr} {p : Option Addr},
    Chain c p l → ∀ a ∈ l, ∃ n, c a = .free n
  | [], _, _, a, ha => by cases ha
  | x :: l, p, ⟨_, n, hn, ht⟩, a, ha => by
    rcases List.mem_cons.1 ha with rfl | ha
    · exact ⟨n, hn⟩
    · exact ht.free a ha

theorem Chain.snoc {c : Addr → Cell} {t a : Addr} : ∀ {l : List Addr} {p : Option Addr},
    Chain c p (l ++ [t]) → (l ++ [t]).Nodup → a ∉ l ++ [t] →
    Chain (Function.update (Function.update c t (.free (some a))) a (.free none)) p (l ++ [t] ++ [a])
  | [], p, ⟨hp, n, hn, ht⟩, _, ha => by
    have hta : t ≠ a := by intro e; subst e; simp at ha
    refine ⟨hp, some a, ?_, rfl, none, ?_, rfl⟩
    · rw [Function.update_of_ne hta, Function.update_self]
    · rw [Function.update_self]
  | x :: l, p, ⟨hp, n, hn, ht⟩, hd, ha => by
    have hxa : x ≠ a := by intro e; subst e; simp at ha
    have hxt : x ≠ t := by
      intro e; subst e
      simp at hd
    refine ⟨hp, n, ?_, ?_⟩
    · rw [Function.update_of_ne hxa, Function.update_of_ne hxt]; exact hn
    · exact ht.snoc (List.nodup_cons.1 hd).2 (fun h => ha (by
        rw [List.cons_append]; exact List.mem_cons_of_mem _ h))

/-- linking several cells -/
def links (s : Sweep) (l : List Addr) : Sweep := l.foldl Sweep.link s

theorem links_append (s : Sweep) (l l' : List Addr) : links s (l ++ l') = links (links s l) l' := by
  simp [links, List.foldl_append]

/-- The list built so far is `D`. -/
structure LInv (c : Addr → Cell) (D : List Addr) (s : Sweep) : Prop where
  count : s.count = D.length
  chain : Chain s.cells s.anchor D
  tail : s.tail = D.getLast?
  rest : ∀ a, a ∉ D → s.cells a = c a

theorem LInv.link {c : Addr → Cell} {D : List Addr} {s : Sweep} (h : LInv c D s) (hd : D.Nodup)
    {a : Addr} (ha : a ∉ D) : LInv c (D ++ [a]) (s.link a) := by
  rcases List.eq_nil_or_concat D with rfl | ⟨l, t, rfl⟩
  · have ht : s.tail = none := by rw [h.tail]; rfl
    have hs : s.link a = ⟨Function.update s.cells a (.free none), some a, some a, s.count + 1⟩ := by
      unfold Sweep.link; rw [ht]
    rw [hs]
    refine ⟨by simp [h.count], ⟨rfl, none, by simp, rfl⟩, by simp, ?_⟩
    intro x hx
    have : x ≠ a := by simpa using hx
    simp only [Function.update_of_ne this]
    exact h.rest x (by simp)
  · have ht : s.tail = some t := by rw [h.tail]; simp
    have hs : s.link a = ⟨Function.update (Function.update s.cells t (.free (some a))) a (.free none),
        s.anchor, some a, s.count + 1⟩ := by
      unfold Sweep.link; rw [ht]
    rw [hs]
    rw [List.concat_eq_append] at *
    refine ⟨by simp [h.count], ?_, by simp, ?_⟩
    · exact h.chain.snoc hd ha
    · intro x hx
      have h1 : x ≠ a := by intro e; subst e; simp at hx
      have h2 : x ≠ t := by intro e; subst e; simp at hx
      simp only [Function.update_of_ne h1, Function.update_of_ne h2]
      exact h.rest x (by intro hx'; exact hx (List.mem_append_left _ hx'))

theorem LInv.links {c : Addr → Cell} : ∀ (E : List Addr) {D : List Addr} {s : Sweep},
    LInv c D s → (D ++ E).Nodup → LInv c (D ++ E) (links s E)
  | [], D, s, h, _ => by simpa [Gc.links] using h
  | a :: E, D, s, h, hd => by
    have e : D ++ a :: E = (D ++ [a]) ++ E := by simp
    rw [e] at hd ⊢
    have hda := (List.nodup_append.1 hd).1
    have := LInv.links E (h.link (List.nodup_append.1 hda).1 (a := a) (by
      intro hx
      exact (List.nodup_append.1 hda).2.2 a hx a (by simp) rfl)) hd
    exact this

/-! ## Bits -/

theorem sweepLoop_eq (p : Nat) : ∀ (n : Nat) (m : BitVec 64) (s : Sweep) (ptr : Nat),
    sweepLoop p n m s ptr =
      (links s (((List.range n).filter (fun i => !m.getLsbD i)).map (fun i => (p, ptr + i))), ptr + n)
  | 0, m, s, ptr => by simp [sweepLoop, links]
  | n + 1, m, s, ptr => by
    rw [sweepLoop, sweepLoop_eq p n]
    refine Prod.ext ?_ (by simp only; omega)
    simp only
    have e : ((List.range n).filter (fun i => !(m >>> 1).getLsbD i)).map (fun i => (p, ptr + 1 + i)) =
        (((List.range n).map (· + 1)).filter (fun i => !m.getLsbD i)).map (fun i => (p, ptr + i)) := by
      rw [List.filter_map, List.map_map]
      have : (fun i => !(m >>> 1).getLsbD i) = ((fun i => !m.getLsbD i) ∘ fun x => x + 1) := by
        funext i
        simp only [Function.comp, BitVec.getLsbD_ushiftRight, Nat.add_comm]
      rw [this]
      apply List.map_congr_left
      intro i _
      simp only [Function.comp]
      congr 1
      omega
    rw [e]
    rw [show List.range (n + 1) = 0 :: (List.range n).map (· + 1) from List.range_succ_eq_map]
    rw [List.filter_cons]
    by_cases h0 : m.getLsbD 0 = true
    · simp only [h0, if_true, Bool.not_true, Bool.false_eq_true, if_false]
    · have h0' : m.getLsbD 0 = false := by simpa using h0
      simp only [h0', Bool.not_false, if_true, Bool.false_eq_true, if_false, List.map_cons,
        Nat.add_zero, links, List.foldl_cons]

theorem trailingOnes_le : ∀ (n : Nat) (m : BitVec 64), trailingOnes n m ≤ n
  | 0, _ => by simp [trailingOnes]
  | n + 1, m => by
    rw [trailingOnes]
    split
    · have := trailingOnes_le n (m >>> 1); omega
    · omega

theorem trailingOnes_set : ∀ (n : Nat) (m : BitVec 64) (i : Nat), i < trailingOnes n m →
    m.getLsbD i = true
  | 0, _, i, h => by simp [trailingOnes] at h
  | n + 1, m, i, h => by
    rw [trailingOnes] at h
    split at h
    · rename_i h0
      cases i with
      | zero => exact h0
      | succ i =>
        have := trailingOnes_set n (m >>> 1) i (by omega)
        rw [BitVec.getLsbD_ushiftRight] at this
        rw [Nat.add_comm]
        exact this
    · omega

/-- skipping a prefix of ones skips no dead cell -/
theorem filter_skip (f : Nat → Bool) (bit k : Nat) (h : ∀ i, i < k → f i = false) :
    (List.range bit).filter f =
      ((List.range (bit - k)).filter (fun i => f (k + i))).map (k + ·) := by
  by_cases hk : k ≤ bit
  · obtain ⟨d, rfl⟩ := Nat.exists_eq_add_of_le hk
    rw [List.range_add, List.filter_append]
    have : (List.range k).filter f = [] := by
      rw [List.filter_eq_nil_iff]
      intro i hi
      simp [h i (List.mem_range.1 hi)]
    rw [this, List.nil_append, Nat.add_sub_cancel_left, List.filter_map]
    rfl
  · have : bit - k = 0 := by omega
    rw [this]
    simp only [List.range_zero, List.filter_nil, List.map_nil]
    rw [List.filter_eq_nil_iff]
    intro i hi
    have := List.mem_range.1 hi
    simp [h i (by omega)]

/-- `sweep_bits` links exactly the cells whose bit is clear. -/
theorem sweepBits_eq (p bit : Nat) (m : BitVec 64) (s : Sweep) (ptr : Nat) :
    (sweepBits p bit m s ptr).1 =
      links s (((List.range bit).filter (fun i => !m.getLsbD i)).map (fun i => (p, ptr + i))) := by
  unfold sweepBits
  simp only []
  rw [sweepLoop_eq]
  simp only
  rw [filter_skip (fun i => !m.getLsbD i) bit (trailingOnes 64 m)
    (by intro i hi; simp [trailingOnes_set 64 m i hi])]
  rw [List.map_map]
  by_cases h : trailingOnes 64 m < 64
  · rw [if_pos h]
    congr 1
    have : (fun i => !(m >>> trailingOnes 64 m).getLsbD i) =
        (fun i => !m.getLsbD (trailingOnes 64 m + i)) := by
      funext i
      rw [BitVec.getLsbD_ushiftRight]
    rw [this]
    apply List.map_congr_left
    intro i _
    simp only [Function.comp]
    congr 1
    omega
  · rw [if_neg h]
    have hmin : trailingOnes 64 m = 64 := by have := trailingOnes_le 64 m; omega
    rw [hmin]
    congr 1
    have : (fun i => !(0#64 : BitVec 64).getLsbD i) = (fun i => !m.getLsbD (64 + i)) := by
      funext i
      rw [BitVec.getLsbD_of_ge m (64 + i) (by omega)]
      simp
    rw [this]
    apply List.map_congr_left
    intro i _
    simp only [Function.comp]
    congr 1
    omega

theorem sweepBits_ptr (p : Nat) (m : BitVec 64) (s : Sweep) (ptr : Nat) :
    (sweepBits p 64 m s ptr).2 = ptr + 64 := by
  unfold sweepBits
  simp only []
  rw [sweepLoop_eq]
  have := trailingOnes_le 64 m
  simp only
  omega

theorem word_getLsbD (f : Addr → Bool) (p w i : Nat) (hi : i < 64) :
    (word f p w).getLsbD i = f (p, 64 * w + i) := by
  unfold word
  rw [BitVec.getLsbD_setWidth, BitVec.getLsbD_ofBoolListLE]
  simp [hi]

/-- the dead cells with indices `a ..< a + n` of a page -/
def deadIn (mark : Addr → Bool) (p a n : Nat) : List Addr :=
  ((List.range n).map (fun i => (p, a + i))).filter (fun x => !mark x)

theorem sweepBits_word (mark : Addr → Bool) (p w bit : Nat) (hb : bit ≤ 64) (s : Sweep) :
    (sweepBits p bit (word mark p w) s (64 * w)).1 = links s (deadIn mark p (64 * w) bit) := by
  rw [sweepBits_eq]
  unfold deadIn
  rw [List.filter_map]
  congr 2
  apply List.filter_congr
  intro i hi
  rw [word_getLsbD _ _ _ _ (by have := List.mem_range.1 hi; omega)]
  rfl

theorem deadIn_add (mark : Addr → Bool) (p a n m : Nat) :
    deadIn mark p a (n + m) = deadIn mark p a n ++ deadIn mark p (a + n) m := by
  unfold deadIn
  rw [← List.filter_append, List.range_add, List.map_append, List.map_map]
  congr 2
  apply List.map_congr_left
  intro i _
  simp only [Function.comp]
  rw [Nat.add_assoc]

theorem sweepWords_eq (mark : Addr → Bool) (p : Nat) : ∀ (n w : Nat) (s : Sweep),
    sweepWords mark p n w s (64 * w) = (links s (deadIn mark p (64 * w) (64 * n)), 64 * (w + n))
  | 0, w, s => by simp [sweepWords, deadIn, links]
  | n + 1, w, s => by
    rw [sweepWords]
    rw [sweepBits_word _ _ _ _ (Nat.le_refl _), sweepBits_ptr,
      show 64 * w + 64 = 64 * (w + 1) by omega, sweepWords_eq mark p n (w + 1)]
    refine Prod.ext ?_ (by simp only; omega)
    simp only
    rw [show 64 * (n + 1) = 64 + 64 * n by omega, deadIn_add, links_append]
    rw [show 64 * w + 64 = 64 * (w + 1) by omega]

theorem deadIn_zero (mark : Addr → Bool) (p n : Nat) :
    deadIn mark p 0 n = ((List.range n).map (fun i => (p, i))).filter (fun x => !mark x) := by
  unfold deadIn; simp

/-- The cells linked by the sweep are the dead cells in service, in order. -/
theorem sweep_eq {h : Heap} (hu : h.used ≤ DATA_LEN) :
    ∃ s o, sweep h = some { h with cells := s.cells, oldb := o, free := s.anchor, freeCount := s.count } ∧
      s = links ⟨h.cells, none, none, 0⟩ (h.inService.filter (fun a => !h.mark a)) ∧
      (∀ a, o a = true → h.oldb a = true) ∧
      (∀ a, a ∈ h.inService → o a = (h.oldb a && h.mark a)) := by
  unfold sweep
  simp only []
  rw [if_neg (by omega)]
  refine ⟨_, _, rfl, ?_, ?_, ?_⟩
  · have hp : ∀ (ps : List Nat) (s : Sweep),
        ps.foldl (fun s p => (sweepWords h.mark p WORDS 0 s 0).1) s =
        links s ((ps.flatMap (fun p => (List.range DATA_LEN).map (fun i => (p, i)))).filter
          (fun a => !h.mark a)) := by
      intro ps
      induction ps with
      | nil => intro s; rfl
      | cons p ps ih =>
        intro s
        rw [List.foldl_cons, ih, List.flatMap_cons, List.filter_append, links_append]
        have := sweepWords_eq h.mark p WORDS 0 s
        simp only [Nat.mul_zero] at this
        rw [this, deadIn_zero, show 64 * WORDS = DATA_LEN from rfl]
    rw [hp]
    unfold Heap.inService
    rw [List.filter_append, links_append]
    generalize links _ _ = s1
    have hw := sweepWords_eq h.mark h.current (h.used / 64) 0 s1
    simp only [Nat.mul_zero, Nat.zero_add] at hw
    rw [hw, ← deadIn_zero]
    simp only
    have hu' : 64 * (h.used / 64) + h.used % 64 = h.used := Nat.div_add_mod _ _
    by_cases hi : h.used / 64 < WORDS
    · rw [if_pos hi, sweepBits_word _ _ _ _ (by omega), ← links_append]
      have := deadIn_add h.mark h.current 0 (64 * (h.used / 64)) (h.used % 64)
      rw [Nat.zero_add] at this
      rw [← this, hu']
    · rw [if_neg hi]
      have : h.used = 64 * (h.used / 64) := by
        unfold DATA_LEN at hu
        omega
      rw [← this]
  · intro a ha
    cases hn : h.oldb a with
    | true => rfl
    | false => simp [hn] at ha
  · intro a ha
    rw [if_pos]
    unfold Heap.inService at ha
    rcases List.mem_append.1 ha with ha | ha
    · left
      simp only [List.mem_flatMap, List.mem_map, List.mem_range] at ha
      obtain ⟨p, hp, i, hi, rfl⟩ := ha
      exact ⟨hp, hi⟩
    · right
      simp only [List.mem_map, List.mem_range] at ha
      obtain ⟨i, hi, rfl⟩ := ha
      refine ⟨rfl, ?_⟩
      simp only
      split
      · omega
      · unfold DATA_LEN at hu; omega

end Verif.Gc
