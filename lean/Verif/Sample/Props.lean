import Verif.Sample.Lemmas

/-!
# C39, C40: `Array#shuffle` and `Array#sample`
-/

namespace Verif.Sample

variable {α : Type}

/-- **C39.** `shuffle` rearranges the elements, whatever numbers the generator gives. -/
theorem C39_shuffle_is_permutation (l : List α) (ds : List Nat) (hlen : ds.length = l.length - 1)
    (hv : Valid l.length ds) : ∃ r, shuffle l ds = some r ∧ r.Perm l :=
  shuffleLoop_perm l.length l ds rfl hlen hv

/-- **C39.** Every arrangement is reached, by exactly one sequence of draws (for distinct
elements).  Since the draws are uniform and independent, so are the arrangements. -/
theorem C39_every_arrangement_once (l r : List α) (hn : l.Nodup) (hp : r.Perm l) :
    ∃! ds, (ds.length = l.length - 1 ∧ Valid l.length ds) ∧ shuffle l ds = some r := by
  obtain ⟨ds, h1, h2, h3⟩ := shuffleLoop_surj l.length l r rfl hp
  refine ⟨ds, ⟨⟨h1, h2⟩, h3⟩, ?_⟩
  rintro ds' ⟨⟨h4, h5⟩, h6⟩
  exact shuffleLoop_inj l.length l ds' ds r hn rfl h4 h1 h5 h2 h6 h3

/-- **C39.** The arrangement does not depend on what the elements are: equal elements are moved
like any others. -/
theorem C39_blind_to_elements {β : Type} (f : α → β) (l : List α) (ds : List Nat) :
    shuffle (l.map f) ds = (shuffle l ds).map (List.map f) := by
  unfold shuffle
  rw [List.length_map]
  exact shuffleLoop_map f l.length ds l

example : shuffle [10, 20, 30, 40] [1, 0, 1] = some [30, 40, 10, 20] := by decide

example : Valid 4 [1, 0, 1] := by simp [Valid]

/-! ## `sample` -/

/-- the positions taken, branch by branch -/
theorem sample_range (len n : Nat) (ds : List Nat) (hl : ds.length = min n len) (hv : Valid len ds) :
    sample (List.range len) (List.range len) n ds = some
      (if min n len ≤ 10 then (sortedScheme len).run [] ds else copyScheme.run (List.range len) ds) := by
  unfold sample
  simp only [List.length_range, Nat.lt_irrefl, false_and, if_false]
  have hsorted : pick (List.range len) (idxSorted [] ds) = some ((sortedScheme len).run [] ds) := by
    rw [idxSorted_eq len]
    apply pick_range
    intro i hi
    have := (Scheme.run_mem (sortedScheme len) ds [] ⟨List.Pairwise.nil, by simp⟩
      (by simpa [sortedScheme] using hv)).2 i hi
    exact this.1
  have hcopyv : Valid (copyScheme.left (List.range len)) ds := by
    simpa [copyScheme] using hv
  have hcopy := Scheme.run_mem copyScheme ds (List.range len) List.nodup_range hcopyv
  have hmin : min (min n len) len = min n len := by omega
  by_cases h10 : min n len ≤ 10
  · rw [if_pos h10, if_pos h10, hmin]
    rw [← hl] at h10 ⊢
    match ds, hsorted with
    | [], _ => rfl
    | [d], h => exact h
    | [d, d'], h => rw [← idx2_eq] at h; exact h
    | [d, d', d''], h => rw [← idx3_eq] at h; exact h
    | a :: b :: c :: d :: t, h =>
      have : (a :: b :: c :: d :: t).take (a :: b :: c :: d :: t).length = a :: b :: c :: d :: t :=
        List.take_length
      simp only [List.length_cons] at this ⊢
      rw [this]; exact h
  · rw [if_neg h10, if_neg h10]
    by_cases hm : min n len ≤ memoThreshold len / 2
    · rw [if_pos hm]
      have hmemo : idxMemo 0 (fun _ => none) (offsets 0 ds) = copyScheme.run (List.range len) ds := by
        apply idxMemo_run
        · intro k hk
          simp at hk
          simp [List.getD_eq_getElem?_getD, hk]
        · simpa using hv
      have hoff : ∀ (ds : List Nat) (i m : Nat), Valid m ds → ∀ x ∈ offsets i ds, x < i + m := by
        intro ds
        induction ds with
        | nil => intro i m _ x hx; simp [offsets] at hx
        | cons d ds ih =>
          rintro i m ⟨hd, hv⟩ x hx
          rcases List.mem_cons.1 hx with rfl | hx
          · omega
          · have := ih (i + 1) (m - 1) hv x hx; omega
      have hofflen : ∀ (ds : List Nat) (i : Nat), (offsets i ds).length = ds.length := by
        intro ds
        induction ds with
        | nil => intro i; rfl
        | cons d ds ih => intro i; simp [offsets, ih]
      have hfold : ∀ (l : List Nat) (m B : Nat), m < B → (∀ x ∈ l, x < B) → l.foldl max m < B := by
        intro l
        induction l with
        | nil => intro m B h _; exact h
        | cons a l ih =>
          intro m B h1 h2
          have := h2 a (by simp)
          exact ih (max m a) B (by omega) (fun x hx => h2 x (by simp [hx]))
      have hlt : (offsets 0 ds).foldl max 0 < len :=
        hfold _ _ _ (by omega) (fun x hx => by have := hoff ds 0 len hv x hx; omega)
      rw [if_neg (by omega), hmin, ← hl, ← hofflen ds 0, List.take_length, hmemo]
      apply pick_range
      intro i hi
      simpa [copyScheme] using hcopy.2 i hi
    · rw [if_neg hm]
      obtain ⟨tl, htl⟩ := copyLoop_run (min n len) ds [] (List.range len) hl (by simpa using hv)
        (by rw [List.length_range]; omega)
      simp only [List.length_nil, List.nil_append] at htl
      rw [htl]
      simp only [Option.some.injEq]
      have hrl : ∀ (ds : List Nat) (σ : List Nat), (copyScheme.run σ ds).length = ds.length := by
        intro ds
        induction ds with
        | nil => intro σ; rfl
        | cons d ds ih => intro σ; simp [Scheme.run, ih]
      rw [List.take_append_of_le_length (by rw [hrl, hl]; exact Nat.le_refl _), ← hl, ← hrl ds (List.range len),
        List.take_length]

theorem run_length {St : Type} (P : Scheme St) : ∀ (ds : List Nat) (σ : St),
    (P.run σ ds).length = ds.length := by
  intro ds
  induction ds with
  | nil => intro σ; rfl
  | cons d ds ih => intro σ; simp [Scheme.run, ih]

/-- **C40.** `sample(n)` takes `min(n, size)` elements at distinct positions. -/
theorem C40_sample_distinct_positions (a : List α) (n : Nat) (ds : List Nat)
    (hl : ds.length = min n a.length) (hv : Valid a.length ds) :
    ∃ r, sample a a n ds = some r ∧ ∃ ps : List Nat, ps.Nodup ∧ ps.length = min n a.length ∧
      (∀ p ∈ ps, p < a.length) ∧ r.map some = ps.map (a[·]?) := by
  have hr := sample_range a.length n ds hl hv
  set ps := (if min n a.length ≤ 10 then (sortedScheme a.length).run [] ds
    else copyScheme.run (List.range a.length) ds) with hps
  have hps1 : ps.Nodup ∧ (∀ p ∈ ps, p < a.length) ∧ ps.length = ds.length := by
    rw [hps]
    split
    · obtain ⟨h1, h2⟩ := Scheme.run_mem (sortedScheme a.length) ds [] ⟨List.Pairwise.nil, by simp⟩
        (by simpa [sortedScheme] using hv)
      exact ⟨h1, fun p hp => (h2 p hp).1, run_length _ _ _⟩
    · obtain ⟨h1, h2⟩ := Scheme.run_mem copyScheme ds (List.range a.length) List.nodup_range
        (by simpa [copyScheme] using hv)
      exact ⟨h1, fun p hp => by simpa [copyScheme] using h2 p hp, run_length _ _ _⟩
  have hmap : a.map some = (List.range a.length).map (a[·]?) := by
    apply List.ext_getElem
    · simp
    · intro i h1 h2
      simp at h1
      simp [h1]
  have h1 := sample_map some a n ds
  have h2 := sample_map (a[·]?) (List.range a.length) n ds
  rw [← hmap, hr, h1] at h2
  simp only [Option.map_some] at h2
  obtain ⟨r, hr1, hr2⟩ := Option.map_eq_some_iff.1 h2
  exact ⟨r, hr1, ps, hps1.1, by rw [hps1.2.2, hl], hps1.2.1, hr2⟩

/-- **C40.** No selection is favoured: every ordered selection of `min(n, size)` distinct positions
comes from exactly one sequence of draws.  This covers all the branches `sample` takes
according to `n` and the size. -/
theorem C40_every_selection_once (len n : Nat) (ps : List Nat) (hn : ps.Nodup)
    (hlen : ps.length = min n len) (hlt : ∀ p ∈ ps, p < len) :
    ∃! ds, (ds.length = min n len ∧ Valid len ds) ∧
      sample (List.range len) (List.range len) n ds = some ps := by
  by_cases h10 : min n len ≤ 10
  · have hinv : (sortedScheme len).inv [] := ⟨List.Pairwise.nil, by simp⟩
    have hleft : (sortedScheme len).left [] = len := by simp [sortedScheme]
    obtain ⟨ds, h1, h2, h3⟩ := Scheme.run_surj (sortedScheme len) ps [] hinv hn
      (fun x hx => ⟨hlt x hx, by simp⟩)
    rw [hleft] at h2
    refine ⟨ds, ⟨⟨h1.trans hlen, h2⟩, by rw [sample_range len n ds (h1.trans hlen) h2, if_pos h10, h3]⟩, ?_⟩
    rintro ds' ⟨⟨h4, h5⟩, h6⟩
    rw [sample_range len n ds' h4 h5, if_pos h10] at h6
    simp only [Option.some.injEq] at h6
    exact Scheme.run_inj (sortedScheme len) ds' ds [] hinv (by rw [hleft]; exact h5)
      (by rw [hleft]; exact h2) (h6.trans h3.symm)
  · have hinv : copyScheme.inv (List.range len) := List.nodup_range
    have hleft : copyScheme.left (List.range len) = len := by simp [copyScheme]
    obtain ⟨ds, h1, h2, h3⟩ := Scheme.run_surj copyScheme ps (List.range len) hinv hn
      (fun x hx => by simpa [copyScheme] using hlt x hx)
    rw [hleft] at h2
    refine ⟨ds, ⟨⟨h1.trans hlen, h2⟩, by rw [sample_range len n ds (h1.trans hlen) h2, if_neg h10, h3]⟩, ?_⟩
    rintro ds' ⟨⟨h4, h5⟩, h6⟩
    rw [sample_range len n ds' h4 h5, if_neg h10] at h6
    simp only [Option.some.injEq] at h6
    exact Scheme.run_inj copyScheme ds' ds (List.range len) hinv (by rw [hleft]; exact h5)
      (by rw [hleft]; exact h2) (h6.trans h3.symm)

/-- three of five -/
example : sample [10, 20, 30, 40, 50] [10, 20, 30, 40, 50] 3 [4, 1, 1] = some [50, 20, 30] := by
  decide
example : Valid 5 [4, 1, 1] := by simp [Valid]
/-- the branch with the sparse map: the last eleven of 3000 -/
example : ¬ min 11 3000 ≤ 10 ∧ min 11 3000 ≤ memoThreshold 3000 / 2 ∧
    ∃! ds, (ds.length = min 11 3000 ∧ Valid 3000 ds) ∧
      sample (List.range 3000) (List.range 3000) 11 ds = some (List.range' 2989 11) :=
  ⟨by decide, by decide, C40_every_selection_once 3000 11 _ List.nodup_range' (by simp)
    (by intro p hp; simp at hp; omega)⟩

/-- **C40, finding.** When a user-defined `rand` shortens the receiver during the draws, the check
that follows compares the raw draws with the new length, but the draws are lifted past one
another afterwards: five elements cut down to two, draws 0 and 1, and position 2 is read. -/
theorem C40_shrunk_receiver_panics :
    sample [10, 20, 30, 40, 50] [10, 20] 2 [0, 1] = none := by decide

end Verif.Sample
