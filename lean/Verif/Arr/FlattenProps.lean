import Verif.Arr.Flatten
import Mathlib.Data.List.Perm.Subperm

/-!
# C105: `flatten`
-/

namespace Verif.Arr

variable {α : Type}

/-- The elements with the arrays among them replaced by their elements, `n` times over. -/
def expand (h : List (List (Elem α))) : Nat → List (Elem α) → List (Elem α)
  | 0, l => l
  | n + 1, l => l.flatMap fun
    | .atom x => [.atom x]
    | .ref j => expand h n (h.getD j [])

/-- No arrays are left. -/
def Flat (l : List (Elem α)) : Prop := ∀ j, .ref j ∉ l

/-- All arrays are there. -/
def Closed (h : List (List (Elem α))) : Prop := ∀ l ∈ h, ∀ j, .ref j ∈ l → j < h.length

theorem expand_mono (h : List (List (Elem α))) (n : Nat) : ∀ l, Flat (expand h n l) → expand h (n + 1) l = expand h n l := by
  induction n with
  | zero =>
    intro l hl
    simp only [expand] at *
    induction l with
    | nil => rfl
    | cons e l ih =>
      cases e with
      | atom x => simp only [List.flatMap_cons]; rw [ih (fun j hj => hl j (by simp [hj]))]; rfl
      | ref j => exact absurd (List.mem_cons_self) (hl j)
  | succ n ih =>
    intro l hl
    rw [expand]
    conv => rhs; rw [expand]
    rw [expand] at hl
    induction l with
    | nil => rfl
    | cons e l ihl =>
      simp only [List.flatMap_cons] at hl ⊢
      rw [ihl (fun j hj => hl j (List.mem_append_right _ hj))]
      congr 1
      cases e with
      | atom x => rfl
      | ref j => exact ih _ (fun k hk => hl k (List.mem_append_left _ hk))

theorem flat_mono (h : List (List (Elem α))) (n : Nat) (l : List (Elem α)) (hl : Flat (expand h n l)) (m : Nat)
    (hm : n ≤ m) : expand h m l = expand h n l := by
  induction m with
  | zero => rw [show n = 0 by omega]
  | succ m ih =>
    rcases Nat.lt_or_ge m n with h1 | h1
    · rw [show n = m + 1 by omega]
    · rw [expand_mono h m l (by rw [ih h1]; exact hl), ih h1]

theorem flatList_ok (step : Nat → FRes α) (g : Nat → List (Elem α)) (l : List (Elem α))
    (hs : ∀ j, .ref j ∈ l → step j = .ok (g j)) :
    flatList step l = .ok (l.flatMap fun | .atom x => [.atom x] | .ref j => g j) := by
  induction l with
  | nil => rfl
  | cons e l ih =>
    have ih := ih (fun j hj => hs j (by simp [hj]))
    cases e with
    | atom x => simp [flatList, ih]
    | ref j => simp [flatList, ih, hs j (by simp)]

/-- An array without recursion, to any level. -/
theorem inner_acyclic (h : List (List (Elem α))) (n : Nat) : ∀ (fuel : Nat) (lv : Option Nat) (seen : List Nat) (id : Nat),
    n < fuel → Flat (expand h n (h.getD id [])) → (∀ s ∈ seen, ¬ Flat (expand h n (h.getD s []))) →
    flattenInner h fuel lv seen id = .ok (expand h (lv.getD n) (h.getD id [])) := by
  induction n with
  | zero =>
    intro fuel lv seen id hfu hfl hs
    cases fuel with
    | zero => omega
    | succ fuel =>
      rw [flattenInner, if_neg (fun hm => hs id hm hfl)]
      have e : expand h (lv.getD 0) (h.getD id []) = h.getD id [] := by
        rw [flat_mono h 0 _ hfl _ (Nat.zero_le _)]; rfl
      rw [e]
      split
      · rfl
      · rw [flatList_ok _ (fun _ => []) (h.getD id []) (fun j hj => absurd hj (hfl j))]
        have := expand_mono h 0 _ hfl
        simp only [expand] at this
        congr 1
        refine Eq.trans ?_ this
        apply List.flatMap_congr
        intro e he
        cases e with
        | atom x => rfl
        | ref j => exact absurd he (hfl j)
  | succ n ih =>
    intro fuel lv seen id hfu hfl hs
    by_cases hn : Flat (expand h n (h.getD id []))
    · rw [ih fuel lv seen id (by omega) hn (fun s hm hf => hs s hm (by rw [expand_mono h n _ hf]; exact hf))]
      cases lv with
      | none => simp only [Option.getD_none]; rw [expand_mono h n _ hn]
      | some k => rfl
    · cases fuel with
      | zero => omega
      | succ fuel =>
        rw [flattenInner, if_neg (fun hm => hs id hm hfl)]
        by_cases hz : lv = some 0
        · rw [if_pos hz, hz]; rfl
        rw [if_neg hz]
        have hchild : ∀ j, .ref j ∈ h.getD id [] → Flat (expand h n (h.getD j [])) := by
          intro j hj k hk
          refine hfl k ?_
          rw [expand]
          exact List.mem_flatMap.2 ⟨.ref j, hj, hk⟩
        rw [flatList_ok _ (fun j => expand h ((lv.map (· - 1)).getD n) (h.getD j []))]
        · congr 1
          cases lv with
          | none => simp only [Option.map_none, Option.getD_none]; rw [expand]
          | some k =>
            cases k with
            | zero => exact absurd rfl hz
            | succ k => simp only [Option.map_some, Option.getD_some, Nat.add_sub_cancel]; rw [expand]
        · intro j hj
          refine ih fuel _ _ j (by omega) (hchild j hj) ?_
          intro s hm
          rcases List.mem_cons.1 hm with rfl | hm
          · exact hn
          · exact fun hf => hs s hm (by rw [expand_mono h n _ hf]; exact hf)

theorem flatList_sound (step : Nat → FRes α) (l out : List (Elem α)) (hs : flatList step l = .ok out) :
    ∃ g : Nat → List (Elem α), (∀ j, .ref j ∈ l → step j = .ok (g j)) ∧
      out = l.flatMap fun | .atom x => [.atom x] | .ref j => g j := by
  refine ⟨fun j => match step j with | .ok l => l | _ => [], ?_, ?_⟩
  · induction l generalizing out with
    | nil => simp
    | cons e l ih =>
      intro j hj
      cases e with
      | atom x =>
        simp only [flatList] at hs
        cases hl : flatList step l with
        | ok o => exact ih o hl j (by simpa using hj)
        | recursive => simp [hl] at hs
        | stuck => simp [hl] at hs
      | ref k =>
        simp only [flatList] at hs
        cases hk : step k with
        | recursive => simp [hk] at hs
        | stuck => simp [hk] at hs
        | ok lk =>
          simp only [hk] at hs
          cases hl : flatList step l with
          | recursive => simp [hl] at hs
          | stuck => simp [hl] at hs
          | ok o =>
            rcases List.mem_cons.1 hj with hj | hj
            · simp only [Elem.ref.injEq] at hj
              subst hj; simp [hk]
            · exact ih o hl j hj
  · induction l generalizing out with
    | nil => simp only [flatList, FRes.ok.injEq] at hs; simp [← hs]
    | cons e l ih =>
      cases e with
      | atom x =>
        simp only [flatList] at hs
        cases hl : flatList step l with
        | ok o =>
          simp only [hl, FRes.ok.injEq] at hs
          rw [← hs, ih o hl]; rfl
        | recursive => simp [hl] at hs
        | stuck => simp [hl] at hs
      | ref k =>
        simp only [flatList] at hs
        cases hk : step k with
        | recursive => simp [hk] at hs
        | stuck => simp [hk] at hs
        | ok lk =>
          simp only [hk] at hs
          cases hl : flatList step l with
          | recursive => simp [hl] at hs
          | stuck => simp [hl] at hs
          | ok o =>
            simp only [hl, FRes.ok.injEq] at hs
            rw [← hs, ih o hl]
            simp [hk]

theorem flatList_not_stuck (step : Nat → FRes α) (l : List (Elem α)) (hs : ∀ j, .ref j ∈ l → step j ≠ .stuck) :
    flatList step l ≠ .stuck := by
  induction l with
  | nil => simp [flatList]
  | cons e l ih =>
    have ih := ih (fun j hj => hs j (by simp [hj]))
    cases e with
    | atom x =>
      rw [flatList]
      split
      · simp
      · exact ih
    | ref k =>
      have hk := hs k (by simp)
      rw [flatList]
      split
      · split
        · simp
        · exact ih
      · exact hk

theorem inner_not_stuck (h : List (List (Elem α))) (hc : Closed h) (fuel : Nat) : ∀ lv seen id, seen.Nodup →
    (∀ s ∈ seen, s < h.length) → id < h.length → h.length + 1 ≤ fuel + seen.length →
    flattenInner h fuel lv seen id ≠ .stuck := by
  induction fuel with
  | zero =>
    intro lv seen id hn hs _ hf
    have hsub : seen ⊆ List.range h.length := fun i hi => List.mem_range.2 (hs i hi)
    have := (hn.subperm hsub).length_le
    simp only [List.length_range] at this
    omega
  | succ fuel ih =>
    intro lv seen id hn hs hid hf
    rw [flattenInner]
    split
    · simp
    · rename_i hm
      split
      · simp
      · refine flatList_not_stuck _ _ ?_
        intro j hj
        refine ih _ _ j (List.nodup_cons.2 ⟨hm, hn⟩) ?_ ?_ (by simp; omega)
        · intro s hs'
          rcases List.mem_cons.1 hs' with rfl | hs'
          · exact hid
          · exact hs s hs'
        · have he : h.getD id [] = h[id] := by simp [List.getElem?_eq_getElem hid]
          rw [he] at hj
          exact hc _ (List.getElem_mem hid) j hj

theorem inner_ok_level (h : List (List (Elem α))) (fuel : Nat) : ∀ (k : Nat) seen id out,
    flattenInner h fuel (some k) seen id = .ok out → out = expand h k (h.getD id []) := by
  induction fuel with
  | zero => intro k seen id out ho; simp [flattenInner] at ho
  | succ fuel ih =>
    intro k seen id out ho
    rw [flattenInner] at ho
    split at ho
    · simp at ho
    · split at ho
      · rename_i hz
        simp only [Option.some.injEq] at hz
        subst hz
        simp only [FRes.ok.injEq] at ho
        rw [← ho]; rfl
      · rename_i hz
        cases k with
        | zero => exact absurd rfl hz
        | succ k =>
          obtain ⟨g, h1, h2⟩ := flatList_sound _ _ _ ho
          rw [h2, expand]
          apply List.flatMap_congr
          intro e he
          cases e with
          | atom x => rfl
          | ref j => exact ih k _ j _ (h1 j he)

theorem inner_ok_all (h : List (List (Elem α))) (fuel : Nat) : ∀ seen id out,
    flattenInner h fuel none seen id = .ok out → Flat (expand h fuel (h.getD id [])) := by
  induction fuel with
  | zero => intro seen id out ho; simp [flattenInner] at ho
  | succ fuel ih =>
    intro seen id out ho
    rw [flattenInner] at ho
    split at ho
    · simp at ho
    · rw [if_neg (by simp)] at ho
      obtain ⟨g, h1, h2⟩ := flatList_sound _ _ _ ho
      intro k hk
      rw [expand] at hk
      obtain ⟨e, he, hke⟩ := List.mem_flatMap.1 hk
      cases e with
      | atom x => simp at hke
      | ref j => exact ih _ j _ (h1 j he) k hke

theorem height_le (h : List (List (Elem α))) (hc : Closed h) (id n : Nat) (hid : id < h.length)
    (hf : Flat (expand h n (h.getD id []))) : Flat (expand h h.length (h.getD id [])) := by
  -- a deeper array would not be flat after as many rounds as there are arrays: run the model with enough fuel
  have hns := inner_not_stuck h hc (h.length + 1) none [] id (by simp) (by simp) hid (by simp)
  have hok := inner_acyclic h n (max (n + 1) (h.length + 1)) none [] id (by omega) hf (by simp)
  -- more fuel does not change what is not stuck
  have more : ∀ fuel lv seen id, flattenInner h fuel lv seen id ≠ .stuck →
      flattenInner h (fuel + 1) lv seen id = flattenInner h fuel lv seen id := by
    intro fuel
    induction fuel with
    | zero => intro lv seen id hs; exact absurd rfl hs
    | succ fuel ihf =>
      intro lv seen id hs
      rw [flattenInner] at hs
      rw [flattenInner]
      conv => rhs; rw [flattenInner]
      split
      · rfl
      · rename_i hm
        rw [if_neg hm] at hs
        split
        · rfl
        · rename_i hz
          rw [if_neg hz] at hs
          generalize h.getD id [] = l at hs
          induction l with
          | nil => rfl
          | cons e l ihl =>
            cases e with
            | atom x =>
              simp only [flatList] at hs ⊢
              rw [ihl (by intro hl; rw [hl] at hs; simp at hs)]
            | ref j =>
              simp only [flatList] at hs ⊢
              have hj : flattenInner h fuel (lv.map (· - 1)) (id :: seen) j ≠ .stuck := by
                intro hj; rw [hj] at hs; simp at hs
              rw [ihf _ _ _ hj]
              cases hr : flattenInner h fuel (lv.map (· - 1)) (id :: seen) j with
              | stuck => exact absurd hr hj
              | recursive => rfl
              | ok lj =>
                simp only
                rw [hr] at hs
                simp only at hs
                rw [ihl (by intro hl; rw [hl] at hs; simp at hs)]
  have more' : ∀ d, flattenInner h (h.length + 1 + d) none [] id = flattenInner h (h.length + 1) none [] id := by
    intro d
    induction d with
    | zero => rfl
    | succ d ihd =>
      rw [← Nat.add_assoc, more _ _ _ _ (by rw [ihd]; exact hns), ihd]
  have he := more' (max (n + 1) (h.length + 1) - (h.length + 1))
  rw [show h.length + 1 + (max (n + 1) (h.length + 1) - (h.length + 1)) = max (n + 1) (h.length + 1) by omega, hok] at he
  -- so the run with less fuel is fine, and its depth is at most the number of arrays
  have deep : ∀ fuel seen id out, flattenInner h (fuel + 1) none seen id = .ok out → Flat (expand h fuel (h.getD id [])) := by
    intro fuel
    induction fuel with
    | zero =>
      intro seen id out ho
      rw [flattenInner] at ho
      split at ho
      · simp at ho
      · rw [if_neg (by simp)] at ho
        obtain ⟨g, h1, -⟩ := flatList_sound _ _ _ ho
        intro k hk
        have := h1 k hk
        simp [flattenInner] at this
    | succ fuel ihf =>
      intro seen id out ho
      rw [flattenInner] at ho
      split at ho
      · simp at ho
      · rw [if_neg (by simp)] at ho
        obtain ⟨g, h1, h2⟩ := flatList_sound _ _ _ ho
        intro k hk
        rw [expand] at hk
        obtain ⟨e, he, hke⟩ := List.mem_flatMap.1 hk
        cases e with
        | atom x => simp at hke
        | ref j => exact ihf _ j _ (h1 j he) k hke
  exact deep h.length [] id _ he.symm

/-- `flatten` replaces arrays by their elements until none is left, in order, shared arrays at each place; it raises
ArgumentError exactly when that would never end. -/
theorem C105_flatten (h : List (List (Elem α))) (hc : Closed h) (id : Nat) (hid : id < h.length) :
    (∀ out, flatten h none id = .ok out ↔ ∃ n, out = expand h n (h.getD id []) ∧ Flat out) ∧
    (flatten h none id = .recursive ↔ ∀ n, ¬ Flat (expand h n (h.getD id []))) := by
  have key : ∀ n, Flat (expand h n (h.getD id [])) → flatten h none id = .ok (expand h n (h.getD id [])) := by
    intro n hf
    have h1 := height_le h hc id n hid hf
    rw [flatten, inner_acyclic h h.length _ none [] id (by omega) h1 (by simp)]
    simp only [Option.getD_none]
    congr 1
    rcases Nat.le_total n h.length with h2 | h2
    · exact flat_mono h n _ hf _ h2
    · exact (flat_mono h _ _ h1 _ h2).symm
  have hns := inner_not_stuck h hc (h.length + 1) none [] id (by simp) (by simp) hid (by simp)
  have hok : ∀ out, flatten h none id = .ok out → ∃ n, out = expand h n (h.getD id []) ∧ Flat out := by
    intro out ho
    have := inner_ok_all h _ [] id out ho
    have h2 := key _ this
    rw [ho] at h2
    simp only [FRes.ok.injEq] at h2
    exact ⟨_, h2, h2 ▸ this⟩
  constructor
  · intro out
    refine ⟨hok out, ?_⟩
    rintro ⟨n, rfl, hf⟩
    exact key n hf
  · constructor
    · intro hr n hf
      rw [key n hf] at hr
      simp at hr
    · intro hn
      cases hr : flatten h none id with
      | recursive => rfl
      | stuck => exact absurd hr hns
      | ok out =>
        obtain ⟨n, h1, h2⟩ := hok out hr
        exact absurd (h1 ▸ h2) (hn n)

/-- `flatten(level)`: with an array that does not contain itself, `level` rounds. -/
theorem C105_flatten_level_partial (h : List (List (Elem α))) (hc : Closed h) (id : Nat) (hid : id < h.length) (k : Nat)
    (hf : ∃ n, Flat (expand h n (h.getD id []))) : flatten h (some k) id = .ok (expand h k (h.getD id [])) := by
  obtain ⟨n, hf⟩ := hf
  have h1 := height_le h hc id n hid hf
  rw [flatten, inner_acyclic h h.length _ (some k) [] id (by omega) h1 (by simp)]
  rfl

/-- In any case what comes out is right. -/
theorem C105_flatten_level_sound (h : List (List (Elem α))) (id k : Nat) (out : List (Elem α))
    (ho : flatten h (some k) id = .ok out) : out = expand h k (h.getD id []) :=
  inner_ok_level h _ k [] id out ho

/-- But with one that does it raises, although the rounds would end: `a = [1]; a << a; a.flatten(1)`. -/
theorem C105_flatten_level_fails :
    flatten [[Elem.atom 1, .ref 0]] (some 1) 0 = .recursive ∧
    expand [[Elem.atom 1, .ref 0]] 1 [.atom 1, .ref 0] = [.atom 1, .atom 1, .ref 0] := by decide

example : Closed [[Elem.atom 1, .ref 1, .ref 1], [.atom 2, .ref 2], [.atom 3]] ∧
    flatten [[Elem.atom 1, .ref 1, .ref 1], [.atom 2, .ref 2], [.atom 3]] none 0 =
      .ok [.atom 1, .atom 2, .atom 3, .atom 2, .atom 3] := by
  refine ⟨?_, by decide⟩
  intro l hl j hj
  simp at hl
  rcases hl with rfl | rfl | rfl <;> simp at hj <;> simp <;> omega
example : flatten [[Elem.atom 1, .ref 1], [.ref 0]] none 0 = .recursive := by decide

end Verif.Arr
