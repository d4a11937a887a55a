import Verif.Args.Jit

/-! Helper lemmas: keyword arguments in compiled code. -/
namespace Verif.Args

/-- A call site whose keyword arguments are all literals with distinct names. -/
def litSite (args : List Val) (lits : List (Name × Val)) : CallSite :=
  { args, kw := lits.zipIdx.map (fun e => (e.1.1, e.2)), kwVals := lits.map (·.2) }

theorem kwInsert_fold : ∀ (l : List (Name × Val)) (k : Nat) (acc : List (Name × Nat)),
    ((acc.map (·.1)) ++ l.map (·.1)).Nodup →
    (l.zipIdx k).foldl (fun m e => kwInsert m e.1.1 e.2) acc = acc ++ (l.zipIdx k).map fun e => (e.1.1, e.2)
  | [], k, acc, _ => by simp
  | a :: l, k, acc, h => by
    rw [List.zipIdx_cons, List.foldl_cons, List.map_cons]
    have hn : kwInsert acc a.1 k = acc ++ [(a.1, k)] := by
      unfold kwInsert
      rw [if_neg]
      intro hc
      rw [List.any_eq_true] at hc
      obtain ⟨e, he, heq⟩ := hc
      rw [List.nodup_append] at h
      exact h.2.2 e.1 (List.mem_map_of_mem he) a.1 (by simp) (by simpa using heq)
    simp only [hn]
    rw [kwInsert_fold l (k + 1) (acc ++ [(a.1, k)]) (by simpa using h)]
    simp

theorem filterMap_lits (lits : List (Name × Val)) :
    litItems (lits.map fun e => KwItem.lit e.1 e.2) = lits ∧ splatItems (lits.map fun e => KwItem.lit e.1 e.2) = [] := by
  unfold litItems splatItems
  induction lits with
  | nil => exact ⟨rfl, rfl⟩
  | cons a l ih => simpa using ih

/-- Distinct literals keep their places. -/
theorem ofSource_litSite (args : List Val) (lits : List (Name × Val)) (h : (lits.map (·.1)).Nodup) :
    CallSite.ofSource args [] (lits.map fun e => KwItem.lit e.1 e.2) = litSite args lits := by
  have h1 : (CallSite.ofSource args [] (lits.map fun e => KwItem.lit e.1 e.2))
      = { args := args, splat := [],
          kw := ((litItems (lits.map fun e => KwItem.lit e.1 e.2)).zipIdx).foldl (fun m e => kwInsert m e.1.1 e.2) [],
          kwVals := (litItems (lits.map fun e => KwItem.lit e.1 e.2)).map (·.2),
          hs := splatItems (lits.map fun e => KwItem.lit e.1 e.2) } := rfl
  rw [h1, (filterMap_lits lits).1, (filterMap_lits lits).2, kwInsert_fold lits 0 [] (by simpa using h)]
  rfl

theorem litSite_kw_mem (args : List Val) (lits : List (Name × Val)) (n : Name) (i : Nat) :
    (n, i) ∈ (litSite args lits).kw ↔ ∃ v, lits[i]? = some (n, v) := by
  unfold litSite
  simp only [List.mem_map, List.mem_zipIdx_iff_getElem?, Prod.exists, Prod.mk.injEq]
  constructor
  · rintro ⟨a, b, c, h, rfl, rfl⟩; exact ⟨b, h⟩
  · rintro ⟨v, h⟩; exact ⟨n, v, i, h, rfl, rfl⟩

theorem litSite_ok (args : List Val) (lits : List (Name × Val)) (h : (lits.map (·.1)).Nodup) :
    LitOk (litSite args lits) lits := by
  constructor
  · unfold CallSite.kwPairs litSite
    simp only
    rw [mapM_ok _ (fun e => (e.1, (lits.map (·.2)).getD e.2 .nil))]
    · congr 1
      rw [List.map_map]
      apply List.ext_getElem?
      intro i
      rw [List.getElem?_map, List.getElem?_zipIdx]
      cases hi : lits[i]? with
      | none => rfl
      | some e => simp [hi]
    · intro e he
      have := (litSite_kw_mem args lits e.1 e.2).mp he
      obtain ⟨v, hv⟩ := this
      simp [List.getElem?_map, hv, List.getD_eq_getElem?_getD]
  · unfold litSite
    simp only [List.map_map]
    have : ((fun e : Name × Nat => e.1) ∘ fun e : (Name × Val) × Nat => (e.1.1, e.2)) = (fun e : Name × Val => e.1) ∘ Prod.fst := rfl
    rw [this, ← List.map_map, List.zipIdx_map_fst]
    exact h

theorem litSite_siteOk (W : World) (args : List Val) (lits : List (Name × Val)) (h : (lits.map (·.1)).Nodup) :
    SiteOk W (litSite args lits) lits [] := ⟨litSite_ok args lits h, ⟨[], rfl, rfl⟩, by simp⟩

theorem nodup_idx (lits : List (Name × Val)) (h : (lits.map (·.1)).Nodup) {i j : Nat} {n : Name} {v w : Val}
    (hi : lits[i]? = some (n, v)) (hj : lits[j]? = some (n, w)) : i = j := by
  rw [List.nodup_iff_injective_getElem] at h
  have li := (List.getElem?_eq_some_iff.mp hi).1
  have lj := (List.getElem?_eq_some_iff.mp hj).1
  have := @h ⟨i, by simpa using li⟩ ⟨j, by simpa using lj⟩ (by
    simp only [List.getElem_map]
    rw [(List.getElem?_eq_some_iff.mp hi).2, (List.getElem?_eq_some_iff.mp hj).2])
  simpa using this

theorem used_mem (p : Params) (args : List Val) (lits : List (Name × Val)) (h : (lits.map (·.1)).Nodup) (i : Nat)
    (n : Name) (v : Val) (hi : lits[i]? = some (n, v)) :
    (p.kwNames.filterMap fun n => ((litSite args lits).kw.find? fun e => e.1 == n).map (·.2)).contains i
      = p.kwNames.contains n := by
  rw [Bool.eq_iff_iff, List.contains_iff_mem, List.contains_iff_mem, List.mem_filterMap]
  constructor
  · rintro ⟨m, hm, hf⟩
    rw [Option.map_eq_some_iff] at hf
    obtain ⟨⟨a, b⟩, hf, rfl⟩ := hf
    have ha := List.find?_some hf
    simp only [beq_iff_eq] at ha
    subst ha
    obtain ⟨w, hw⟩ := (litSite_kw_mem args lits a b).mp (List.mem_of_find?_eq_some hf)
    simp only at hi
    rw [hi] at hw
    cases hw
    exact hm
  · intro hm
    refine ⟨n, hm, ?_⟩
    cases hf : (litSite args lits).kw.find? fun e => e.1 == n with
    | none =>
      rw [List.find?_eq_none] at hf
      exact absurd (by simp) (hf (n, i) ((litSite_kw_mem args lits n i).mpr ⟨v, hi⟩))
    | some e =>
      have ha := List.find?_some hf
      simp only [beq_iff_eq] at ha
      obtain ⟨w, hw⟩ := (litSite_kw_mem args lits e.1 e.2).mp (List.mem_of_find?_eq_some hf)
      rw [ha] at hw
      rw [Option.map_some, nodup_idx lits h hw hi]

/-- The keyword half of compiled code. -/
theorem jitKeyword_eq (p : Params) (args : List Val) (lits : List (Name × Val)) (f : Frame)
    (h : (lits.map (·.1)).Nodup) :
    jitKeyword p (litSite args lits) f = .ok (kwFrame p f (symPairs lits) (!(undeclared p (symPairs lits)).isEmpty)) := by
  have hl := litSite_ok args lits h
  have hlen : (litSite args lits).kw.length = lits.length := by unfold litSite; simp
  have hleft : (((List.range (litSite args lits).kw.length).filter fun i => !(p.kwNames.filterMap fun n =>
        ((litSite args lits).kw.find? fun e => e.1 == n).map (·.2)).contains i).mapM (kwLeft (litSite args lits))) = .ok (undeclared p (symPairs lits)) := by
    rw [mapM_ok _ (fun i => (Key.sym (lits.getD i (0, .nil)).1, (lits.getD i (0, .nil)).2))]
    · congr 1
      have hr : lits = (List.range lits.length).map fun i => lits.getD i (0, .nil) := by
        apply List.ext_getElem?
        intro i
        rw [List.getElem?_map]
        by_cases hi : i < lits.length
        · rw [List.getElem?_range hi, List.getElem?_eq_getElem hi]
          simp [List.getD_eq_getElem?_getD, List.getElem?_eq_getElem hi]
        · rw [List.getElem?_eq_none (by omega), List.getElem?_eq_none (by simp; omega)]; rfl
      have hu : undeclared p (symPairs lits)
          = ((List.range lits.length).filter fun i => !p.kwNames.contains (lits.getD i (0, .nil)).1).map
              fun i => (Key.sym (lits.getD i (0, .nil)).1, (lits.getD i (0, .nil)).2) := by
        conv => lhs; rw [hr]
        unfold undeclared symPairs
        rw [List.map_map, List.filter_map]
        rfl
      rw [hu, hlen]
      congr 1
      apply List.filter_congr
      intro i hi
      rw [List.mem_range] at hi
      have he : lits[i]? = some ((lits.getD i (0, .nil)).1, (lits.getD i (0, .nil)).2) := by
        simp [List.getD_eq_getElem?_getD, List.getElem?_eq_getElem hi]
      rw [used_mem p args lits h i _ _ he]
    · intro i hi
      rw [List.mem_filter, List.mem_range, hlen] at hi
      have e1 : (litSite args lits).kw[i]? = some ((lits.getD i (0, .nil)).1, i) := by
        unfold litSite
        simp [List.getD_eq_getElem?_getD, List.getElem?_eq_getElem hi.1]
      have e2 : (litSite args lits).kwVals[i]? = some (lits.getD i (0, .nil)).2 := by
        unfold litSite
        simp [List.getD_eq_getElem?_getD, List.getElem?_eq_getElem hi.1]
      unfold kwLeft
      rw [e1]
      simp only [if_true, e2]
  unfold jitKeyword
  rw [mapM_ok (litSite args lits).kwGet (fun n => mapGet (symPairs lits) (.sym n)) p.kwNames (fun n _ => hl.get n)]
  simp only [bind, Except.bind, pure, Except.pure]
  rw [hleft]
  simp only
  rw [storeRun_kw p f fun n => mapGet (symPairs lits) (.sym n)]
  have hlast : ∀ n, lastVal (symPairs lits) (.sym n) = mapGet (symPairs lits) (.sym n) :=
    fun n => lastVal_of_nodup hl.keys _
  unfold kwFrame
  simp only [hlast]
  cases hk : p.kwRest with
  | false => rfl
  | true =>
    simp only [if_true]
    cases (undeclared p (symPairs lits)).isEmpty <;> rfl

end Verif.Args
