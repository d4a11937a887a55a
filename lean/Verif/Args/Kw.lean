import Verif.Args.Pos
import Mathlib.Data.List.Nodup
import Mathlib.Data.List.Perm.Basic
import Mathlib.Data.List.Induction

/-! Helper lemmas: what the keyword half of the binders leaves in the keyword slots. -/
namespace Verif.Args

/-! ### Maps -/

/-- The value the last entry for `k` in a list of pairs gives. -/
def lastVal (es : List (Key × Val)) (k : Key) : Option Val := mapGet es.reverse k

theorem mapGet_nil (k : Key) : mapGet [] k = none := rfl

theorem mapGet_cons (a : Key × Val) (m : List (Key × Val)) (k : Key) :
    mapGet (a :: m) k = if a.1 = k then some a.2 else mapGet m k := by
  unfold mapGet
  by_cases h : a.1 = k
  · simp [h]
  · simp [h]

theorem mapGet_append (m m' : List (Key × Val)) (k : Key) :
    mapGet (m ++ m') k = (mapGet m k).or (mapGet m' k) := by
  induction m with
  | nil => simp [mapGet_nil]
  | cons a m ih =>
    rw [List.cons_append, mapGet_cons, mapGet_cons]
    split_ifs
    · rfl
    · exact ih

theorem mapGet_eq_none {m : List (Key × Val)} {k : Key} : mapGet m k = none ↔ ∀ e ∈ m, e.1 ≠ k := by
  induction m with
  | nil => simp [mapGet_nil]
  | cons a m ih =>
    rw [mapGet_cons]
    by_cases h : a.1 = k
    · simp [h]
    · simp [h, ih]

theorem lastVal_eq_none {es : List (Key × Val)} {k : Key} : lastVal es k = none ↔ ∀ e ∈ es, e.1 ≠ k := by
  unfold lastVal; rw [mapGet_eq_none]; simp

theorem lastVal_nil (k : Key) : lastVal [] k = none := rfl

theorem lastVal_append (a b : List (Key × Val)) (k : Key) :
    lastVal (a ++ b) k = (lastVal b k).or (lastVal a k) := by
  unfold lastVal; rw [List.reverse_append, mapGet_append]

theorem lastVal_cons (e : Key × Val) (es : List (Key × Val)) (k : Key) :
    lastVal (e :: es) k = (lastVal es k).or (if e.1 = k then some e.2 else none) := by
  have : e :: es = [e] ++ es := rfl
  rw [this, lastVal_append]
  congr 1
  unfold lastVal
  simp only [List.reverse_singleton, mapGet_cons, mapGet_nil]

theorem mapGet_mapInsert (m : List (Key × Val)) (k k' : Key) (v : Val) :
    mapGet (mapInsert m k v) k' = if k = k' then some v else mapGet m k' := by
  unfold mapInsert
  split_ifs with h1 h2 h2
  · subst h2
    induction m with
    | nil => simp at h1
    | cons a m ih =>
      rw [List.map_cons, mapGet_cons]
      by_cases ha : a.1 = k
      · simp [ha]
      · have hf : (a.1 == k) = false := by simpa using ha
        rw [hf]
        simp only [Bool.false_eq_true, if_false, ha]
        refine ih ?_
        rw [List.any_cons, hf, Bool.false_or] at h1
        exact h1
  · clear h1
    induction m with
    | nil => rfl
    | cons a m ih =>
      rw [List.map_cons, mapGet_cons, mapGet_cons, ih]
      by_cases ha : a.1 = k
      · simp [ha, h2]
      · simp [ha]
  · subst h2
    rw [mapGet_append]
    have : mapGet m k = none := by
      rw [mapGet_eq_none]; intro e he hek
      exact h1 (List.any_eq_true.mpr ⟨e, he, by simpa using hek⟩)
    rw [this]; simp [mapGet_cons]
  · rw [mapGet_append, mapGet_cons, if_neg h2, mapGet_nil]
    simp

theorem mapGet_insertAll (es : List (Key × Val)) : ∀ (m : List (Key × Val)) (k : Key),
    mapGet (mapInsertAll m es) k = (lastVal es k).or (mapGet m k) := by
  induction es with
  | nil => intro m k; simp [mapInsertAll, lastVal_nil]
  | cons e es ih =>
    intro m k
    have : mapInsertAll m (e :: es) = mapInsertAll (mapInsert m e.1 e.2) es := rfl
    rw [this, ih, mapGet_mapInsert, lastVal_cons]
    split_ifs <;> cases lastVal es k <;> simp

/-- Keys are distinct. -/
def NodupKeys (m : List (Key × Val)) : Prop := (m.map (·.1)).Nodup

theorem mapInsert_keys (m : List (Key × Val)) (k : Key) (v : Val) :
    (mapInsert m k v).map (·.1) = if k ∈ m.map (·.1) then m.map (·.1) else m.map (·.1) ++ [k] := by
  unfold mapInsert
  have hc : (m.any fun e => e.1 == k) = true ↔ k ∈ m.map (·.1) := by
    simp
  by_cases h : k ∈ m.map (·.1)
  · rw [if_pos (hc.mpr h), if_pos h, List.map_map]
    apply List.map_congr_left
    intro e _
    simp only [Function.comp]
    split_ifs with h'
    · exact (by simpa using h' : e.1 = k).symm
    · rfl
  · rw [if_neg (fun h' => h (hc.mp h')), if_neg h]; simp

theorem NodupKeys.insert {m : List (Key × Val)} (h : NodupKeys m) (k : Key) (v : Val) :
    NodupKeys (mapInsert m k v) := by
  unfold NodupKeys at *
  rw [mapInsert_keys]
  split_ifs with hk
  · exact h
  · exact List.nodup_append.mpr ⟨h, by simp, by
      intro a ha b hb; simp only [List.mem_singleton] at hb; subst hb
      intro hab; subst hab; exact hk ha⟩

theorem NodupKeys.insertAll : ∀ (es : List (Key × Val)) {m : List (Key × Val)}, NodupKeys m →
    NodupKeys (mapInsertAll m es)
  | [], _, h => h
  | e :: es, _, h => NodupKeys.insertAll es (h.insert e.1 e.2)

theorem nodupKeys_nil : NodupKeys [] := List.nodup_nil

/-- With distinct keys the first and the last entry for a key are the same. -/
theorem lastVal_of_nodup {m : List (Key × Val)} (h : NodupKeys m) (k : Key) : lastVal m k = mapGet m k := by
  induction m with
  | nil => rfl
  | cons a m ih =>
    have h' : a.1 ∉ m.map (·.1) ∧ NodupKeys m := by
      unfold NodupKeys at h; rw [List.map_cons, List.nodup_cons] at h; exact h
    rw [lastVal_cons, mapGet_cons, ih h'.2]
    split_ifs with ha
    · have : mapGet m k = none := by
        rw [mapGet_eq_none]; intro e he hk
        exact h'.1 (by rw [ha, ← hk]; exact List.mem_map_of_mem he)
      rw [this]; rfl
    · simp

/-- Two maps with the same keys in the same order and the same values are equal. -/
theorem map_ext {m m' : List (Key × Val)} (hk : m.map (·.1) = m'.map (·.1)) (hn : NodupKeys m)
    (hg : ∀ k, mapGet m k = mapGet m' k) : m = m' := by
  induction m generalizing m' with
  | nil => cases m' with
    | nil => rfl
    | cons _ _ => simp at hk
  | cons a m ih =>
    cases m' with
    | nil => simp at hk
    | cons b m' =>
      rw [List.map_cons, List.map_cons, List.cons.injEq] at hk
      have hn' : a.1 ∉ m.map (·.1) ∧ NodupKeys m := by
        unfold NodupKeys at hn; rw [List.map_cons, List.nodup_cons] at hn; exact hn
      have h0 := hg a.1
      rw [mapGet_cons, mapGet_cons, if_pos rfl, if_pos hk.1.symm] at h0
      have hab : a = b := Prod.ext hk.1 (Option.some.inj h0)
      rw [hab]
      congr 1
      apply ih hk.2 hn'.2
      intro k
      have := hg k
      rw [mapGet_cons, mapGet_cons, hab] at this
      by_cases hbk : b.1 = k
      · have e1 : mapGet m k = none := by
          rw [mapGet_eq_none]; intro e he hke
          apply hn'.1; rw [hab, hbk, ← hke]; exact List.mem_map_of_mem he
        have e2 : mapGet m' k = none := by
          rw [mapGet_eq_none]; intro e he hke
          apply hn'.1; rw [hk.2, hab, hbk, ← hke]; exact List.mem_map_of_mem he
        rw [e1, e2]
      · simpa [hbk] using this

theorem insertAll_keys : ∀ (es m : List (Key × Val)),
    (mapInsertAll m es).map (·.1) = es.foldl (fun ks e => if e.1 ∈ ks then ks else ks ++ [e.1]) (m.map (·.1))
  | [], _ => rfl
  | e :: es, m => by
    show (mapInsertAll (mapInsert m e.1 e.2) es).map (·.1) = _
    rw [insertAll_keys es, mapInsert_keys]; rfl

theorem mapInsertAll_append (m a b : List (Key × Val)) :
    mapInsertAll m (a ++ b) = mapInsertAll (mapInsertAll m a) b := by
  unfold mapInsertAll; rw [List.foldl_append]

/-- Removing keys commutes with building a map. -/
theorem insertAll_filter_keys (q : Key → Bool) : ∀ (es : List (Key × Val)) (ks : List Key),
    (es.filter fun e => q e.1).foldl (fun ks e => if e.1 ∈ ks then ks else ks ++ [e.1]) (ks.filter q)
      = (es.foldl (fun ks e => if e.1 ∈ ks then ks else ks ++ [e.1]) ks).filter q
  | [], _ => rfl
  | e :: es, ks => by
    rw [List.filter_cons, List.foldl_cons]
    by_cases hq : q e.1 = true
    · rw [if_pos hq, List.foldl_cons]
      have := insertAll_filter_keys q es (if e.1 ∈ ks then ks else ks ++ [e.1])
      rw [← this]
      congr 1
      by_cases hm : e.1 ∈ ks
      · rw [if_pos hm, if_pos (List.mem_filter.mpr ⟨hm, hq⟩)]
      · rw [if_neg hm, if_neg (fun h => hm (List.mem_filter.mp h).1), List.filter_append]
        simp [hq]
    · rw [if_neg hq]
      have := insertAll_filter_keys q es (if e.1 ∈ ks then ks else ks ++ [e.1])
      rw [← this]
      congr 1
      by_cases hm : e.1 ∈ ks
      · rw [if_pos hm]
      · rw [if_neg hm, List.filter_append]
        simp [hq]

theorem mapGet_filter (q : Key → Bool) (m : List (Key × Val)) (k : Key) :
    mapGet (m.filter fun e => q e.1) k = if q k then mapGet m k else none := by
  induction m with
  | nil => simp [mapGet_nil]
  | cons a m ih =>
    rw [List.filter_cons]
    by_cases hq : q a.1 = true
    · rw [if_pos hq, mapGet_cons, mapGet_cons, ih]
      by_cases ha : a.1 = k
      · subst ha; simp [hq]
      · simp [ha]
    · rw [if_neg hq, mapGet_cons, ih]
      by_cases ha : a.1 = k
      · subst ha; simp [hq]
      · simp [ha]

theorem lastVal_filter (q : Key → Bool) (m : List (Key × Val)) (k : Key) :
    lastVal (m.filter fun e => q e.1) k = if q k then lastVal m k else none := by
  unfold lastVal; rw [← List.filter_reverse, mapGet_filter]

theorem insertAll_filter (q : Key → Bool) (es m : List (Key × Val)) (hm : NodupKeys m) :
    mapInsertAll (m.filter fun e => q e.1) (es.filter fun e => q e.1)
      = (mapInsertAll m es).filter fun e => q e.1 := by
  have hkf : ∀ l : List (Key × Val), (l.filter fun e => q e.1).map (·.1) = (l.map (·.1)).filter q := by
    intro l; rw [List.filter_map]; rfl
  apply map_ext
  · rw [insertAll_keys, hkf, hkf, insertAll_filter_keys, insertAll_keys]
  · apply NodupKeys.insertAll
    unfold NodupKeys; rw [hkf]; exact List.Nodup.filter _ hm
  · intro k
    rw [mapGet_insertAll, lastVal_filter, mapGet_filter, mapGet_filter, mapGet_insertAll]
    cases q k <;> simp

/-- Building a map out of the entries of a map built from `es` gives the same as building it from `es`. -/
theorem insertAll_idem (es m : List (Key × Val)) (hm : NodupKeys m) :
    mapInsertAll m (mapInsertAll [] es) = mapInsertAll m es := by
  have hn := NodupKeys.insertAll es nodupKeys_nil
  apply map_ext
  · rw [insertAll_keys, insertAll_keys]
    have key : ∀ (es : List (Key × Val)) (acc : List Key),
        (es.foldl (fun ks e => if e.1 ∈ ks then ks else ks ++ [e.1]) acc) =
        acc ++ (es.foldl (fun ks e => if e.1 ∈ ks then ks else ks ++ [e.1]) []).filter (fun k => !(acc.contains k)) := by
      intro es
      induction es using List.reverseRecOn with
      | nil => intro acc; simp
      | append_singleton es e ih =>
        intro acc
        rw [List.foldl_append, List.foldl_append, ih acc]
        simp only [List.foldl_cons, List.foldl_nil]
        generalize (es.foldl (fun ks e => if e.1 ∈ ks then ks else ks ++ [e.1]) []) = l
        by_cases h1 : e.1 ∈ acc
        · rw [if_pos (List.mem_append_left _ h1)]
          split_ifs
          · rfl
          · rw [List.filter_append]; simp [h1]
        · by_cases h2 : e.1 ∈ l
          · rw [if_pos h2, if_pos]
            apply List.mem_append_right
            rw [List.mem_filter]; simp [h1, h2]
          · rw [if_neg h2, if_neg, List.filter_append]
            · simp [h1]
            · intro h
              rcases List.mem_append.mp h with h | h
              · exact h1 h
              · exact h2 (List.mem_filter.mp h).1
    have e1 : ∀ (l : List (Key × Val)) (acc : List Key),
        l.foldl (fun ks e => if e.1 ∈ ks then ks else ks ++ [e.1]) acc
          = (l.map (·.1)).foldl (fun ks k => if k ∈ ks then ks else ks ++ [k]) acc := by
      intro l acc; rw [List.foldl_map]
    have nd : ∀ (l : List Key), l.Nodup → l.foldl (fun ks k => if k ∈ ks then ks else ks ++ [k]) [] = l := by
      intro l
      induction l using List.reverseRecOn with
      | nil => intro _; rfl
      | append_singleton l k ih =>
        intro h
        rw [List.nodup_append] at h
        rw [List.foldl_append, ih h.1, List.foldl_cons, List.foldl_nil, if_neg]
        intro hk
        exact h.2.2 k hk k (by simp) rfl
    rw [key (mapInsertAll [] es), key es]
    congr 2
    rw [e1, nd _ hn, insertAll_keys]; rfl
  · exact NodupKeys.insertAll _ hm
  · intro k
    rw [mapGet_insertAll, mapGet_insertAll, lastVal_of_nodup hn, mapGet_insertAll]
    cases lastVal es k <;> simp [mapGet_nil]

end Verif.Args
