import Verif.Args.KwProps

/-! Helper lemmas: outcomes of keyword binding up to the form the keywords arrive in. -/
namespace Verif.Args

theorem outcome_error (p : Params) (e : Err) : outcome p (.error e) = none := rfl

theorem kwFrame_rest_slot (p : Params) (f : Frame) (all : List (Key × Val)) (b : Bool) (h : p.kwRest = true) :
    kwFrame p f all b p.kwRestPos
      = some (if b then .hash (mapInsertAll [] (undeclared p all)) false else .nil) := by
  unfold kwFrame; rw [if_pos h]; simp [Frame.set]

theorem set_set (f : Frame) (i : Nat) (a b : Option Val) : (f.set i a).set i b = f.set i b := by
  funext j; simp only [Frame.set]; split_ifs <;> rfl

/-- After the prologue an absent keyword set and an empty one are the same. -/
theorem outcome_kwFrame (p : Params) (f : Frame) (all : List (Key × Val)) (b : Bool)
    (h : b = false → undeclared p all = []) :
    outcome p (.ok (kwFrame p f all b)) = outcome p (.ok (kwFrame p f all true)) := by
  unfold outcome checkKwRest
  cases hk : p.kwRest with
  | false => simp only [Bool.false_eq_true, if_false]; unfold kwFrame; rw [hk]; rfl
  | true =>
    simp only [if_true]
    rw [kwFrame_rest_slot p f all b hk, kwFrame_rest_slot p f all true hk]
    cases b with
    | true => rfl
    | false =>
      have := h rfl
      simp only [Bool.false_eq_true, if_false, if_true]
      congr 1
      unfold kwFrame
      rw [if_pos hk, if_pos hk, set_set, this]
      rfl

theorem outcome_kwBind (p : Params) (f : Frame) (all : List (Key × Val)) (b : Bool)
    (h : b = false → undeclared p all = []) : outcome p (kwBind p f all b) = outcome p (kwBind p f all true) := by
  unfold kwBind
  split_ifs
  · rfl
  · rfl
  · exact outcome_kwFrame p f all b h

theorem undeclared_insertAll (p : Params) (all : List (Key × Val)) :
    mapInsertAll [] (undeclared p all) = undeclared p (mapInsertAll [] all) :=
  insertAll_filter (fun k => !declared p k) all [] nodupKeys_nil

/-- Only the merged pairs matter. -/
theorem outcome_kwBind_congr (p : Params) (f : Frame) (a b : List (Key × Val))
    (h : mapInsertAll [] a = mapInsertAll [] b) :
    outcome p (kwBind p f a true) = outcome p (kwBind p f b true) := by
  have hl : ∀ k, lastVal a k = lastVal b k := by
    intro k
    have e1 := mapGet_insertAll a [] k
    have e2 := mapGet_insertAll b [] k
    rw [mapGet_nil, Option.or_none] at e1 e2
    rw [← e1, ← e2, h]
  have hm : missingOf p a = missingOf p b := by unfold missingOf; simp only [hl]
  have hu : mapInsertAll [] (undeclared p a) = mapInsertAll [] (undeclared p b) := by
    rw [undeclared_insertAll, undeclared_insertAll, h]
  have hue : undeclared p a = [] ↔ undeclared p b = [] := by
    rw [← mapInsertAll_nil_iff, hu, mapInsertAll_nil_iff]
  have hf : kwFrame p f a true = kwFrame p f b true := by
    unfold kwFrame; simp only [hl, hu]
  unfold kwBind
  rw [hm, hf]
  by_cases c : undeclared p a = []
  · rw [c, hue.mp c]
  · have c' := fun x => c (hue.mpr x)
    rw [List.isEmpty_eq_false_iff.mpr c, List.isEmpty_eq_false_iff.mpr c']
    split_ifs <;> rfl

theorem insertAll_self (m : List (Key × Val)) (h : NodupKeys m) : mapInsertAll [] m = m := by
  have hl := NodupKeys.insertAll m nodupKeys_nil
  apply map_ext _ hl
  · intro k
    rw [mapGet_insertAll, mapGet_nil, Option.or_none, lastVal_of_nodup h]
  · rw [insertAll_keys]
    have e1 : ∀ (l : List (Key × Val)) (acc : List Key),
        l.foldl (fun ks e => if e.1 ∈ ks then ks else ks ++ [e.1]) acc
          = (l.map (·.1)).foldl (fun ks k => if k ∈ ks then ks else ks ++ [k]) acc := by
      intro l acc; rw [List.foldl_map]
    rw [e1]
    have : ∀ (l acc : List Key), (acc ++ l).Nodup →
        l.foldl (fun ks k => if k ∈ ks then ks else ks ++ [k]) acc = acc ++ l := by
      intro l
      induction l with
      | nil => intro acc _; simp
      | cons a l ih =>
        intro acc hn
        have hna : a ∉ acc := by
          intro hm
          rw [List.nodup_append] at hn
          exact hn.2.2 a hm a (by simp) rfl
        rw [List.foldl_cons, if_neg hna, ih (acc ++ [a]) (by simpa using hn)]
        simp
    exact this _ [] h

/-- The keyword-independent part of the outcome. -/
theorem outcome_specCall (p : Params) (pos : List Val) (a b : List (Key × Val)) (x y : Bool) (f : Frame)
    (hx : x = false → a = []) (hy : y = false → b = []) (h : mapInsertAll [] a = mapInsertAll [] b) :
    outcome p (specCall p pos a x f) = outcome p (specCall p pos b y f) := by
  unfold specCall
  split_ifs
  · rfl
  · cases bindL p f pos with
    | error e => rfl
    | ok g =>
      simp only [Except.bind]
      rw [outcome_kwBind p g a x (fun hh => by rw [hx hh]; rfl),
        outcome_kwBind p g b y (fun hh => by rw [hy hh]; rfl)]
      exact outcome_kwBind_congr p g a b h

/-- A call without keywords. -/
theorem setCallee_bare (W : World) (p : Params) (args : List Val) (f : Frame) (hp : ParamsOk p) (l : List Val)
    (hpos : posOf W p { args := args } none = .ok (l, none)) :
    setCallee W p { args := args } f = specCall p l [] false f := by
  have hex : (if p.noKeyword = true then (trailing p (allPairs [] [])).head? else none) = none := by
    split_ifs <;> rfl
  rw [setCallee_eq W p _ [] [] f hp (plainSite W args []) (by rw [hex, hpos]; intro l m h; cases h), hex, hpos,
    if_neg (by rintro ⟨_, h⟩; exact h rfl)]
  rfl

end Verif.Args
