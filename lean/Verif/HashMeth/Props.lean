import Verif.HashMeth.Lemmas
import Mathlib.Data.List.Nodup
import Mathlib.Data.List.Perm.Subperm

/-!
# C149: what the methods of Hash make of its entries

`WF h` says that the keys of `h` are distinct, which C11 shows for every Hash.
-/

namespace Verif.HashMeth

variable {K V W : Type} [DecidableEq K]

/-! ## Building -/

theorem get_reverse_iff (l : List (K × V)) (k : K) (v : V) :
    get l.reverse k = some v ↔
      ∃ pre post, l = pre ++ (k, v) :: post ∧ ∀ x ∈ post, x.1 ≠ k := by
  have key : ∀ l : List (K × V), get l k = some v ↔
      ∃ pre post, l = pre ++ (k, v) :: post ∧ ∀ x ∈ pre, x.1 ≠ k := by
    intro l
    induction l with
    | nil => simp [get]
    | cons e t ih =>
      by_cases he : e.1 = k
      · simp only [get, if_pos he, Option.some.injEq]
        constructor
        · rintro rfl
          exact ⟨[], t, by simp [← he], by simp⟩
        · rintro ⟨pre, post, hl, hp⟩
          cases pre with
          | nil =>
            simp only [List.nil_append, List.cons.injEq] at hl
            rw [hl.1]
          | cons p pre =>
            simp only [List.cons_append, List.cons.injEq] at hl
            exact absurd he (hl.1 ▸ hp p (by simp))
      · simp only [get, if_neg he, ih]
        constructor
        · rintro ⟨pre, post, hl, hp⟩
          exact ⟨e :: pre, post, by simp [hl], by
            intro x hx
            rcases List.mem_cons.mp hx with rfl | hx
            · exact he
            · exact hp x hx⟩
        · rintro ⟨pre, post, hl, hp⟩
          cases pre with
          | nil =>
            simp only [List.nil_append, List.cons.injEq] at hl
            exact absurd (by rw [hl.1]) he
          | cons p pre =>
            simp only [List.cons_append, List.cons.injEq] at hl
            exact ⟨pre, post, hl.2, fun x hx => hp x (List.mem_cons_of_mem _ hx)⟩
  rw [key]
  constructor
  · rintro ⟨pre, post, hl, hp⟩
    refine ⟨post.reverse, pre.reverse, ?_, fun x hx => hp x (List.mem_reverse.mp hx)⟩
    have := congrArg List.reverse hl
    simpa using this
  · rintro ⟨pre, post, hl, hp⟩
    refine ⟨post.reverse, pre.reverse, ?_, fun x hx => hp x (List.mem_reverse.mp hx)⟩
    rw [hl]; simp

theorem keys_fill (h : H K V) (l : List (K × V)) :
    (fill h l).map (·.1) = h.map (·.1) ++
      ((l.map (·.1)).filter (fun k => !(h.map (·.1)).contains k)).eraseDups := by
  induction l generalizing h with
  | nil => simp [fill]
  | cons e t ih =>
    rw [fill, ih, keys_set]
    by_cases he : e.1 ∈ h.map (·.1)
    · rw [if_pos he, List.map_cons, List.filter_cons_of_neg (by
        simpa using he)]
    · rw [if_neg he, List.map_cons, List.filter_cons_of_pos (by simpa using he),
        List.eraseDups_cons, List.filter_filter, List.append_assoc]
      congr 1
      simp only [List.singleton_append, List.cons.injEq, true_and]
      congr 1
      apply List.filter_congr
      intro k _
      by_cases hk : k = e.1 <;> by_cases hk2 : k ∈ h.map (·.1) <;>
        simp [hk, List.contains_iff_mem, -List.mem_map]

/-- `to_h` with a block: a key has the value of the last pair the block made for it. -/
theorem C149_to_h {K' V' : Type} [DecidableEq K'] (f : K → V → K' × V') (h : H K V) (k : K') (v : V') :
    get (toH f h) k = some v ↔
      ∃ pre post, h.map (fun e => f e.1 e.2) = pre ++ (k, v) :: post ∧ ∀ x ∈ post, x.1 ≠ k := by
  rw [toH, get_fill, ← get_reverse_iff]
  simp [get]

/-- … and the keys come in the order in which the block first made them, each once. -/
theorem C149_to_h_order {K' V' : Type} [DecidableEq K'] (f : K → V → K' × V') (h : H K V) :
    (toH f h).map (·.1) = (h.map (fun e => (f e.1 e.2).1)).eraseDups := by
  rw [toH, keys_fill]
  have : (List.map (fun e => f e.1 e.2) h).map (·.1) = h.map (fun e => (f e.1 e.2).1) := by simp
  simp only [List.map_nil, List.nil_append, this]
  rw [List.filter_eq_self.mpr (by simp)]

example : toH (fun k v => (k % 2, v * 10)) [(1, 1), (2, 2), (3, 3)] = [(1, 30), (0, 20)] := by decide

/-! ## New keys -/

/-- The mapping goes before the block, and a key in neither stays. -/
theorem C149_new_key (m : H K K) (f : K → K) (k : K) :
    newKey (some m) (some f) k = (if hasKey m k then (get m k).getD k else f k) ∧
      newKey (some m) none k = (get m k).getD k ∧ newKey none (some f) k = f k := by
  refine ⟨?_, ?_, rfl⟩
  · unfold newKey hasKey
    cases hm : get m k <;> simp [hm]
  · unfold newKey
    cases hm : get m k <;> simp [hm]

/-- `transform_keys`: a key of the result has the value of the last entry renamed to it. -/
theorem C149_transform_keys (m : Option (H K K)) (blk : Option (K → K)) (h : H K V) (k : K) (v : V) :
    get (transformKeys m blk h) k = some v ↔
      ∃ pre k₀ post, h = pre ++ (k₀, v) :: post ∧ newKey m blk k₀ = k ∧
        ∀ x ∈ post, newKey m blk x.1 ≠ k := by
  have h0 : get (transformKeys m blk h) k = some v ↔
      get (h.map (fun e => (newKey m blk e.1, e.2))).reverse k = some v := by
    rw [transformKeys, get_fill]; simp [get]
  rw [h0, get_reverse_iff]
  constructor
  · rintro ⟨pre, post, hl, hp⟩
    rw [List.map_eq_append_iff] at hl
    obtain ⟨a, b, rfl, ha, hb⟩ := hl
    rw [List.map_eq_cons_iff] at hb
    obtain ⟨e, c, rfl, he, hc⟩ := hb
    simp only [Prod.mk.injEq] at he
    refine ⟨a, e.1, c, by rw [← he.2], he.1, ?_⟩
    intro x hx
    exact hp (newKey m blk x.1, x.2) (hc ▸ List.mem_map.mpr ⟨x, hx, rfl⟩)
  · rintro ⟨pre, k₀, post, rfl, hk, hp⟩
    refine ⟨pre.map (fun e => (newKey m blk e.1, e.2)),
      post.map (fun e => (newKey m blk e.1, e.2)), by simp [hk], ?_⟩
    intro x hx
    rw [List.mem_map] at hx
    obtain ⟨y, hy, rfl⟩ := hx
    exact hp y hy

theorem tkLoop_get (f : K → K) (rest : List (K × V)) :
    ∀ (cur D : H K V) (made : List K), WF cur → WF rest →
      (∀ k, get cur k = (get D k).orElse fun _ => get rest k) →
      (∀ k, made.contains k = (get D k).isSome) →
      WF (tkLoop f cur made rest) ∧
        ∀ k, get (tkLoop f cur made rest) k =
          get (fill D (rest.map (fun e => (f e.1, e.2)))) k := by
  induction rest with
  | nil =>
    intro cur D made hw _ hc _
    refine ⟨hw, fun k => ?_⟩
    rw [tkLoop, hc]
    cases hD : get D k <;> simp [get, fill, hD]
  | cons e t ih =>
    intro cur D made hw hr hc hm
    have hr' := hr
    simp only [WF, List.map_cons, List.nodup_cons] at hr'
    have hwc : WF (if made.contains e.1 then cur else del cur e.1) := by
      split
      · exact hw
      · exact wf_del hw _
    have hgc : ∀ k, get (if made.contains e.1 then cur else del cur e.1) k =
        (get D k).orElse fun _ => get t k := by
      intro k
      split
      · rename_i hme
        rw [hc]
        by_cases hk : e.1 = k
        · subst hk
          rw [hm] at hme
          obtain ⟨v, hv⟩ := Option.isSome_iff_exists.mp hme
          simp [hv]
        · simp [get, hk]
      · rename_i hme
        rw [get_del hw, hc]
        by_cases hk : e.1 = k
        · subst hk
          rw [hm] at hme
          have hn : get D e.1 = none := by simpa using hme
          simp [hn, (get_none_iff t e.1).mpr hr'.1]
        · simp [get, hk]
    simp only [tkLoop, List.map_cons, fill]
    refine ih _ (set D (f e.1) e.2) _ (wf_set hwc _ _) hr'.2 ?_ ?_
    · intro k
      rw [get_set, get_set, hgc]
      by_cases hk : f e.1 = k <;> simp [hk]
    · intro k
      rw [get_set]
      by_cases hk : f e.1 = k
      · simp [hk]
      · have : (k == f e.1) = false := by simpa using fun h : k = f e.1 => hk h.symm
        rw [List.contains_cons, this, hm]; simp [hk]

/-- `transform_keys!` leaves the Hash with the same entries as `transform_keys` returns, whatever the new
keys: also if they collide with each other and with old keys not yet reached. -/
theorem C149_transform_keys_bang (m : Option (H K K)) (blk : Option (K → K)) (h : H K V) (hw : WF h) :
    WF (transformKeysBang m blk h) ∧
      ∀ k, get (transformKeysBang m blk h) k = get (transformKeys m blk h) k := by
  have := tkLoop_get (newKey m blk) h h [] [] hw hw (by simp [get]) (by simp [get])
  exact this

example : transformKeysBang none (some (· + 1)) [(1, 10), (2, 20), (3, 30)] =
    [(2, 10), (3, 20), (4, 30)] := by decide

/-- The order need not be the same. -/
theorem C149_transform_keys_bang_order_fails :
    ∃ (m : H Nat Nat) (h : H Nat Nat), WF h ∧
      transformKeysBang (some m) none h ≠ transformKeys (some m) none h :=
  ⟨[(1, 10), (2, 3), (3, 11)], [(1, 1), (2, 2), (3, 3)], by unfold WF; decide, by decide⟩

/-- `transform_values` keeps the keys and their order. -/
theorem C149_transform_values (f : V → W) (h : H K V) :
    (transformValues f h).map (·.1) = h.map (·.1) ∧
      ∀ k, get (transformValues f h) k = (get h k).map f := by
  constructor
  · simp [transformValues]
  · intro k
    induction h with
    | nil => rfl
    | cons e t ih =>
      unfold transformValues at ih
      by_cases he : e.1 = k <;> simp [transformValues, get, he, ih]

/-! ## Choosing entries -/

/-- `select` and `reject` keep the entries in order, and each entry is in exactly one of them. -/
theorem C149_select (p : K → V → Bool) (h : H K V) (hw : WF h) :
    select p h = h.filter (fun e => p e.1 e.2) ∧ reject p h = h.filter (fun e => !p e.1 e.2) :=
  ⟨fill_nil_of_wf (wf_filter hw _), fill_nil_of_wf (wf_filter hw _)⟩

/-- `delete_if` with a block that answers for every entry leaves what `reject` returns. -/
theorem C149_delete_if_partial (p : K → V → Bool) (h : H K V) (hw : WF h) :
    deleteIf (fun k v => some (p k v)) h = h.filter (fun e => !p e.1 e.2) := by
  rw [deleteIf, collect_eq]
  show delAll h _ = _
  rw [delAll_eq_filter hw, filter_collected hw (fun e => p e.1 e.2)]

/-- A block that raises (or breaks) part of the way leaves every entry in place, also those for which it
had answered true. -/
theorem C149_delete_if_raise (p : K → V → Option Bool) (h : H K V)
    (hr : ∃ e ∈ h, p e.1 e.2 = none) : deleteIf p h = h := by
  have : collect p h = none := by
    obtain ⟨e, he, hn⟩ := hr
    induction h with
    | nil => simp at he
    | cons x t ih =>
      rcases List.mem_cons.mp he with rfl | he
      · simp [collect, hn]
      · simp only [collect, ih he]
        cases hx : p x.1 x.2 with
        | none => rfl
        | some b => cases b <;> rfl
  rw [deleteIf, this]

/-- So `delete_if` is not the removal of each entry as the block answers for it. -/
theorem C149_delete_if_fails :
    ∃ (h : H Nat Nat) (p : Nat → Nat → Option Bool), WF h ∧
      (∃ pre e post, h = pre ++ e :: post ∧ p e.1 e.2 = none ∧
        (∀ x ∈ pre, p x.1 x.2 = some true) ∧ pre ≠ [] ∧ deleteIf p h ≠ e :: post) :=
  ⟨[(1, 1), (2, 2), (3, 3)], fun k _ => if k = 2 then none else some true, by unfold WF; decide,
    [(1, 1)], (2, 2), [(3, 3)], by decide, by decide, by decide, by decide, by decide⟩

/-- `reject!` does the same and returns nil exactly if nothing changed. -/
theorem C149_reject_bang (p : K → V → Bool) (h : H K V) (hw : WF h) :
    (rejectBang p h).1 = h.filter (fun e => !p e.1 e.2) ∧
      ((rejectBang p h).2 = true ↔ (rejectBang p h).1 = h) := by
  have h1 : (rejectBang p h).1 = h.filter (fun e => !p e.1 e.2) := by
    rw [rejectBang, collect_eq]
    show delAll h _ = _
    rw [delAll_eq_filter hw, filter_collected hw (fun e => p e.1 e.2)]
  refine ⟨h1, ?_⟩
  rw [h1, rejectBang, collect_eq, List.filter_eq_self]
  show (List.map _ _).isEmpty = true ↔ _
  rw [List.isEmpty_iff, List.map_eq_nil_iff, List.filter_eq_nil_iff]
  simp

/-- `slice`: the entries for the keys given, in the order given. -/
theorem C149_slice (h : H K V) (ks : List K) :
    (∀ k, get (slice h ks) k = if k ∈ ks then get h k else none) ∧
      (slice h ks).map (·.1) = (ks.filter (fun k => hasKey h k)).eraseDups := by
  have hf : ∀ (ks : List K) (r : H K V),
      ks.foldl (sliceStep h) r = fill r (ks.filterMap (fun k => (get h k).map (fun v => (k, v)))) := by
    intro ks
    induction ks with
    | nil => intro r; rfl
    | cons k t ih =>
      intro r
      rw [List.foldl_cons, ih]
      cases hk : get h k with
      | none => simp [sliceStep, hk]
      | some v => simp [sliceStep, hk, fill]
  have hm : ∀ ks : List K, (ks.filterMap (fun k => (get h k).map (fun v => (k, v)))).map (·.1) =
      ks.filter (fun k => hasKey h k) := by
    intro ks
    induction ks with
    | nil => rfl
    | cons k t ih =>
      cases hk : get h k with
      | none =>
        rw [List.filterMap_cons_none (by simp [hk]), List.filter_cons_of_neg (by simp [hasKey, hk]), ih]
      | some v =>
        rw [List.filterMap_cons_some (by simp [hk]; rfl), List.filter_cons_of_pos (by simp [hasKey, hk]),
          List.map_cons, ih]
  constructor
  · intro k
    rw [slice, hf, get_fill]
    have hg : ∀ v, get (ks.filterMap (fun k => (get h k).map (fun v => (k, v)))).reverse k = some v →
        k ∈ ks ∧ get h k = some v := by
      intro v hv
      have := mem_of_get hv
      rw [List.mem_reverse, List.mem_filterMap] at this
      obtain ⟨a, ha, hb⟩ := this
      cases hga : get h a with
      | none => simp [hga] at hb
      | some w =>
        simp only [hga, Option.map_some, Option.some.injEq, Prod.mk.injEq] at hb
        obtain ⟨rfl, rfl⟩ := hb
        exact ⟨ha, hga⟩
    cases hr : get (ks.filterMap (fun k => (get h k).map (fun v => (k, v)))).reverse k with
    | some v =>
      obtain ⟨h1, h2⟩ := hg v hr
      simp [h1, h2]
    | none =>
      rw [get_none_iff, List.map_reverse, List.mem_reverse, hm, List.mem_filter] at hr
      by_cases hk : k ∈ ks
      · have : get h k = none := by
          have := fun hh => hr ⟨hk, hh⟩
          simpa [hasKey] using this
        simp [this, get]
      · simp [hk, get]
  · rw [slice, hf, keys_fill, hm]
    simp only [List.map_nil, List.nil_append]
    rw [List.filter_eq_self.mpr (by simp)]

/-- `except`: the others, in order. -/
theorem C149_except (h : H K V) (hw : WF h) (ks : List K) :
    except h ks = h.filter (fun e => decide (e.1 ∉ ks)) := by
  rw [except, delAll_eq_filter hw]
  apply List.filter_congr
  intro e _
  by_cases he : e.1 ∈ ks <;> simp [he]

/-- `compact` and `compact!`: the entries with a value other than nil; nil is returned by `compact!` exactly
if nothing changed. -/
theorem C149_compact (h : H K (Option V)) (hw : WF h) :
    compact h = h.filter (fun e => e.2.isSome) ∧ (compactBang h).1 = compact h ∧
      ((compactBang h).2 = true ↔ ∀ e ∈ h, e.2 ≠ none) := by
  have h1 : compact h = h.filter (fun e => e.2.isSome) := fill_nil_of_wf (wf_filter hw _)
  have h3 : ((h.filter (fun e => e.2.isNone)).map (·.1)).isEmpty = true ↔ ∀ e ∈ h, e.2 ≠ none := by
    rw [List.isEmpty_iff, List.map_eq_nil_iff, List.filter_eq_nil_iff]
    simp
  refine ⟨h1, ?_, ?_⟩
  · rw [h1]
    unfold compactBang
    by_cases hd : ((h.filter (fun e => e.2.isNone)).map (·.1)).isEmpty = true
    · simp only [hd, if_true]
      symm
      rw [List.filter_eq_self]
      intro e he
      exact Option.isSome_iff_ne_none.mpr (h3.mp hd e he)
    · simp only [hd, if_false, Bool.false_eq_true]
      rw [delAll_eq_filter hw, filter_collected hw (fun e => e.2.isNone)]
      apply List.filter_congr
      intro e _
      cases e.2 <;> rfl
  · rw [← h3]
    unfold compactBang
    by_cases hd : ((h.filter (fun e => e.2.isNone)).map (·.1)).isEmpty = true
    · simp only [hd, if_true]
    · simp only [hd, if_false, Bool.false_eq_true]

/-! ## merge -/

/-- The value of a key after `merge`. -/
def merged (blk : Option (K → V → V → V)) (k : K) : Option V → Option V → Option V
  | some a, some b => some (match blk with
    | some f => f k a b
    | none => b)
  | some a, none => some a
  | none, b => b

theorem get_mergeStep (blk : Option (K → V → V → V)) (h : H K V) (e : K × V) (k : K) :
    get (mergeStep blk h e) k = if e.1 = k then merged blk k (get h k) (some e.2) else get h k := by
  cases blk with
  | none =>
    simp only [mergeStep, get_set]
    by_cases he : e.1 = k
    · cases hg : get h k <;> simp [he, merged]
    · simp [he]
  | some f =>
    simp only [mergeStep]
    by_cases he : e.1 = k
    · subst he
      cases hg : get h e.1 <;> simp [get_set, merged]
    · cases hg : get h e.1 <;> simp [get_set, he]

theorem keys_mergeStep (blk : Option (K → V → V → V)) (h : H K V) (e : K × V) :
    (mergeStep blk h e).map (·.1) =
      if e.1 ∈ h.map (·.1) then h.map (·.1) else h.map (·.1) ++ [e.1] := by
  cases blk with
  | none => simp only [mergeStep, keys_set]
  | some f =>
    simp only [mergeStep]
    cases hg : get h e.1 <;> simp only [keys_set]

/-- `merge` with one Hash: a key in both has the block's value, or the other's if there is no block; a key in
one of them has its value. -/
theorem C149_merge (blk : Option (K → V → V → V)) (h o : H K V) (hw : WF o) (k : K) :
    get (merge blk h [o]) k = match get h k, get o k with
      | some a, some b => some (match blk with
        | some f => f k a b
        | none => b)
      | some a, none => some a
      | none, b => b := by
  have main : get (o.foldl (mergeStep blk) h) k = merged blk k (get h k) (get o k) := by
    induction o generalizing h with
    | nil => cases hg : get h k <;> simp [get, merged, hg]
    | cons e t ih =>
      simp only [WF, List.map_cons, List.nodup_cons] at hw
      rw [List.foldl_cons, ih _ hw.2, get_mergeStep]
      by_cases he : e.1 = k
      · subst he
        rw [(get_none_iff t e.1).mpr hw.1]
        cases hg : get h e.1 <;> simp [get, merged]
      · simp [get, he]
  show get (o.foldl (mergeStep blk) h) k = _
  rw [main]
  cases get h k <;> cases get o k <;> rfl

/-- The keys: those of the receiver in order, then the new ones in order. -/
theorem C149_merge_order (blk : Option (K → V → V → V)) (h o : H K V) (hw : WF o) :
    (merge blk h [o]).map (·.1) = h.map (·.1) ++ (o.map (·.1)).filter (fun k => decide (k ∉ h.map (·.1))) := by
  show (o.foldl (mergeStep blk) h).map (·.1) = _
  induction o generalizing h with
  | nil => simp
  | cons e t ih =>
    simp only [WF, List.map_cons, List.nodup_cons] at hw
    rw [List.foldl_cons, ih _ hw.2, keys_mergeStep]
    by_cases he : e.1 ∈ h.map (·.1)
    · rw [if_pos he, List.map_cons, List.filter_cons_of_neg (by simpa using he)]
    · rw [if_neg he, List.map_cons, List.filter_cons_of_pos (by simpa using he), List.append_assoc]
      congr 1
      simp only [List.singleton_append, List.cons.injEq, true_and]
      apply List.filter_congr
      intro k hk
      have : k ≠ e.1 := fun h => hw.1 (h ▸ hk)
      simp [this]

/-- With several Hashes, one after the other; with none, the same. -/
theorem C149_merge_several (blk : Option (K → V → V → V)) (h o : H K V) (os : List (H K V)) :
    merge blk h [] = h ∧ merge blk h (o :: os) = merge blk (merge blk h [o]) os := ⟨rfl, rfl⟩

example : merge (some fun _ a b => a + b) [(1, 1), (2, 2)] [[(2, 3), (4, 4)], [(4, 5)]] =
    [(1, 1), (2, 5), (4, 9)] := by decide

/-! ## Looking for values -/

/-- `invert`: the last key with a value. -/
theorem C149_invert [DecidableEq V] (h : H K V) (k : K) (v : V) :
    get (invert h) v = some k ↔ ∃ pre post, h = pre ++ (k, v) :: post ∧ ∀ x ∈ post, x.2 ≠ v := by
  have h0 : get (invert h) v = some k ↔ get (h.map (fun e => (e.2, e.1))).reverse v = some k := by
    rw [invert, get_fill]; simp [get]
  rw [h0, get_reverse_iff]
  constructor
  · rintro ⟨pre, post, hl, hp⟩
    rw [List.map_eq_append_iff] at hl
    obtain ⟨a, b, rfl, ha, hb⟩ := hl
    rw [List.map_eq_cons_iff] at hb
    obtain ⟨e, c, rfl, he, hc⟩ := hb
    simp only [Prod.mk.injEq] at he
    refine ⟨a, c, by rw [← he.1, ← he.2], ?_⟩
    intro x hx
    exact hp (x.2, x.1) (hc ▸ List.mem_map.mpr ⟨x, hx, rfl⟩)
  · rintro ⟨pre, post, rfl, hp⟩
    refine ⟨pre.map (fun e => (e.2, e.1)), post.map (fun e => (e.2, e.1)), by simp, ?_⟩
    intro x hx
    rw [List.mem_map] at hx
    obtain ⟨y, hy, rfl⟩ := hx
    exact hp y hy

/-- Inverting twice is the same Hash in the same order if the values are distinct. -/
theorem C149_invert_invert [DecidableEq V] (h : H K V) (hw : WF h) (hv : (h.map (·.2)).Nodup) :
    invert (invert h) = h := by
  have h1 : invert h = h.map (fun e => (e.2, e.1)) := by
    apply fill_nil_of_wf
    unfold WF
    rw [List.map_map]
    exact hv
  rw [h1, invert, List.map_map]
  have h2 : List.map ((fun e : V × K => (e.2, e.1)) ∘ fun e : K × V => (e.2, e.1)) h = h := by
    conv => rhs; rw [← List.map_id h]
    apply List.map_congr_left
    intro e _
    rfl
  rw [h2, fill_nil_of_wf hw]

example : invert [(1, 7), (2, 8), (3, 7)] = [(7, 3), (8, 2)] := by decide

/-- `key`: the first key with a value, nil if there is none. -/
theorem C149_key [DecidableEq V] (h : H K V) (v : V) :
    (∀ k, key h v = some k ↔ ∃ pre post, h = pre ++ (k, v) :: post ∧ ∀ x ∈ pre, x.2 ≠ v) ∧
      (key h v = none ↔ ∀ x ∈ h, x.2 ≠ v) := by
  induction h with
  | nil => simp [key]
  | cons e t ih =>
    by_cases he : e.2 = v
    · simp only [key, if_pos he]
      constructor
      · intro k
        constructor
        · intro hk
          exact ⟨[], t, by rw [← Option.some.inj hk, ← he]; rfl, by simp⟩
        · rintro ⟨pre, post, hl, hp⟩
          cases pre with
          | nil =>
            simp only [List.nil_append, List.cons.injEq] at hl
            rw [hl.1]
          | cons p pre =>
            simp only [List.cons_append, List.cons.injEq] at hl
            exact absurd he (hl.1 ▸ hp p (by simp))
      · simp [he]
    · simp only [key, if_neg he]
      constructor
      · intro k
        rw [ih.1 k]
        constructor
        · rintro ⟨pre, post, hl, hp⟩
          exact ⟨e :: pre, post, by simp [hl], by
            intro x hx
            rcases List.mem_cons.mp hx with rfl | hx
            · exact he
            · exact hp x hx⟩
        · rintro ⟨pre, post, hl, hp⟩
          cases pre with
          | nil =>
            simp only [List.nil_append, List.cons.injEq] at hl
            exact absurd (by rw [hl.1]) he
          | cons p pre =>
            simp only [List.cons_append, List.cons.injEq] at hl
            exact ⟨pre, post, hl.2, fun x hx => hp x (List.mem_cons_of_mem _ hx)⟩
      · rw [ih.2]
        simp [he]

/-- `has_value?`. -/
theorem C149_has_value [DecidableEq V] (h : H K V) (v : V) :
    hasValue h v = true ↔ ∃ x ∈ h, x.2 = v := by
  induction h with
  | nil => simp [hasValue]
  | cons e t ih =>
    by_cases he : e.2 = v
    · simp [hasValue, he]
    · simp [hasValue, he, ih]

/-! ## Comparing -/

theorem subset_length [DecidableEq V] {a b : H K V} (ha : WF a)
    (hs : subset b a = true) : a.length ≤ b.length := by
  rw [subset_iff] at hs
  have : (a.map (·.1)).Subperm (b.map (·.1)) := by
    apply List.Nodup.subperm ha
    intro k hk
    rw [List.mem_map] at hk
    obtain ⟨e, he, rfl⟩ := hk
    exact List.mem_map.mpr ⟨_, mem_of_get (hs e he), rfl⟩
  simpa using this.length_le

theorem subset_get [DecidableEq V] {a b : H K V} (ha : WF a) :
    subset b a = true ↔ ∀ k v, get a k = some v → get b k = some v := by
  rw [subset_iff]
  constructor
  · intro h k v hk
    exact h (k, v) (mem_of_get hk)
  · intro h e he
    exact h e.1 e.2 (get_of_mem ha he)

theorem subset_back [DecidableEq V] {a b : H K V} (ha : WF a) (hb : WF b)
    (hs : subset b a = true) (hl : b.length ≤ a.length) : subset a b = true := by
  have hs' := (subset_iff b a).mp hs
  have hsp : (a.map (·.1)).Subperm (b.map (·.1)) := by
    apply List.Nodup.subperm ha
    intro k hk
    rw [List.mem_map] at hk
    obtain ⟨e, he, rfl⟩ := hk
    exact List.mem_map.mpr ⟨_, mem_of_get (hs' e he), rfl⟩
  have hp := hsp.perm_of_length_le (by simpa using hl)
  rw [subset_iff]
  intro e he
  have : e.1 ∈ a.map (·.1) := hp.mem_iff.mpr (List.mem_map.mpr ⟨e, he, rfl⟩)
  rw [List.mem_map] at this
  obtain ⟨x, hx, hxe⟩ := this
  have h1 := hs' x hx
  rw [hxe, get_of_mem hb (k := e.1) (v := e.2) he] at h1
  rw [← hxe, get_of_mem ha (k := x.1) (v := x.2) hx, h1]

theorem same_iff [DecidableEq V] {a b : H K V} (ha : WF a) (hb : WF b) :
    (∀ k, get a k = get b k) ↔ subset b a = true ∧ subset a b = true := by
  rw [subset_get ha, subset_get hb]
  constructor
  · intro h
    exact ⟨fun k v hk => h k ▸ hk, fun k v hk => (h k).symm ▸ hk⟩
  · rintro ⟨h1, h2⟩ k
    cases hk : get a k with
    | some v => exact (h1 k v hk).symm
    | none =>
      cases hk' : get b k with
      | none => rfl
      | some v => rw [h2 k v hk'] at hk; simp at hk

/-- `==`: the same keys with equal values, whatever the order. -/
theorem C149_eq [DecidableEq V] (a b : H K V) (ha : WF a) (hb : WF b) :
    eq a b = true ↔ ∀ k, get a k = get b k := by
  rw [same_iff ha hb]
  unfold eq
  constructor
  · intro h
    by_cases hl : a.length = b.length
    · simp only [ne_eq, hl, not_true, if_false] at h
      exact ⟨h, subset_back ha hb h (by omega)⟩
    · simp [hl] at h
  · rintro ⟨h1, h2⟩
    have := subset_length ha h1
    have := subset_length hb h2
    have hl : a.length = b.length := by omega
    simp [hl, h1]

/-- `<=` and `>=`: each entry of the one is in the other. -/
theorem C149_le [DecidableEq V] (a b : H K V) (ha : WF a) :
    (le a b = true ↔ ∀ k v, get a k = some v → get b k = some v) ∧ ge b a = le a b := by
  refine ⟨?_, by simp [ge, le]⟩
  rw [← subset_get ha, le, Bool.and_eq_true, decide_eq_true_iff]
  exact ⟨fun h => h.2, fun h => ⟨subset_length ha h, h⟩⟩

/-- `<` and `>`: moreover they are not equal. -/
theorem C149_lt [DecidableEq V] (a b : H K V) (ha : WF a) (hb : WF b) :
    (lt a b = true ↔ le a b = true ∧ ¬ eq a b = true) ∧ gt b a = lt a b := by
  refine ⟨?_, by simp [gt, lt]⟩
  simp only [lt, le, eq, Bool.and_eq_true, decide_eq_true_iff]
  constructor
  · rintro ⟨h1, h2⟩
    have : a.length ≠ b.length := by omega
    exact ⟨⟨by omega, h2⟩, by simp [this]⟩
  · rintro ⟨⟨h1, h2⟩, h3⟩
    refine ⟨?_, h2⟩
    by_cases hl : a.length = b.length
    · simp [hl, h2] at h3
    · omega

example : eq [(1, 1), (2, 2)] [(2, 2), (1, 1)] = true ∧ lt [(2, 2)] [(1, 1), (2, 2)] = true ∧
    le [(2, 3)] [(1, 1), (2, 2)] = false := by decide

/-! ## min_by -/

theorem minLoop_spec (g : K → V → Int) (t : List (K × V)) :
    ∀ (b : K × V), ∃ e, minLoop (fun k v => some (g k v)) (some b) (some (g b.1 b.2)) t = some (some e) ∧
      ∃ pre post, b :: t = pre ++ e :: post ∧ (∀ x ∈ pre, g e.1 e.2 < g x.1 x.2) ∧
        ∀ x ∈ post, g e.1 e.2 ≤ g x.1 x.2 := by
  induction t with
  | nil => intro b; exact ⟨b, rfl, [], [], rfl, by simp, by simp⟩
  | cons x t ih =>
    intro b
    simp only [minLoop]
    by_cases hx : g x.1 x.2 < g b.1 b.2
    · simp only [hx, if_true]
      obtain ⟨e, he, pre, post, hl, h1, h2⟩ := ih x
      refine ⟨e, he, b :: pre, post, by simp [hl], ?_, h2⟩
      intro y hy
      rcases List.mem_cons.mp hy with rfl | hy
      · cases pre with
        | nil =>
          simp only [List.nil_append, List.cons.injEq] at hl
          rw [← hl.1]; exact hx
        | cons p pre =>
          simp only [List.cons_append, List.cons.injEq] at hl
          have := h1 p (by simp)
          rw [← hl.1] at this
          omega
      · exact h1 y hy
    · simp only [hx, if_false]
      obtain ⟨e, he, pre, post, hl, h1, h2⟩ := ih b
      cases pre with
      | nil =>
        simp only [List.nil_append, List.cons.injEq] at hl
        obtain ⟨rfl, rfl⟩ := hl
        refine ⟨b, he, [], x :: t, rfl, by simp, ?_⟩
        intro y hy
        rcases List.mem_cons.mp hy with rfl | hy
        · omega
        · exact h2 y hy
      | cons p pre =>
        simp only [List.cons_append, List.cons.injEq] at hl
        obtain ⟨rfl, hl⟩ := hl
        refine ⟨e, he, b :: x :: pre, post, by simp [hl], ?_, h2⟩
        intro y hy
        rcases List.mem_cons.mp hy with rfl | hy
        · exact h1 y (by simp)
        rcases List.mem_cons.mp hy with rfl | hy
        · have := h1 b (by simp); omega
        · exact h1 y (by simp [hy])

/-- `min_by` with Integers: the first of the entries with the least value. -/
theorem C149_min_by_partial (g : K → V → Int) (h : H K V) :
    (h = [] ∧ minBy (fun k v => some (g k v)) h = some none) ∨
      ∃ e, minBy (fun k v => some (g k v)) h = some (some e) ∧
        ∃ pre post, h = pre ++ e :: post ∧ (∀ x ∈ pre, g e.1 e.2 < g x.1 x.2) ∧
          ∀ x ∈ post, g e.1 e.2 ≤ g x.1 x.2 := by
  cases h with
  | nil => exact Or.inl ⟨rfl, rfl⟩
  | cons b t => exact Or.inr (minLoop_spec g t b)

/-- But nil for the first entry is passed over where it cannot be compared. -/
theorem C149_min_by_fails :
    ∃ (h : H Nat Nat) (f : Nat → Nat → Option Int), WF h ∧ f 1 1 = none ∧ (1, 1) ∈ h ∧ h.length = 2 ∧
      minBy f h = some (some (2, 2)) :=
  ⟨[(1, 1), (2, 2)], fun k _ => if k = 1 then none else some 5, by unfold WF; decide, rfl, by decide, rfl,
    by decide⟩

end Verif.HashMeth
