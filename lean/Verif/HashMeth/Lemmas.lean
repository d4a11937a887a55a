import Verif.HashMeth.Model

/-! Lemmas on `get`, `set`, `del`. -/

namespace Verif.HashMeth

variable {K V W : Type} [DecidableEq K]

/-- The keys are distinct. -/
def WF (h : H K V) : Prop := (h.map (·.1)).Nodup

theorem get_set (h : H K V) (k : K) (v : V) (k' : K) :
    get (set h k v) k' = if k = k' then some v else get h k' := by
  induction h with
  | nil => simp [set, get]
  | cons e t ih =>
    by_cases he : e.1 = k
    · subst he
      simp only [set, if_pos]
      by_cases hk : e.1 = k'
      · simp [get, hk]
      · simp [get, hk]
    · simp only [set, if_neg he, get, ih]
      by_cases hk : e.1 = k'
      · have : ¬ k = k' := fun h => he (hk.trans h.symm)
        simp [hk, this]
      · simp [hk]

theorem get_none_iff (h : H K V) (k : K) : get h k = none ↔ k ∉ h.map (·.1) := by
  induction h with
  | nil => simp [get]
  | cons e t ih =>
    by_cases he : e.1 = k
    · simp [get, he]
    · simp only [get, if_neg he, ih, List.map_cons, List.mem_cons, not_or]
      exact ⟨fun h => ⟨fun x => he x.symm, h⟩, fun h => h.2⟩

theorem mem_of_get {h : H K V} {k : K} {v : V} (hg : get h k = some v) : (k, v) ∈ h := by
  induction h with
  | nil => simp [get] at hg
  | cons e t ih =>
    by_cases he : e.1 = k
    · simp only [get, if_pos he, Option.some.injEq] at hg
      subst he; subst hg; simp
    · simp only [get, if_neg he] at hg
      exact List.mem_cons_of_mem _ (ih hg)

theorem get_of_mem {h : H K V} (hw : WF h) {k : K} {v : V} (hm : (k, v) ∈ h) :
    get h k = some v := by
  induction h with
  | nil => simp at hm
  | cons e t ih =>
    simp only [WF, List.map_cons, List.nodup_cons] at hw
    rcases List.mem_cons.mp hm with rfl | hm'
    · simp [get]
    · have : e.1 ≠ k := fun h => hw.1 (h ▸ List.mem_map.mpr ⟨(k, v), hm', rfl⟩)
      simp only [get, if_neg this]
      exact ih hw.2 hm'

theorem get_iff_mem {h : H K V} (hw : WF h) (k : K) (v : V) :
    get h k = some v ↔ (k, v) ∈ h := ⟨mem_of_get, get_of_mem hw⟩

theorem keys_set (h : H K V) (k : K) (v : V) :
    (set h k v).map (·.1) =
      if k ∈ h.map (·.1) then h.map (·.1) else h.map (·.1) ++ [k] := by
  induction h with
  | nil => simp [set]
  | cons e t ih =>
    by_cases he : e.1 = k
    · simp [set, he]
    · have hk : ¬ k = e.1 := fun h => he h.symm
      simp only [set, if_neg he, List.map_cons, ih, List.mem_cons, hk, false_or]
      split <;> simp

theorem wf_nil : WF ([] : H K V) := by simp [WF]

theorem wf_set {h : H K V} (hw : WF h) (k : K) (v : V) : WF (set h k v) := by
  unfold WF at *
  rw [keys_set]
  split
  · exact hw
  · rename_i hk
    rw [List.nodup_append]
    refine ⟨hw, by simp, ?_⟩
    intro a ha b hb
    simp only [List.mem_singleton] at hb
    subst hb
    exact fun h => hk (h ▸ ha)

theorem wf_fill {h : H K V} (hw : WF h) (l : List (K × V)) : WF (fill h l) := by
  induction l generalizing h with
  | nil => exact hw
  | cons e t ih => exact ih (wf_set hw _ _)

theorem set_new {h : H K V} {k : K} (hk : k ∉ h.map (·.1)) (v : V) :
    set h k v = h ++ [(k, v)] := by
  induction h with
  | nil => rfl
  | cons e t ih =>
    simp only [List.map_cons, List.mem_cons, not_or] at hk
    have : ¬ e.1 = k := fun h => hk.1 h.symm
    simp [set, this, ih hk.2]

theorem fill_new (h l : H K V) (hw : WF (h ++ l)) : fill h l = h ++ l := by
  induction l generalizing h with
  | nil => simp [fill]
  | cons e t ih =>
    have hk : e.1 ∉ h.map (·.1) := by
      unfold WF at hw
      rw [List.map_append, List.nodup_append] at hw
      intro hm
      exact hw.2.2 _ hm e.1 (by simp) rfl
    rw [fill, set_new hk]
    have : h ++ [(e.1, e.2)] ++ t = h ++ e :: t := by simp
    rw [ih _ (by rw [this]; exact hw), this]

theorem fill_nil_of_wf {l : H K V} (hw : WF l) : fill [] l = l := by
  simpa using fill_new [] l (by simpa using hw)

theorem wf_filter {h : H K V} (hw : WF h) (p : K × V → Bool) : WF (h.filter p) := by
  unfold WF at *
  exact (List.filter_sublist.map _).nodup hw

theorem get_fill (h : H K V) (l : List (K × V)) (k : K) :
    get (fill h l) k = ((get l.reverse k).orElse fun _ => get h k) := by
  induction l generalizing h with
  | nil => simp [fill, get]
  | cons e t ih =>
    rw [fill, ih, get_set, List.reverse_cons]
    have happ : ∀ (a : H K V), get (a ++ [e]) k =
        (get a k).orElse fun _ => if e.1 = k then some e.2 else none := by
      intro a
      induction a with
      | nil => simp [get]
      | cons x a ih2 =>
        by_cases hx : x.1 = k
        · simp [get, hx]
        · simp [get, hx, ih2]
    rw [happ]
    cases get t.reverse k with
    | some v => simp
    | none =>
      by_cases he : e.1 = k <;> simp [he]

theorem del_eq_filter {h : H K V} (hw : WF h) (k : K) :
    del h k = h.filter (fun e => e.1 ≠ k) := by
  induction h with
  | nil => rfl
  | cons e t ih =>
    have hw' := hw
    simp only [WF, List.map_cons, List.nodup_cons] at hw
    by_cases he : e.1 = k
    · subst he
      simp only [del, if_pos]
      rw [List.filter_cons_of_neg (by simp)]
      symm
      rw [List.filter_eq_self]
      intro x hx
      simp only [ne_eq, decide_not, Bool.not_eq_true', decide_eq_false_iff_not]
      intro hxe
      exact hw.1 (hxe ▸ List.mem_map.mpr ⟨x, hx, rfl⟩)
    · simp only [del, if_neg he]
      rw [List.filter_cons_of_pos (by simpa using he), ih hw.2]

theorem wf_del {h : H K V} (hw : WF h) (k : K) : WF (del h k) := by
  rw [del_eq_filter hw]; exact wf_filter hw _

theorem get_del {h : H K V} (hw : WF h) (k k' : K) :
    get (del h k) k' = if k = k' then none else get h k' := by
  induction h with
  | nil => simp [del, get]
  | cons e t ih =>
    have hw' := hw
    simp only [WF, List.map_cons, List.nodup_cons] at hw
    by_cases he : e.1 = k
    · subst he
      simp only [del, if_pos, get]
      by_cases hk : e.1 = k'
      · subst hk
        simpa using (get_none_iff t e.1).mpr hw.1
      · simp [hk]
    · simp only [del, if_neg he, get, ih hw.2]
      by_cases hk : e.1 = k'
      · have : ¬ k = k' := fun h => he (hk.trans h.symm)
        simp [hk, this]
      · simp [hk]

theorem delAll_eq_filter {h : H K V} (hw : WF h) (ks : List K) :
    delAll h ks = h.filter (fun e => !ks.contains e.1) := by
  induction ks generalizing h with
  | nil => exact (List.filter_eq_self.mpr (by simp)).symm
  | cons k t ih =>
    rw [delAll, ih (wf_del hw k), del_eq_filter hw, List.filter_filter]
    apply List.filter_congr
    intro e _
    by_cases he : e.1 = k <;> simp [he]

theorem subset_iff [DecidableEq V] (sup h : H K V) :
    subset sup h = true ↔ ∀ e ∈ h, get sup e.1 = some e.2 := by
  induction h with
  | nil => simp [subset]
  | cons e t ih =>
    simp only [subset, List.mem_cons, forall_eq_or_imp]
    cases hg : get sup e.1 with
    | none => simp
    | some v =>
      by_cases hv : e.2 = v
      · simp [hv, ih]
      · have : ¬ v = e.2 := fun h => hv h.symm
        simp [hv, this]

theorem collect_eq (p : K → V → Bool) (h : List (K × V)) :
    collect (fun k v => some (p k v)) h = some ((h.filter (fun e => p e.1 e.2)).map (·.1)) := by
  induction h with
  | nil => rfl
  | cons e t ih =>
    cases hp : p e.1 e.2 <;> simp [collect, hp, ih]

theorem filter_collected {h : H K V} (hw : WF h) (p : K × V → Bool) :
    h.filter (fun e => !((h.filter p).map (·.1)).contains e.1) = h.filter (fun e => !p e) := by
  apply List.filter_congr
  intro e he
  congr 1
  cases hp : p e with
  | true =>
    rw [List.contains_iff_mem]
    exact List.mem_map.mpr ⟨e, List.mem_filter.mpr ⟨he, hp⟩, rfl⟩
  | false =>
    rw [Bool.eq_false_iff]
    intro hc
    rw [List.contains_iff_mem, List.mem_map] at hc
    obtain ⟨x, hx, hxe⟩ := hc
    rw [List.mem_filter] at hx
    have h1 := get_of_mem hw (k := x.1) (v := x.2) hx.1
    have h2 := get_of_mem hw (k := e.1) (v := e.2) he
    rw [hxe, h2] at h1
    have : x = e := Prod.ext hxe (Option.some.inj h1).symm
    rw [this, hp] at hx
    exact absurd hx.2 (by simp)

end Verif.HashMeth
