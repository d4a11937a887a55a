import Verif.Const.Evolve

/-! # A file is run to its end at most once -/

namespace Verif.Const

/-- How often the file `f` was run to its end. -/
def runs (w : World) (f : Nat) : Nat := w.log.count (.run f true)

def Once (w : World) : Prop := ∀ f, runs w f ≤ if f ∈ w.loaded then 1 else 0

theorem Once.of_eq {w w' : World} (h : Once w) (h1 : w'.loaded = w.loaded) (h2 : w'.log = w.log) :
    Once w' := by
  intro f
  unfold runs
  rw [h1, h2]
  exact h f

theorem storeConst_log (w : World) (c n : Nat) (v : Val) :
    (storeConst w c n v).loaded = w.loaded ∧ (storeConst w c n v).log = w.log := by
  rw [storeConst_rest]
  exact ⟨rfl, rfl⟩

theorem runDef_log (w : World) (d : Def) :
    (runDef w d).loaded = w.loaded ∧ (runDef w d).log = w.log := by
  cases d with
  | assign c n v => exact storeConst_log _ c n v
  | klass c n v =>
    show (if isLoaded (w.tab c n) = true then w else storeConst w c n v).loaded = _ ∧
      (if isLoaded (w.tab c n) = true then w else storeConst w c n v).log = _
    split_ifs
    · exact ⟨rfl, rfl⟩
    · exact storeConst_log w c n v
  | remove c n => exact ⟨rfl, rfl⟩
  | incl ch => exact ⟨rfl, rfl⟩

theorem runDefs_log (ds : List Def) : ∀ w : World,
    (runDefs w ds).loaded = w.loaded ∧ (runDefs w ds).log = w.log := by
  induction ds with
  | nil => exact fun w => ⟨rfl, rfl⟩
  | cons d ds ih =>
    intro w
    obtain ⟨a, b⟩ := ih (runDef w d)
    obtain ⟨a', b'⟩ := runDef_log w d
    exact ⟨a.trans a', b.trans b'⟩

theorem Once.say {w : World} (h : Once w) (e : Event) (he : ∀ f, e ≠ .run f true) :
    Once (w.say e) := by
  intro f
  have hc : runs (w.say e) f = runs w f := by
    unfold runs World.say
    simp only [List.count_append]
    rw [List.count_eq_zero_of_not_mem (a := Event.run f true) (l := [e])
      (by simp only [List.mem_singleton]; exact fun h => he f h.symm)]
    omega
  rw [hc]
  exact h f

theorem require_log (E : Env) (w : World) (f : Nat) (hf : f ∉ w.loaded) :
    (require E w f).2.log = w.log ++ [.run f (E.body f).2] ∧
    (require E w f).1 = (E.body f).2 ∧
    (require E w f).2.loaded = if (E.body f).2 then f :: w.loaded else w.loaded := by
  obtain ⟨h1, h2⟩ := runDefs_log (E.body f).1 (startLoad w f)
  have hl : (startLoad w f).loaded = f :: w.loaded := rfl
  have hg : (startLoad w f).log = w.log := rfl
  unfold require endLoad
  rw [if_neg hf]
  cases (E.body f).2 with
  | true =>
    refine ⟨?_, rfl, ?_⟩
    · show (runDefs _ _).log ++ _ = _
      rw [h2, hg]
    · show (runDefs _ _).loaded = _
      rw [h1, hl]; rfl
  | false =>
    refine ⟨?_, rfl, rfl⟩
    show (runDefs _ _).log ++ _ = _
    rw [h2, hg]

theorem require_once (E : Env) {w : World} (h : Once w) (f : Nat) : Once (require E w f).2 := by
  by_cases hf : f ∈ w.loaded
  · unfold require
    rw [if_pos hf]
    exact h
  · obtain ⟨h1, _, h3⟩ := require_log E w f hf
    intro g
    have hg := h g
    unfold runs at hg ⊢
    rw [h1, h3, List.count_append]
    cases (E.body f).2 with
    | true =>
      by_cases hgf : g = f
      · subst hgf
        rw [if_neg hf] at hg
        simp only [if_true, List.mem_cons, true_or, List.count_singleton_self]
        omega
      · have : List.count (Event.run g true) [Event.run f true] = 0 := by
          apply List.count_eq_zero_of_not_mem
          simp only [List.mem_singleton, Event.run.injEq, and_true]
          exact hgf
        rw [this]
        simp only [if_true, List.mem_cons, hgf, false_or]
        omega
    | false =>
      have : List.count (Event.run g true) [Event.run f false] = 0 := by
        apply List.count_eq_zero_of_not_mem
        simp
      rw [this]
      simpa using hg

theorem afterLoad_once {w : World} (h : Once w) (c n : Nat) : Once (afterLoad w c n).2 := by
  unfold afterLoad
  split
  · exact h
  · exact h
  · exact h.of_eq rfl rfl

theorem autoload_once (E : Env) {w : World} (h : Once w) (c n f : Nat) :
    Once (autoload E w c n f).2 := by
  have hr := require_once E (w := w.put c n (markState .loading (w.tab c n)))
    (h.of_eq rfl rfl) f
  unfold autoload
  split
  · rename_i w' he
    rw [he] at hr
    exact afterLoad_once hr c n
  · rename_i w' he
    rw [he] at hr
    exact hr.of_eq rfl rfl

theorem getConst_once (E : Env) {w : World} (h : Once w) (c n : Nat) :
    Once (getConst E w c n).2 := by
  unfold getConst
  split
  · exact h
  · exact h
  · exact h.say _ (by simp)
  · exact h
  · exact h
  · exact autoload_once E h c n _

theorem getFirst_once (E : Env) (n : Nat) (cs : List Nat) : ∀ {w : World}, Once w →
    Once (getFirst E w n cs).2 := by
  induction cs with
  | nil => exact fun h => h
  | cons c cs ih =>
    intro w h
    have h1 := getConst_once E h c n
    unfold getFirst
    split
    · rename_i w' he
      rw [he] at h1
      exact ih h1
    · exact h1

theorem missing_once (E : Env) {w : World} (h : Once w) (c n : Nat) : Once (missing E w c n).2 := by
  unfold missing
  split
  · exact h.say _ (by simp)
  · exact h.say _ (by simp)

theorem viaAncestors_once (E : Env) {w : World} (h : Once w) (c n : Nat) :
    Once (viaAncestors E w c n).2 := by
  have h1 := getFirst_once E n (w.chain c) h
  unfold viaAncestors
  split
  · rename_i w' he
    rw [he] at h1
    split_ifs
    · exact getConst_once E h1 OBJECT n
    · exact h1
  · exact h1

theorem search_once (E : Env) {w : World} (h : Once w) (i n : Nat) : Once (search E w i n).2 := by
  have h1 := getFirst_once E n (w.lex i) h
  unfold search
  split
  · rename_i w' he
    rw [he] at h1
    exact viaAncestors_once E h1 _ n
  · exact h1

theorem searchChecked_once (E : Env) {w : World} (h : Once w) (i n : Nat) :
    Once (searchChecked E w i n).2 := by
  have h1 := search_once E h i n
  unfold searchChecked
  split
  · rename_i v w' he; rw [he] at h1; exact h1
  · rename_i w' he; rw [he] at h1; exact missing_once E h1 _ n
  · rename_i e w' he; rw [he] at h1; exact h1

theorem qualified_once (E : Env) {w : World} (h : Once w) (c n : Nat) :
    Once (qualified E w c n).2 := by
  have h1 := getFirst_once E n (qualChain w c) h
  unfold qualified
  split
  · rename_i v w' he; rw [he] at h1; exact h1
  · rename_i w' he; rw [he] at h1; exact missing_once E h1 _ n
  · rename_i e w' he; rw [he] at h1; exact h1

theorem finalPart_once (E : Env) {w : World} (h : Once w) (c n : Nat) :
    Once (finalPart E w c n).2 := by
  have h1 := missing_once E h c n
  unfold finalPart
  split_ifs
  · split
    · rename_i v w' he; rw [he] at h1; exact h1
    · rename_i e w' he; rw [he] at h1; exact h1
  · exact qualified_once E h c n

theorem midPart_once (E : Env) {w : World} (h : Once w) (c n : Nat) :
    Once (midPart E w c n).2 := by
  have h1 := qualified_once E h c n
  unfold midPart
  split_ifs
  · exact h
  · split
    · rename_i v w' he; rw [he] at h1; exact h1
    · rename_i e w' he; rw [he] at h1; exact h1

theorem path_once (E : Env) (n : Nat) (pre : List Nat) : ∀ (c : Nat) {w : World}, Once w →
    Once (path E w c pre n).2 := by
  induction pre with
  | nil => exact fun c w h => finalPart_once E h c n
  | cons m pre ih =>
    intro c w h
    have h1 := midPart_once E h c m
    unfold path
    split
    · rename_i d w' he; rw [he] at h1; exact ih d h1
    · rename_i e w' he; rw [he] at h1; exact h1

theorem find_once (E : Env) {w : World} (h : Once w) (s : Site) (b : Val) :
    Once (find E w s b).2 := by
  unfold find
  split_ifs
  · split
    · exact path_once E _ _ _ h
    · exact h
  · exact path_once E _ _ _ h
  · split
    · exact searchChecked_once E h _ _
    · rename_i m pre _
      have h1 := searchChecked_once E h s.code m
      split
      · rename_i v w' he
        rw [he] at h1
        split
        · exact path_once E _ _ _ h1
        · exact h1
      · rename_i e w' he; rw [he] at h1; exact h1

theorem step_once (E : Env) (P : Nat → Site) {σ : St} (h : Once σ.w) (o : Op) :
    Once (step E P σ o).w := by
  cases o with
  | def_ d => exact h.of_eq (runDef_log σ.w d).1 (runDef_log σ.w d).2
  | constSet c n v =>
    exact h.of_eq (storeConst_log (σ.w.bump n) c n v).1 (storeConst_log (σ.w.bump n) c n v).2
  | require f => exact require_once E h f
  | priv c n p =>
    show Once (setPriv σ.w c n p)
    unfold setPriv
    split
    · exact h.of_eq rfl rfl
    · exact h
  | depr c n =>
    show Once (deprecate σ.w c n)
    unfold deprecate
    split
    · exact h.of_eq rfl rfl
    · exact h
  | auto c n f =>
    show Once (register σ.w c n f)
    unfold register
    split_ifs
    · exact h
    · split
      · exact h.of_eq rfl rfl
      · exact h
      · exact h.of_eq rfl rfl
      · exact h.of_eq rfl rfl
  | stamp i l => exact h.of_eq rfl rfl
  | ref k b =>
    have h1 := find_once E h (P k) b
    show Once (reference E P σ k b).2.w
    unfold reference
    split
    · exact h
    · split
      · rename_i v w' he; rw [he] at h1; exact h1
      · rename_i e w' he; rw [he] at h1; exact h1

theorem run_once (E : Env) (P : Nat → Site) (os : List Op) : ∀ {σ : St}, Once σ.w →
    Once (run E P σ os).w := by
  induction os with
  | nil => exact fun h => h
  | cons o os ih => exact fun h => ih (step_once E P h o)

end Verif.Const
