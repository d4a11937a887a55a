import Verif.Const.Cache

/-! # Constants folded into compiled code -/

namespace Verif.Const

variable {home : Nat → Option Nat} {Q : Bool} {L : Nat → List Nat} {P : Nat → Site}

/-- The folded value is what the site finds, without effects. -/
def Good (P : Nat → Site) (w : World) (f : Fold) : Prop :=
  ∀ b, f.base = baseOf (P f.site) b → pfind w (P f.site) b = some f.val

structure UInv (P : Nat → Site) (w : World) (u : Unit_) : Prop where
  word_le : u.word ≤ w.ver
  ep_le : ∀ n, u.epochs n ≤ w.epoch n
  wild_le : u.wild ≤ w.wild
  names : ∀ f ∈ u.folds, f.names = (P f.site).names
  cur : u.word = w.ver → ∀ f ∈ u.folds, Good P w f
  sus : ∀ f ∈ u.folds, suspect w u f = false → Good P w f

theorem suspect_false {w : World} {u : Unit_} {f : Fold} (h : suspect w u f = false) :
    u.wild = w.wild ∧ ∀ n ∈ f.names, w.epoch n = u.epochs n := by
  unfold suspect at h
  simp only [Bool.or_eq_false_iff, bne_eq_false_iff_eq, List.any_eq_false] at h
  refine ⟨h.1, fun n hn => ?_⟩
  have := h.2 n hn
  simpa using this

theorem suspect_of {w : World} {u : Unit_} {f : Fold} (h1 : u.wild = w.wild)
    (h2 : ∀ n ∈ f.names, w.epoch n = u.epochs n) : suspect w u f = false := by
  unfold suspect
  simp only [Bool.or_eq_false_iff, bne_eq_false_iff_eq, List.any_eq_false]
  refine ⟨h1, fun n hn => ?_⟩
  simp [h2 n hn]

theorem UInv.evolve {w w' : World} {u : Unit_} (h : UInv P w u) (he : Evolve home w w')
    (h1 : HomeOk home w) (h2 : HomeOk home w') : UInv P w' u where
  word_le := Nat.le_trans h.word_le he.ver_le
  ep_le := fun n => Nat.le_trans (h.ep_le n) (he.ep_le n)
  wild_le := Nat.le_trans h.wild_le he.wild_le
  names := h.names
  cur := by
    intro hw f hf b hb
    have l1 := h.word_le
    have l2 := he.ver_le
    have hv : w'.ver = w.ver := by omega
    obtain ⟨hep, hwl⟩ := he.ver_eq hv
    exact pfind_transfer he h1 h2 hwl _ (fun m _ => hep m) b f.val (h.cur (by omega) f hf b hb)
  sus := by
    intro f hf hs b hb
    obtain ⟨s1, s2⟩ := suspect_false hs
    have l1 := h.wild_le
    have l2 := he.wild_le
    have hwl : w'.wild = w.wild := by omega
    have hep : ∀ n ∈ f.names, w'.epoch n = w.epoch n := by
      intro n hn
      have a1 := h.ep_le n
      have a2 := he.ep_le n
      have a3 := s2 n hn
      omega
    have hs' : suspect w u f = false := suspect_of (by omega) (by
      intro n hn
      have a1 := hep n hn
      have a2 := s2 n hn
      omega)
    exact pfind_transfer he h1 h2 hwl _ (by rw [← h.names f hf]; exact hep) b f.val
      (h.sus f hf hs' b hb)

theorem foldSite_good {σ : St} (h : Inv home Q L P σ) {k : Nat} {f : Fold}
    (hf : foldSite P σ k = some f) : Good P σ.w f ∧ f.names = (P f.site).names ∧ f.site = k := by
  unfold foldSite at hf
  rcases hc : σ.cache k with _ | c
  · rw [hc] at hf; cases hf
  · rw [hc] at hf
    simp only at hf
    split_ifs at hf with hv
    injection hf with hf
    subst hf
    exact ⟨fun b hb => h.good k c hc hv b hb, rfl, rfl⟩

theorem mapM_mem {α β : Type} {g : α → Option β} : ∀ {xs : List α} {ys : List β},
    xs.mapM g = some ys → ∀ y ∈ ys, ∃ x ∈ xs, g x = some y := by
  intro xs
  induction xs with
  | nil =>
    intro ys h y hy
    simp at h
    subst h
    cases hy
  | cons x xs ih =>
    intro ys h y hy
    rw [List.mapM_cons] at h
    rcases hx : g x with _ | z
    · rw [hx] at h; cases h
    · rw [hx] at h
      rcases hr : xs.mapM g with _ | zs
      · rw [hr] at h; cases h
      · rw [hr] at h
        have : z :: zs = ys := by injection h
        subst this
        rcases List.mem_cons.1 hy with rfl | hy
        · exact ⟨x, by simp, hx⟩
        · obtain ⟨a, ha, hga⟩ := ih hr y hy
          exact ⟨a, by simp [ha], hga⟩

theorem compileUnit_inv {σ : St} (h : Inv home Q L P σ) {ks : List Nat} {u : Unit_}
    (hu : compileUnit P σ ks = some u) : UInv P σ.w u := by
  unfold compileUnit at hu
  rcases hm : ks.mapM (foldSite P σ) with _ | fs
  · rw [hm] at hu; cases hu
  · rw [hm] at hu
    injection hu with hu
    subst hu
    have hg : ∀ f ∈ fs, Good P σ.w f ∧ f.names = (P f.site).names := by
      intro f hf
      obtain ⟨k, _, hk⟩ := mapM_mem hm f hf
      exact ⟨(foldSite_good h hk).1, (foldSite_good h hk).2.1⟩
    exact ⟨Nat.le_refl _, fun _ => Nat.le_refl _, Nat.le_refl _, fun f hf => (hg f hf).2,
      fun _ f hf => (hg f hf).1, fun f hf _ => (hg f hf).1⟩

theorem salvage_inv {σ : St} (h : Inv home Q L P σ) {u u' : Unit_} (hu : UInv P σ.w u)
    (hs : salvage σ u = some u') : UInv P σ.w u' := by
  unfold salvage at hs
  split_ifs at hs with hall
  injection hs with hs
  subst hs
  have hg : ∀ f ∈ u.folds, Good P σ.w f := by
    intro f hf
    have := List.all_eq_true.1 hall f hf
    rcases hsu : suspect σ.w u f with _ | _
    · exact hu.sus f hf hsu
    · rw [hsu] at this
      simp only [Bool.not_true, Bool.false_or] at this
      unfold refreshed at this
      rcases hc : σ.cache f.site with _ | c
      · rw [hc] at this; cases this
      · rw [hc] at this
        simp only [Bool.and_eq_true, decide_eq_true_eq] at this
        obtain ⟨⟨hv, hval⟩, hb⟩ := this
        intro b hb'
        rw [← hval]
        exact h.good f.site c hc hv b (hb.trans hb')
  exact ⟨Nat.le_refl _, fun _ => Nat.le_refl _, Nat.le_refl _, hu.names, fun _ => hg,
    fun f hf _ => hg f hf⟩

/-- What may happen while a unit exists. -/
inductive JOp where
  | op (o : Op)
  | salvage

def jstep (E : Env) (P : Nat → Site) (σ : St) (u : Unit_) : JOp → St × Unit_
  | .op o => (step E P σ o, u)
  | .salvage => (σ, (salvage σ u).getD u)

def jrun (E : Env) (P : Nat → Site) (σ : St) (u : Unit_) : List JOp → St × Unit_
  | [] => (σ, u)
  | o :: os => jrun E P (jstep E P σ u o).1 (jstep E P σ u o).2 os

def JPlain (home : Nat → Option Nat) (Q : Bool) (L : Nat → List Nat) : JOp → Prop
  | .op o => Plain home Q L o
  | .salvage => True

theorem jrun_inv (E : Env) (hE : EnvOk home E) (hH : NoHook E) (os : List JOp) :
    ∀ {σ : St} {u : Unit_}, Inv home Q L P σ → UInv P σ.w u → (∀ o ∈ os, JPlain home Q L o) →
    Inv home Q L P (jrun E P σ u os).1 ∧ UInv P (jrun E P σ u os).1.w (jrun E P σ u os).2 := by
  induction os with
  | nil => exact fun h hu _ => ⟨h, hu⟩
  | cons o os ih =>
    intro σ u h hu ho
    have ho' := ho o (by simp)
    cases o with
    | op o =>
      have h' := step_inv E hE hH h o ho'
      exact ih h' (hu.evolve (step_evolve E hE hH h o ho') h.wf.homeOk h'.wf.homeOk)
        fun x hx => ho x (by simp [hx])
    | salvage =>
      refine ih (σ := σ) (u := (salvage σ u).getD u) h ?_ fun x hx => ho x (by simp [hx])
      rcases hs : salvage σ u with _ | u'
      · exact hu
      · exact salvage_inv h hu hs

end Verif.Const
