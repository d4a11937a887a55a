import Verif.Const.Model
import Mathlib.Tactic.SplitIfs
import Mathlib.Tactic.ByContra

/-! # Lookup without effects, and how a lookup may change the world -/

namespace Verif.Const

/-- What reading an entry gives, if it has no effect. -/
def pget : Option CState → Option (Option Val)
  | none => some none
  | some ⟨.loaded v, _, false⟩ => some (some v)
  | some ⟨.loaded _, _, true⟩ => none
  | some ⟨.auto _ .idle, _, _⟩ => none
  | some ⟨.auto _ .loading, _, _⟩ => some none
  | some ⟨.auto _ .consumed, _, _⟩ => some none

def pfirst (w : World) (n : Nat) : List Nat → Option (Option Val)
  | [] => some none
  | c :: cs =>
    match pget (w.tab c n) with
    | some none => pfirst w n cs
    | r => r

/-- The classes an unqualified reference searches. -/
def scopes (w : World) (i : Nat) : List Nat :=
  w.lex i ++ (w.chain (lexClass w i) ++ if lexClass w i = BASIC then [OBJECT] else [])

def valOf : Option (Option Val) → Option Val
  | some (some v) => some v
  | _ => none

def modOf : Option (Option Val) → Option Nat
  | some (some (.mod c)) => some c
  | _ => none

def ppath (w : World) (c : Nat) (pre : List Nat) (n : Nat) : Option Val :=
  match pre with
  | [] => valOf (pfirst w n (qualChain w c))
  | m :: pre =>
    match modOf (pfirst w m (qualChain w c)) with
    | some d => ppath w d pre n
    | none => none

def pfind (w : World) (s : Site) (b : Val) : Option Val :=
  if s.dyn then
    match b with
    | .mod c => ppath w c s.pre s.name
    | .obj _ => none
  else if s.top then ppath w OBJECT s.pre s.name
  else
    match s.pre with
    | [] => valOf (pfirst w s.name (scopes w s.code))
    | m :: pre =>
      match modOf (pfirst w m (scopes w s.code)) with
      | some c => ppath w c pre s.name
      | none => none

/-- A reference without `::`. -/
def Bare (s : Site) : Prop := s.dyn = false ∧ s.top = false ∧ s.pre = []

def NoPriv (w : World) : Prop := ∀ c n, isPriv w c n = false

theorem getConst_pure (E : Env) (w : World) (c n : Nat) (r : Option Val)
    (h : pget (w.tab c n) = some r) : getConst E w c n = (.ok r, w) := by
  unfold getConst
  rcases ht : w.tab c n with _ | ⟨k, p, d⟩
  · rw [ht] at h; simp [pget] at h; simp [h]
  · rw [ht] at h
    rcases k with v | ⟨f, s⟩
    · cases d
      · simp [pget] at h; simp [h]
      · simp [pget] at h
    · cases s <;> simp [pget] at h <;> simp [h]

theorem getFirst_pure (E : Env) (w : World) (n : Nat) (cs : List Nat) (r : Option Val)
    (h : pfirst w n cs = some r) : getFirst E w n cs = (.ok r, w) := by
  induction cs with
  | nil => simp [pfirst] at h; simp [getFirst, h]
  | cons c cs ih =>
    unfold pfirst at h
    unfold getFirst
    rcases hp : pget (w.tab c n) with _ | x
    · rw [hp] at h; simp at h
    · rw [hp] at h
      rw [getConst_pure E w c n x hp]
      cases x with
      | none => exact ih h
      | some v => simp at h; simp [h]

theorem getFirst_append (E : Env) (n : Nat) (a b : List Nat) : ∀ w : World,
    getFirst E w n (a ++ b) = match getFirst E w n a with
      | (.ok none, w') => getFirst E w' n b
      | r => r := by
  induction a with
  | nil => intro w; rfl
  | cons c cs ih =>
    intro w
    simp only [List.cons_append, getFirst]
    rcases getConst E w c n with ⟨r, w'⟩
    rcases r with e | x
    · rfl
    · cases x with
      | none => exact ih w'
      | some v => rfl

theorem pfirst_append (w : World) (n : Nat) (a b : List Nat) :
    pfirst w n (a ++ b) = match pfirst w n a with
      | some none => pfirst w n b
      | r => r := by
  induction a with
  | nil => rfl
  | cons c cs ih =>
    simp only [List.cons_append, pfirst]
    rcases pget (w.tab c n) with _ | x
    · rfl
    · cases x with
      | none => exact ih
      | some v => rfl

theorem privateAt_false {w : World} (h : NoPriv w) (c n : Nat) : privateAt w c n = false := by
  unfold privateAt
  split
  · exact h _ _
  · rfl

theorem search_pure (E : Env) (w : World) (i n : Nat) (r : Option Val)
    (h : pfirst w n (scopes w i) = some r) : search E w i n = (.ok r, w) := by
  unfold scopes at h
  rw [pfirst_append] at h
  unfold search
  rcases hl : pfirst w n (w.lex i) with _ | x
  · rw [hl] at h; simp at h
  · rw [hl] at h
    rw [getFirst_pure E w n _ x hl]
    cases x with
    | some v => simp at h; simp [h]
    | none =>
      simp only at h ⊢
      rw [pfirst_append] at h
      unfold viaAncestors
      rcases hc : pfirst w n (w.chain (lexClass w i)) with _ | y
      · rw [hc] at h; simp at h
      · rw [hc] at h
        rw [getFirst_pure E w n _ y hc]
        cases y with
        | some v => simp at h; simp [h]
        | none =>
          simp only at h ⊢
          by_cases hb : lexClass w i = BASIC
          · rw [if_pos hb] at h ⊢
            have := getFirst_pure E w n [OBJECT] r h
            unfold getFirst getFirst at this
            rcases hg : getConst E w OBJECT n with ⟨q, w'⟩
            rw [hg] at this
            rcases q with e | x
            · simpa using this
            · cases x with
              | none => simpa using this
              | some v => simpa using this
          · rw [if_neg hb] at h ⊢
            simp [pfirst] at h
            simp [h]

theorem valOf_some {x : Option (Option Val)} {v : Val} (h : valOf x = some v) :
    x = some (some v) := by
  rcases x with _ | _ | u
  · simp [valOf] at h
  · simp [valOf] at h
  · simp [valOf] at h; rw [h]

theorem modOf_some {x : Option (Option Val)} {c : Nat} (h : modOf x = some c) :
    x = some (some (.mod c)) := by
  rcases x with _ | _ | u
  · simp [modOf] at h
  · simp [modOf] at h
  · cases u <;> simp [modOf] at h
    rw [h]

theorem ppath_pure (E : Env) (w : World) (hp : NoPriv w) (n : Nat) (v : Val) :
    ∀ (pre : List Nat) (c : Nat), ppath w c pre n = some v → path E w c pre n = (.ok v, w)
  | [], c, h => by
    have h' := valOf_some h
    unfold path finalPart
    rw [privateAt_false hp]
    simp only [Bool.false_eq_true, if_false]
    unfold qualified
    rw [getFirst_pure E w n _ _ h']
  | m :: pre, c, h => by
    unfold ppath at h
    unfold path midPart
    rw [privateAt_false hp]
    simp only [Bool.false_eq_true, if_false]
    unfold qualified
    rcases hm : modOf (pfirst w m (qualChain w c)) with _ | d
    · rw [hm] at h; simp at h
    · rw [hm] at h
      rw [getFirst_pure E w m _ _ (modOf_some hm)]
      simp only [asMod]
      exact ppath_pure E w hp n v pre d h

/-- A lookup that has no effect finds its value and leaves the world alone. -/
theorem find_of_pfind (E : Env) (w : World) (s : Site) (b v : Val) (hs : Bare s ∨ NoPriv w)
    (h : pfind w s b = some v) : find E w s b = (.ok v, w) := by
  unfold pfind at h
  unfold find
  by_cases hd : s.dyn = true
  · rw [if_pos hd] at h ⊢
    have hp : NoPriv w := by
      rcases hs with hb | hp
      · rw [hb.1] at hd; cases hd
      · exact hp
    cases b with
    | obj k => simp at h
    | mod c => simp only [asMod] at h ⊢; exact ppath_pure E w hp _ _ _ _ h
  · rw [if_neg hd] at h ⊢
    by_cases ht : s.top = true
    · rw [if_pos ht] at h ⊢
      have hp : NoPriv w := by
        rcases hs with hb | hp
        · rw [hb.2.1] at ht; cases ht
        · exact hp
      exact ppath_pure E w hp _ _ _ _ h
    · rw [if_neg ht] at h ⊢
      cases hpre : s.pre with
      | nil =>
        rw [hpre] at h
        simp only at h ⊢
        unfold searchChecked
        rw [search_pure E w _ _ _ (valOf_some h)]
      | cons m pre =>
        rw [hpre] at h
        simp only at h ⊢
        have hp : NoPriv w := by
          rcases hs with hb | hp
          · rw [hb.2.2] at hpre; cases hpre
          · exact hp
        rcases hm : modOf (pfirst w m (scopes w s.code)) with _ | c
        · rw [hm] at h; simp at h
        · rw [hm] at h
          unfold searchChecked
          rw [search_pure E w _ _ _ (modOf_some hm)]
          simp only [asMod]
          exact ppath_pure E w hp _ _ _ _ h

end Verif.Const
