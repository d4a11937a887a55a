/-
`super` in terms of the ancestors.
-/
import Verif.Classes.CacheInv

namespace Verif.Classes

/-- The function a lookup over these modules finds. -/
def found (tbl : Nat → Option Entry) (l : List Nat) : Option Nat :=
  (searchIds tbl none none l).bind (·.func)

/-- Whether this position is one to continue from. -/
def due (occ : Option Nat) (matched : Nat) : Bool :=
  match occ with
  | none => true
  | some k => decide (k ≤ matched)

def superIds (disp : Nat → Bool) (tbl : Nat → Option Entry) (fid : Nat) (occ : Option Nat) :
    Nat → List Nat → Nat ⊕ Nat
  | matched, [] => .inr matched
  | matched, a :: rest =>
    if disp a then
      if due occ (matched + 1) then
        match found tbl rest with
        | some f =>
          if occ.isSome || f != fid then .inl f
          else superIds disp tbl fid occ (matched + 1) rest
        | none => superIds disp tbl fid occ (matched + 1) rest
      else superIds disp tbl fid occ (matched + 1) rest
    else superIds disp tbl fid occ matched rest

theorem funcBehind_eq (st : St) (name : Nat) (l : List Nat) :
    funcBehind st name l = found (fun a => st.entry a name) (view st l) := by
  unfold funcBehind found
  cases l with
  | nil => rfl
  | cons r l => dsimp only; rw [searchLoop_eq]

theorem superWalk_eq (fs : Funcs) (st : St) (fid name : Nat) (occ : Option Nat) :
    ∀ (l : List Nat) (k : Nat), superWalk fs st fid name occ k l =
      superIds (fun a => dispatchedBy fs st a name fid) (fun a => st.entry a name) fid occ k
        (view st l)
  | [], k => rfl
  | r :: l, k => by
    rw [superWalk, view_cons]
    unfold position
    cases ho : st.hasOrigin r with
    | true =>
      simp only [Bool.not_true, Bool.false_and, Bool.false_eq_true, if_false, if_true]
      exact superWalk_eq fs st fid name occ l k
    | false =>
      simp only [Bool.not_false, Bool.true_and, Bool.false_eq_true, if_false]
      rw [superIds, funcBehind_eq]
      simp only [superWalk_eq fs st fid name occ l]
      cases occ <;> cases found (fun a => st.entry a name) (view st l) <;> rfl

def ownerIds (own : Nat → Bool) (tbl : Nat → Option Entry) (fid : Nat) :
    Bool → List Nat → Nat ⊕ Bool
  | met, [] => .inr met
  | met, a :: rest =>
    if own a then
      match found tbl rest with
      | some f => if f != fid then .inl f else ownerIds own tbl fid true rest
      | none => ownerIds own tbl fid true rest
    else ownerIds own tbl fid met rest

theorem ownerWalk_eq (fs : Funcs) (st : St) (fid name : Nat) :
    ∀ (l : List Nat) (k : Bool), ownerWalk fs st fid name k l =
      ownerIds (fun a => (fs.owners fid).contains a) (fun a => st.entry a name) fid k (view st l)
  | [], k => rfl
  | r :: l, k => by
    rw [ownerWalk, view_cons]
    cases ho : st.hasOrigin r with
    | true =>
      simp only [Bool.not_true, Bool.false_and, Bool.false_eq_true, if_false, if_true]
      exact ownerWalk_eq fs st fid name l k
    | false =>
      simp only [Bool.not_false, Bool.true_and, Bool.false_eq_true, if_false]
      rw [ownerIds, funcBehind_eq]
      simp only [ownerWalk_eq fs st fid name l]
      cases found (fun a => st.entry a name) (view st l) <;> rfl

theorem superOccurrences_eq (fs : Funcs) (st : St) (c fid name : Nat) :
    superOccurrences fs st c fid name =
      ((view st (st.chain (st.obj c))).filter fun a => dispatchedBy fs st a name fid).length := by
  unfold superOccurrences
  generalize st.chain (st.obj c) = l
  induction l with
  | nil => rfl
  | cons r l ih =>
    rw [view_cons, List.filter_cons]
    unfold position at ih ⊢
    cases ho : st.hasOrigin r with
    | true => simpa using ih
    | false =>
      simp only [Bool.not_false, Bool.true_and, Bool.false_eq_true, if_false, List.filter_cons]
      split
      · simp only [List.length_cons]; rw [ih]
      · exact ih

variable {disp : Nat → Bool} {tbl : Nat → Option Entry} {fid : Nat}

theorem superIds_skip {occ : Option Nat} : ∀ {l : List Nat} {k : Nat} (rest : List Nat),
    (∀ a ∈ l, disp a = false) →
    superIds disp tbl fid occ k (l ++ rest) = superIds disp tbl fid occ k rest
  | [], k, rest, _ => rfl
  | a :: l, k, rest, h => by
    rw [List.cons_append, superIds, h a (by simp)]
    simp only [Bool.false_eq_true, if_false]
    exact superIds_skip rest (fun b hb => h b (by simp [hb]))

/-- The single position decides. -/
theorem superIds_single {pre post : List Nat} {a : Nat} (hpre : ∀ b ∈ pre, disp b = false)
    (ha : disp a = true) (hpost : ∀ b ∈ post, disp b = false) :
    superIds disp tbl fid none 0 (pre ++ a :: post) =
      match found tbl post with
      | some f => if f = fid then .inr 1 else .inl f
      | none => .inr 1 := by
  rw [superIds_skip _ hpre, superIds, ha]
  have hrest : superIds disp tbl fid none (0 + 1) post = .inr 1 := by
    have := superIds_skip (disp := disp) (tbl := tbl) (fid := fid) (occ := none) (k := 1) []
      (l := post) hpost
    rw [List.append_nil] at this
    rw [Nat.zero_add, this]
    rfl
  simp only [if_true, due]
  rw [hrest]
  cases found tbl post with
  | none => rfl
  | some f =>
    dsimp only
    by_cases hf : f = fid
    · simp [hf]
    · simp [hf]

/-- The `k`-th position decides when there is a method behind it. -/
theorem superIds_at {k : Nat} {pre post : List Nat} {a f : Nat} (ha : disp a = true)
    (hf : found tbl post = some f) : ∀ {n : Nat}, n + (pre.filter disp).length + 1 = k →
    superIds disp tbl fid (some k) n (pre ++ a :: post) = .inl f := by
  induction pre with
  | nil =>
    intro n hk
    simp at hk
    rw [List.nil_append, superIds, ha]
    simp only [if_true]
    rw [if_pos (by simp [due]; omega), hf]
    rfl
  | cons b pre ih =>
    intro n hk
    rw [List.cons_append, superIds]
    cases hb : disp b with
    | false =>
      simp only [Bool.false_eq_true, if_false]
      apply ih
      rw [List.filter_cons, hb] at hk
      simpa using hk
    | true =>
      rw [List.filter_cons, hb] at hk
      simp at hk
      simp only [if_true]
      rw [if_neg (by simp [due]; omega)]
      apply ih
      omega

theorem filter_single {pre post : List Nat} {a : Nat} (hpre : ∀ b ∈ pre, disp b = false)
    (ha : disp a = true) (hpost : ∀ b ∈ post, disp b = false) :
    ((pre ++ a :: post).filter disp) = [a] := by
  rw [List.filter_append, List.filter_cons, ha, List.filter_eq_nil_iff.2 (by simpa using hpre),
    List.filter_eq_nil_iff.2 (by simpa using hpost)]
  rfl

end Verif.Classes
