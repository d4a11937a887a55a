import Verif.Lazy.Model
import Mathlib.Tactic.SplitIfs
import Mathlib.Tactic.Linarith
import Mathlib.Data.List.GetD

/-! Lemmas for `Verif.Lazy.Props`. -/

namespace Verif.Lazy

variable {V S : Type} [DecidableEq V] (mk : Mk V)

/-- a stage whose blocks change nothing -/
inductive PStage (V : Type) where
  | map (f : V → V)
  | flatMap (f : V → V ⊕ List V)
  | select (p : V → Bool)
  | reject (p : V → Bool)
  | filterMap (f : V → Option V)
  | grep (p : V → Bool) (f : V → V)
  | grepV (p : V → Bool) (f : V → V)
  | compact
  | uniq (f : V → V)
  | take (n : Nat)
  | takeWhile (p : V → Bool)
  | drop (n : Nat)
  | dropWhile (p : V → Bool)
  | eachIndex (off : Int)
  | withIndex (off : Int)
  | zip (ls : List (List V))

/-- the stage -/
def PStage.toStage : PStage V → Stage V S
  | .map f => .map fun v s => (f v, s)
  | .flatMap f => .flatMap fun v s => (f v, s)
  | .select p => .select fun v s => (p v, s)
  | .reject p => .reject fun v s => (p v, s)
  | .filterMap f => .filterMap fun v s => (f v, s)
  | .grep p f => .grep (fun v s => (p v, s)) fun v s => (f v, s)
  | .grepV p f => .grepV (fun v s => (p v, s)) fun v s => (f v, s)
  | .compact => .compact
  | .uniq f => .uniq fun v s => (f v, s)
  | .take n => .take n
  | .takeWhile p => .takeWhile fun v s => (p v, s)
  | .drop n => .drop n
  | .dropWhile p => .dropWhile fun v s => (p v, s)
  | .eachIndex off => .eachIndex off fun _ _ s => s
  | .withIndex off => .withIndex off
  | .zip ls => .zip ls

/-- what a block of `flat_map` contributes -/
def flatten1 : V ⊕ List V → List V
  | .inl w => [w]
  | .inr ws => ws

/-- the elements whose key did not occur before -/
def firsts (f : V → V) : List V → List V → List V
  | _, [] => []
  | before, v :: vs => if f v ∈ before.map f then firsts f (before ++ [v]) vs else v :: firsts f (before ++ [v]) vs

/-- the eager operation of the same name on an Array -/
def PStage.eager : PStage V → List V → List V
  | .map f, xs => xs.map f
  | .flatMap f, xs => xs.flatMap fun v => flatten1 (f v)
  | .select p, xs => xs.filter p
  | .reject p, xs => xs.filter fun v => !p v
  | .filterMap f, xs => xs.filterMap f
  | .grep p f, xs => (xs.filter p).map f
  | .grepV p f, xs => (xs.filter fun v => !p v).map f
  | .compact, xs => xs.filter fun v => v ≠ mk.nil
  | .uniq f, xs => firsts f [] xs
  | .take n, xs => xs.take n
  | .takeWhile p, xs => xs.takeWhile p
  | .drop n, xs => xs.drop n
  | .dropWhile p, xs => xs.dropWhile p
  | .eachIndex _, xs => xs
  | .withIndex off, xs => xs.mapIdx fun i v => mk.arr [v, mk.int (off + i)]
  | .zip ls, xs => xs.mapIdx fun i v => mk.arr (v :: ls.map (·.getD i mk.nil))

/-- all of them, one after the other -/
def eager (sts : List (PStage V)) (xs : List V) : List V := sts.foldl (fun xs st => st.eager mk xs) xs

/-- what a stage emits for a value, its new locals, and whether it breaks then -/
def PStage.outs : PStage V → Loc V → V → List V × Loc V × Bool
  | .map f, l, v => ([f v], l, false)
  | .flatMap f, l, v => (flatten1 (f v), l, false)
  | .select p, l, v => (if p v then [v] else [], l, false)
  | .reject p, l, v => (if p v then [] else [v], l, false)
  | .filterMap f, l, v => ((f v).toList, l, false)
  | .grep p f, l, v => (if p v then [f v] else [], l, false)
  | .grepV p f, l, v => (if p v then [] else [f v], l, false)
  | .compact, l, v => (if v = mk.nil then [] else [v], l, false)
  | .uniq f, l, v => if f v ∈ l.seen then ([], l, false) else ([v], { l with seen := f v :: l.seen }, false)
  | .take n, l, v => ([v], { l with n := l.n + 1 }, decide (l.n + 1 ≥ n))
  | .takeWhile p, l, v => if p v then ([v], l, false) else ([], l, true)
  | .drop n, l, v => (if l.n ≥ n then [v] else [], { l with n := l.n + 1 }, false)
  | .dropWhile p, l, v =>
    if l.dropping then if p v then ([], l, false) else ([v], { l with dropping := false }, false)
    else ([v], l, false)
  | .eachIndex _, l, v => ([v], { l with n := l.n + 1 }, false)
  | .withIndex off, l, v => ([mk.arr [v, mk.int (off + l.n)]], { l with n := l.n + 1 }, false)
  | .zip ls, l, v => ([mk.arr (v :: ls.map (·.getD l.n mk.nil))], { l with n := l.n + 1 }, false)

/-- what a stage emits for many values, and whether it breaks -/
def PStage.outAll (st : PStage V) : Loc V → List V → List V × Bool
  | _, [] => ([], false)
  | l, v :: vs =>
    match st.outs mk l v with
    | (o, _, true) => (o, true)
    | (o, l', false) =>
      match PStage.outAll st l' vs with
      | (o', b) => (o ++ o', b)

theorem step_outs {R : Type} (next : R → V → S → R × S × Bool) (st : PStage V) (l : Loc V) (r : R)
    (v : V) (s : S) :
    let A := step mk next st.toStage (l, r) v s
    let B := eachAll next (st.outs mk l v).1 r s
    A.1.2 = B.1 ∧ A.2.1 = B.2.1 ∧ A.2.2 = (B.2.2 || (st.outs mk l v).2.2) ∧
      (A.2.2 = false → A.1.1 = (st.outs mk l v).2.1) := by
  intro A B
  have one : ∀ (w : V) (s : S), eachAll next [w] r s = next r w s := by
    intro w s
    rw [eachAll]
    rcases next r w s with ⟨r', s', _ | _⟩ <;> rfl
  have zero : ∀ (s : S), eachAll next [] r s = (r, s, false) := fun _ => rfl
  cases st
  case take n =>
    simp only [A, B, PStage.toStage, step, PStage.outs, one]
    rcases next r v s with ⟨r', s', _ | _⟩ <;> simp
  case flatMap f =>
    simp only [A, B, PStage.toStage, step, PStage.outs]
    cases hf : f v with
    | inl w => simp [flatten1, one, emit]
    | inr ws => simp [flatten1]
  case filterMap f =>
    simp only [A, B, PStage.toStage, step, PStage.outs]
    cases hf : f v with
    | none => simp [zero, skip]
    | some w => simp [one, emit]
  all_goals
    simp only [A, B, PStage.toStage, step, PStage.outs]
    first
    | (split_ifs <;> simp [one, emit, skip, zero])
    | simp [one, emit]

theorem eachAll_append {R : Type} (next : R → V → S → R × S × Bool) (xs ys : List V) (r : R) (s : S) :
    eachAll next (xs ++ ys) r s =
      match eachAll next xs r s with
      | (r', s', true) => (r', s', true)
      | (r', s', false) => eachAll next ys r' s' := by
  induction xs generalizing r s with
  | nil => rfl
  | cons v vs ih =>
    rw [List.cons_append, eachAll, eachAll]
    rcases next r v s with ⟨r', s', _ | _⟩
    · exact ih r' s'
    · rfl

theorem stage_outAll {R : Type} (next : R → V → S → R × S × Bool) (st : PStage V) (xs : List V)
    (l : Loc V) (r : R) (s : S) :
    let A := eachAll (step mk next st.toStage) xs (l, r) s
    let B := eachAll next (st.outAll mk l xs).1 r s
    A.1.2 = B.1 ∧ A.2.1 = B.2.1 ∧ A.2.2 = (B.2.2 || (st.outAll mk l xs).2) := by
  induction xs generalizing l r s with
  | nil => simp [eachAll, PStage.outAll]
  | cons v vs ih =>
    intro A B
    obtain ⟨h1, h2, h3, h4⟩ := step_outs mk next st l r v s
    simp only [A, B, eachAll, PStage.outAll]
    generalize hA : step mk next st.toStage (l, r) v s = a at h1 h2 h3 h4
    generalize hO : st.outs mk l v = o at h1 h2 h3 h4
    obtain ⟨⟨l1, r1⟩, s1, b1⟩ := a
    obtain ⟨o1, l2, b2⟩ := o
    simp only at h1 h2 h3 h4
    generalize hB : eachAll next o1 r s = b at h1 h2 h3
    obtain ⟨r3, s3, b3⟩ := b
    simp only at h1 h2 h3
    subst h1 h2
    cases b1 with
    | true =>
      cases b2 with
      | true => simp [hB]
      | false =>
        simp only [Bool.or_false] at h3
        subst h3
        simp only
        rw [eachAll_append, hB]
        simp
    | false =>
      have hb3 : b3 = false := by cases b3; rfl; simp at h3
      have hb2 : b2 = false := by cases b2; rfl; simp at h3
      subst hb3 hb2
      have hl := h4 rfl
      subst hl
      obtain ⟨i1, i2, i3⟩ := ih l1 r1 s1
      simp only
      rw [eachAll_append, hB]
      exact ⟨i1, i2, i3⟩

/-! ## what a stage emits is what the eager operation gives -/

theorem outAll_simple (st : PStage V) (g : V → List V)
    (h : ∀ l v, ∃ l', st.outs mk l v = (g v, l', false)) (l : Loc V) (xs : List V) :
    st.outAll mk l xs = (xs.flatMap g, false) := by
  induction xs generalizing l with
  | nil => rfl
  | cons v vs ih =>
    obtain ⟨l', hl⟩ := h l v
    rw [PStage.outAll, hl]
    simp only [ih l', List.flatMap_cons]

theorem flatMap_ite (p : V → Bool) (f : V → V) (xs : List V) :
    (xs.flatMap fun v => if p v then [f v] else []) = (xs.filter p).map f := by
  induction xs with
  | nil => rfl
  | cons v vs ih =>
    rw [List.flatMap_cons, ih]
    by_cases h : p v <;> simp [h]

theorem flatMap_ite_not (p : V → Bool) (f : V → V) (xs : List V) :
    (xs.flatMap fun v => if p v then [] else [f v]) = (xs.filter fun v => !p v).map f := by
  rw [← flatMap_ite]
  congr 1
  funext v
  cases p v <;> rfl

theorem outAll_take (n : Nat) (xs : List V) (l : Loc V) (h : l.n < n) :
    (PStage.take n).outAll mk l xs = (xs.take (n - l.n), decide (n - l.n ≤ xs.length)) := by
  induction xs generalizing l with
  | nil => simp [PStage.outAll]; omega
  | cons v vs ih =>
    rw [PStage.outAll]
    simp only [PStage.outs]
    by_cases hn : l.n + 1 ≥ n
    · have : n - l.n = 1 := by omega
      simp [hn, this]
    · have h1 : n - l.n = (n - (l.n + 1)) + 1 := by omega
      simp only [hn, decide_false]
      rw [ih { l with n := l.n + 1 } (by show l.n + 1 < n; omega)]
      rw [h1]
      simp

theorem outAll_takeWhile (p : V → Bool) (xs : List V) (l : Loc V) :
    (PStage.takeWhile p).outAll mk l xs = (xs.takeWhile p, xs.any fun v => !p v) := by
  induction xs generalizing l with
  | nil => rfl
  | cons v vs ih =>
    rw [PStage.outAll]
    simp only [PStage.outs]
    by_cases h : p v
    · simp only [h, if_true]
      rw [ih]
      simp [h]
    · simp [h]

theorem outAll_drop (n : Nat) (xs : List V) (l : Loc V) :
    (PStage.drop n).outAll mk l xs = (xs.drop (n - l.n), false) := by
  induction xs generalizing l with
  | nil => simp [PStage.outAll]
  | cons v vs ih =>
    rw [PStage.outAll]
    simp only [PStage.outs]
    rw [ih]
    simp only
    by_cases h : l.n ≥ n
    · have h1 : n - l.n = 0 := by omega
      have h2 : n - (l.n + 1) = 0 := by omega
      simp [h, h1, h2]
    · have h1 : n - l.n = (n - (l.n + 1)) + 1 := by omega
      rw [if_neg h, h1]
      simp

theorem outAll_dropWhile_off (p : V → Bool) (xs : List V) (l : Loc V) (h : l.dropping = false) :
    (PStage.dropWhile p).outAll mk l xs = (xs, false) := by
  induction xs with
  | nil => rfl
  | cons v vs ih =>
    rw [PStage.outAll]
    simp [PStage.outs, h, ih]

theorem outAll_dropWhile (p : V → Bool) (xs : List V) (l : Loc V) (h : l.dropping = true) :
    (PStage.dropWhile p).outAll mk l xs = (xs.dropWhile p, false) := by
  induction xs with
  | nil => rfl
  | cons v vs ih =>
    rw [PStage.outAll]
    simp only [PStage.outs, h, if_true]
    by_cases hp : p v
    · simp [hp, ih]
    · simp [hp, outAll_dropWhile_off]

theorem outAll_idx (st : PStage V) (g : Nat → V → V)
    (h : ∀ l v, st.outs mk l v = ([g l.n v], { l with n := l.n + 1 }, false)) (l : Loc V) (xs : List V) :
    st.outAll mk l xs = (xs.mapIdx fun i v => g (l.n + i) v, false) := by
  induction xs generalizing l with
  | nil => rfl
  | cons v vs ih =>
    rw [PStage.outAll, h]
    simp only
    rw [ih]
    simp only [List.mapIdx_cons, List.singleton_append, Nat.add_zero]
    congr 2
    · have : (fun i v => g (l.n + 1 + i) v) = fun i v => g (l.n + (i + 1)) v := by
        funext i v; congr 1; omega
      rw [this]

theorem outAll_uniq (f : V → V) (xs before : List V) (l : Loc V) (h : ∀ k, k ∈ l.seen ↔ k ∈ before.map f) :
    (PStage.uniq f).outAll mk l xs = (firsts f before xs, false) := by
  induction xs generalizing l before with
  | nil => rfl
  | cons v vs ih =>
    rw [PStage.outAll]
    simp only [PStage.outs]
    by_cases hv : f v ∈ l.seen
    · rw [if_pos hv, firsts, if_pos ((h _).1 hv)]
      simp only
      rw [ih (before ++ [v]) l]
      · simp
      · intro k
        rw [h, List.map_append, List.mem_append]
        constructor
        · exact Or.inl
        · rintro (hk | hk)
          · exact hk
          · simp at hk; subst hk; exact (h _).1 hv
    · rw [if_neg hv, firsts, if_neg (fun hk => hv ((h _).2 hk))]
      simp only
      rw [ih (before ++ [v]) { l with seen := f v :: l.seen }]
      · simp
      · intro k
        simp only [List.mem_cons, List.map_append, List.mem_append, List.map_cons, List.map_nil,
          List.not_mem_nil, or_false, h]
        exact or_comm

/-- whether a stage breaks by itself on these values -/
def PStage.breaks : PStage V → List V → Bool
  | .take n, xs => decide (n ≤ xs.length)
  | .takeWhile p, xs => xs.any fun v => !p v
  | _, _ => false

theorem outAll_eager (st : PStage V) (hst : ∀ n, st = .take n → 0 < n) (xs : List V) :
    st.outAll mk Loc.init xs = (st.eager mk xs, st.breaks xs) := by
  cases st with
  | map f =>
    rw [outAll_simple mk _ (fun v => [f v]) (fun l v => ⟨l, rfl⟩)]
    simp [PStage.eager, PStage.breaks]
    induction xs with
    | nil => rfl
    | cons v vs ih => simp [ih]
  | flatMap f => exact outAll_simple mk _ (fun v => flatten1 (f v)) (fun l v => ⟨l, rfl⟩) _ _
  | select p =>
    rw [outAll_simple mk _ (fun v => if p v then [v] else []) (fun l v => ⟨l, rfl⟩)]
    have := flatMap_ite p id xs
    rw [List.map_id] at this; simp only [id] at this
    rw [this]
    rfl
  | reject p =>
    rw [outAll_simple mk _ (fun v => if p v then [] else [v]) (fun l v => ⟨l, rfl⟩)]
    have := flatMap_ite_not p id xs
    rw [List.map_id] at this; simp only [id] at this
    rw [this]
    rfl
  | filterMap f =>
    rw [outAll_simple mk _ (fun v => (f v).toList) (fun l v => ⟨l, rfl⟩)]
    simp only [PStage.eager, PStage.breaks]
    congr 1
    induction xs with
    | nil => rfl
    | cons v vs ih => cases hf : f v <;> simp [hf, ih]
  | grep p f =>
    rw [outAll_simple mk _ (fun v => if p v then [f v] else []) (fun l v => ⟨l, rfl⟩), flatMap_ite p f]
    simp [PStage.eager, PStage.breaks]
  | grepV p f =>
    rw [outAll_simple mk _ (fun v => if p v then [] else [f v]) (fun l v => ⟨l, rfl⟩), flatMap_ite_not p f]
    simp [PStage.eager, PStage.breaks]
  | compact =>
    rw [outAll_simple mk _ (fun v => if v = mk.nil then [] else [v]) (fun l v => ⟨l, rfl⟩)]
    simp only [PStage.eager, PStage.breaks]
    congr 1
    induction xs with
    | nil => rfl
    | cons v vs ih => by_cases hv : v = mk.nil <;> simp [hv, ih]
  | uniq f => exact outAll_uniq mk f xs [] Loc.init (by simp [Loc.init])
  | take n => exact outAll_take mk n xs Loc.init (hst n rfl)
  | takeWhile p => exact outAll_takeWhile mk p xs _
  | drop n => exact outAll_drop mk n xs Loc.init
  | dropWhile p => exact outAll_dropWhile mk p xs _ rfl
  | eachIndex off =>
    rw [outAll_idx mk _ (fun _ v => v) (fun l v => rfl)]
    simp only [PStage.eager, PStage.breaks]
    congr 1
    apply List.ext_getElem <;> simp
  | withIndex off =>
    rw [outAll_idx mk _ (fun i v => mk.arr [v, mk.int (off + i)]) (fun l v => rfl)]
    simp [PStage.eager, PStage.breaks, Loc.init]
  | zip ls =>
    rw [outAll_idx mk _ (fun i v => mk.arr (v :: ls.map (·.getD i mk.nil))) (fun l v => rfl)]
    simp [PStage.eager, PStage.breaks, Loc.init]

/-- a stage in front of a chain: the rest of the chain gets what the eager operation gives -/
theorem stage_eager {R : Type} (next : R → V → S → R × S × Bool) (st : PStage V)
    (hst : ∀ n, st = .take n → 0 < n) (xs : List V) (r : R) (s : S) :
    let A := eachAll (step mk next st.toStage) xs (Loc.init, r) s
    let B := eachAll next (st.eager mk xs) r s
    A.1.2 = B.1 ∧ A.2.1 = B.2.1 ∧ A.2.2 = (B.2.2 || st.breaks xs) := by
  have := stage_outAll mk next st xs Loc.init r s
  rw [outAll_eager mk st hst] at this
  exact this

/-- the stages of a chain -/
def stages (sts : List (PStage V)) : List (Stage V S) := sts.map PStage.toStage

/-- a chain: the consumer gets what the eager operations give -/
theorem chain_eager (k : V → S → S × Bool) (sts : List (PStage V)) (hst : ∀ n, PStage.take n ∈ sts → 0 < n)
    (xs : List V) (s : S) :
    let A := eachAll (push mk k (stages sts)) xs (Locs.init _) s
    let B := eachAll (fun (_ : Unit) v s => ((), k v s)) (eager mk sts xs) () s
    A.2.1 = B.2.1 ∧ (B.2.2 = true → A.2.2 = true) := by
  induction sts generalizing xs with
  | nil =>
    intro A B
    have : A = B := rfl
    rw [this]
    exact ⟨rfl, id⟩
  | cons st sts ih =>
    intro A B
    obtain ⟨h1, h2, h3⟩ := stage_eager mk (push mk k (stages sts)) st
      (fun n hn => hst n (by simp [hn])) xs (Locs.init _) s
    obtain ⟨i1, i2⟩ := ih (fun n hn => hst n (by simp [hn])) (st.eager mk xs)
    refine ⟨h2.trans i1, fun hB => ?_⟩
    have := i2 hB
    show (eachAll (step mk (push mk k (stages sts)) st.toStage) xs (Loc.init, Locs.init _) s).2.2 = true
    rw [h3, this]
    rfl

/-- a chain breaks as soon as one of its stages does -/
theorem chain_breaks (k : V → S → S × Bool) (pre : List (PStage V)) (st : PStage V) (post : List (PStage V))
    (hst : ∀ n, PStage.take n ∈ pre ++ st :: post → 0 < n) (xs : List V) (s : S)
    (hb : st.breaks (eager mk pre xs) = true) :
    (eachAll (push mk k (stages (pre ++ st :: post))) xs (Locs.init _) s).2.2 = true := by
  induction pre generalizing xs with
  | nil =>
    obtain ⟨_, _, h3⟩ := stage_eager mk (push mk k (stages post)) st
      (fun n hn => hst n (by simp [hn])) xs (Locs.init _) s
    show (eachAll (step mk (push mk k (stages post)) st.toStage) xs (Loc.init, Locs.init _) s).2.2 = true
    have hb' : st.breaks xs = true := hb
    rw [h3, hb', Bool.or_true]
  | cons p pre ih =>
    obtain ⟨_, _, h3⟩ := stage_eager mk (push mk k (stages (pre ++ st :: post))) p
      (fun n hn => hst n (by simp [hn])) xs (Locs.init _) s
    show (eachAll (step mk (push mk k (stages (pre ++ st :: post))) p.toStage) xs (Loc.init, Locs.init _) s).2.2 = true
    rw [h3, ih (fun n hn => hst n (List.mem_cons_of_mem p hn)) (p.eager mk xs) hb]
    rfl

theorem walk_eachAll (k : V → S → S × Bool) (sts : List (Stage V S)) (xs : List V)
    (r : Locs V sts.length) (s : S) :
    (walk mk k sts xs r s).1 = (eachAll (push mk k sts) xs r s).2.1 ∧
      (walk mk k sts xs r s).2.2 = (eachAll (push mk k sts) xs r s).2.2 ∧
      (walk mk k sts xs r s).2.1 ≤ xs.length ∧
      ((walk mk k sts xs r s).2.2 = false → (walk mk k sts xs r s).2.1 = xs.length) := by
  induction xs generalizing r s with
  | nil => simp [walk, eachAll]
  | cons v vs ih =>
    rw [walk, eachAll]
    generalize push mk k sts r v s = a
    obtain ⟨r', s', _ | _⟩ := a
    · obtain ⟨h1, h2, h3, h4⟩ := ih r' s'
      simp only
      refine ⟨h1, h2, by simpa using h3, fun h => ?_⟩
      simp only [List.length_cons]
      rw [h4 h]
    · simp

/-- a walk that ends does not see the rest of its source -/
theorem walk_append (k : V → S → S × Bool) (sts : List (Stage V S)) (xs ys : List V)
    (r : Locs V sts.length) (s : S) (h : (walk mk k sts xs r s).2.2 = true) :
    walk mk k sts (xs ++ ys) r s = walk mk k sts xs r s := by
  induction xs generalizing r s with
  | nil => simp [walk] at h
  | cons v vs ih =>
    rw [List.cons_append]
    rw [walk] at h ⊢
    rw [walk]
    generalize push mk k sts r v s = a at h
    obtain ⟨r', s', _ | _⟩ := a
    · simp only at h ⊢
      rw [ih r' s' h]
    · rfl

end Verif.Lazy
