import Verif.Enumer.Model
import Verif.Lazy.Props
import Mathlib.Tactic.SplitIfs
import Mathlib.Tactic.Linarith
import Mathlib.Order.Basic
import Mathlib.Order.Defs.LinearOrder

/-! # C135, C136: Enumerable -/

namespace Verif.Enumer

variable {V : Type}

theorem go_foldl {S : Type} (f : S → V → S) (s : S) (xs : List V) : go f s xs = xs.foldl f s := by
  induction xs generalizing s with
  | nil => rfl
  | cons x xs ih =>
    rw [List.foldl_cons, ← ih]
    rfl

/-- a walk that leaves does not see the rest -/
theorem each_append {S : Type} (body : S → V → S × Bool) (s : S) (xs ys : List V)
    (h : (each body s xs).2.2 = true) : each body s (xs ++ ys) = each body s xs := by
  induction xs generalizing s with
  | nil => simp [each] at h
  | cons x xs ih =>
    rw [List.cons_append]
    rw [each] at h ⊢
    rw [each]
    generalize body s x = a at h
    obtain ⟨s', _ | _⟩ := a
    · simp only at h ⊢
      rw [ih s' h]
    · rfl

/-! ## Arrays from a walk -/

theorem foldl_append {U : Type} (g : V → List U) (xs : List V) (acc : List U) :
    xs.foldl (fun res x => res ++ g x) acc = acc ++ xs.flatMap g := by
  induction xs generalizing acc with
  | nil => simp
  | cons x xs ih => rw [List.foldl_cons, ih]; simp

theorem foldl_app {U : Type} (F : List U → V → List U) (g : V → List U) (h : ∀ res x, F res x = res ++ g x)
    (xs : List V) (acc : List U) : xs.foldl F acc = acc ++ xs.flatMap g := by
  have : F = fun res x => res ++ g x := by funext res x; exact h res x
  rw [this, foldl_append]

/-- C135: `map`, `select`, `reject`, `filter_map`, `flat_map`, `partition`, `drop`, `drop_while`,
`inject` and `count` are what their names say. -/
theorem C135_arrays (p : V → Bool) {U : Type} (f : V → U) (g : V → Option U) (h : V → U ⊕ List U)
    (n : Nat) (xs : List V) :
    map f xs = xs.map f ∧ filter p xs = xs.filter p ∧ reject p xs = xs.filter (fun x => !p x) ∧
      filterMap g xs = xs.filterMap g ∧
      flatMap h xs = xs.flatMap (fun x => match h x with | .inl r => [r] | .inr a => a) ∧
      partition p xs = (xs.filter p, xs.filter (fun x => !p x)) ∧
      drop n xs = xs.drop n ∧ dropWhile p xs = xs.dropWhile p ∧
      count p xs = (xs.filter p).length := by
  refine ⟨?_, ?_, ?_, ?_, ?_, ?_, ?_, ?_, ?_⟩
  · unfold map
    rw [go_foldl, foldl_append (fun x => [f x])]
    induction xs <;> simp_all
  · unfold filter
    rw [go_foldl]
    have : (fun (res : List V) x => if p x = true then res ++ [x] else res) =
        fun res x => res ++ (if p x then [x] else []) := by
      funext res x; split_ifs <;> simp
    rw [this, foldl_append]
    induction xs with
    | nil => rfl
    | cons x xs ih => by_cases hp : p x <;> simp_all
  · unfold reject
    rw [go_foldl]
    have : (fun (res : List V) x => if p x = true then res else res ++ [x]) =
        fun res x => res ++ (if p x then [] else [x]) := by
      funext res x; split_ifs <;> simp
    rw [this, foldl_append]
    induction xs with
    | nil => rfl
    | cons x xs ih => by_cases hp : p x <;> simp_all
  · unfold filterMap
    rw [go_foldl]
    refine (foldl_app _ (fun x => (g x).toList) (fun res x => by cases hg : g x <;> simp) xs []).trans ?_
    induction xs with
    | nil => rfl
    | cons x xs ih => cases hg : g x <;> simp_all
  · unfold flatMap
    rw [go_foldl]
    exact foldl_app _ _ (fun res x => by cases h x <;> rfl) xs []
  · unfold partition
    rw [go_foldl]
    have key : ∀ a b : List V, xs.foldl (fun x x_1 => match x with
        | (y, n) => if p x_1 = true then (y ++ [x_1], n) else (y, n ++ [x_1])) (a, b) =
        (a ++ xs.filter p, b ++ xs.filter (fun x => !p x)) := by
      induction xs with
      | nil => simp
      | cons x xs ih =>
        intro a b
        rw [List.foldl_cons]
        by_cases hp : p x
        · simp only [hp, if_true]
          rw [ih]
          simp [hp]
        · simp only [hp]
          rw [if_neg (by simp), ih]
          simp [hp]
    have := key [] []
    simpa using this
  · unfold drop
    rw [go_foldl]
    have key : ∀ (a : List V) (i : Nat), (xs.foldl (fun x x_1 => match x with
        | (res, i) => (if i ≥ n then res ++ [x_1] else res, i + 1)) (a, i)).1 =
        a ++ xs.drop (n - i) := by
      induction xs with
      | nil => simp
      | cons x xs ih =>
        intro a i
        rw [List.foldl_cons]
        simp only
        rw [ih]
        by_cases hi : i ≥ n
        · have h1 : n - i = 0 := by omega
          have h2 : n - (i + 1) = 0 := by omega
          simp [hi, h1, h2]
        · have h1 : n - i = (n - (i + 1)) + 1 := by omega
          rw [if_neg hi, h1]
          simp
    have := key [] 0
    simpa using this
  · unfold dropWhile
    rw [go_foldl]
    have key2 : ∀ a : List V, (xs.foldl (fun x x_1 => match x with
        | (res, dropping) => if dropping = true then (if p x_1 = true then (res, true) else (res ++ [x_1], false))
            else (res ++ [x_1], false)) (a, false)).1 = a ++ xs := by
      induction xs with
      | nil => simp
      | cons x xs ih =>
        intro a
        rw [List.foldl_cons]
        simp only [Bool.false_eq_true, if_false]
        rw [ih]
        simp
    have key : ∀ ys, (∀ a : List V, (ys.foldl (fun x x_1 => match x with
        | (res, dropping) => if dropping = true then (if p x_1 = true then (res, true) else (res ++ [x_1], false))
            else (res ++ [x_1], false)) (a, false)).1 = a ++ ys) := by
      intro ys
      induction ys with
      | nil => simp
      | cons x ys ih =>
        intro a
        rw [List.foldl_cons]
        simp only [Bool.false_eq_true, if_false]
        rw [ih]
        simp
    induction xs with
    | nil => rfl
    | cons x xs ih =>
      rw [List.foldl_cons]
      by_cases hp : p x
      · simp only [hp, if_true]
        rw [ih]
        · simp [hp]
        · exact key xs
      · simp only [hp, if_true]
        rw [if_neg (by simp), key]
        simp [hp]
  · unfold count
    rw [go_foldl]
    have key : ∀ a : Nat, xs.foldl (fun n x => if p x = true then n + 1 else n) a = a + (xs.filter p).length := by
      induction xs with
      | nil => simp
      | cons x xs ih =>
        intro a
        rw [List.foldl_cons, ih]
        by_cases hp : p x
        · simp [hp]; omega
        · simp [hp]
    simpa using key 0

example : partition (fun n => n % 2 == 0) [1, 2, 3, 4] = ([2, 4], [1, 3]) := by decide

/-- C135: `inject` folds from the left, seeded by the first element if there is no seed. -/
theorem C135_inject {A : Type} (f : A → V → A) (init : A) (g : V → V → V) (x : V) (xs : List V) :
    inject f init xs = xs.foldl f init ∧ inject1 g (x :: xs) = some (xs.foldl g x) ∧
      inject1 g [] = none := by
  refine ⟨go_foldl f init xs, ?_, rfl⟩
  unfold inject1
  rw [go_foldl, List.foldl_cons]
  simp only
  induction xs generalizing x with
  | nil => rfl
  | cons y xs ih => rw [List.foldl_cons, List.foldl_cons]; exact ih (g x y)

/-! ## Walks that end early -/

theorem each_search {S : Type} (p : V → Bool) (hit : S → V → S) (miss : S → V → S) (s : S) (xs : List V) :
    each (fun s x => if p x then (hit s x, true) else (miss s x, false)) s xs =
      ((match xs.find? p with
        | some x => hit ((xs.takeWhile fun x => !p x).foldl miss s) x
        | none => xs.foldl miss s), min (xs.findIdx p + 1) xs.length, xs.any p) := by
  induction xs generalizing s with
  | nil => simp [each]
  | cons x xs ih =>
    rw [each]
    by_cases hp : p x
    · simp [hp, List.findIdx_cons]
    · simp only [hp]
      rw [if_neg (by simp)]
      simp only
      rw [ih]
      simp [hp, List.findIdx_cons]

/-- C135: `find`, `find_index`, `any?`, `include?`, `all?`, `none?` give what they should, and take
from the source exactly the values up to the one that decides. -/
theorem C135_search (p : V → Bool) (xs : List V) :
    find p xs = (xs.find? p, min (xs.findIdx p + 1) xs.length) ∧
      findIndex p xs = (xs.findIdx? p, min (xs.findIdx p + 1) xs.length) ∧
      any p xs = (xs.any p, min (xs.findIdx p + 1) xs.length) ∧
      all p xs = (xs.all p, min (xs.findIdx (fun x => !p x) + 1) xs.length) ∧
      none? p xs = (!xs.any p, min (xs.findIdx p + 1) xs.length) := by
  refine ⟨?_, ?_, ?_, ?_, ?_⟩
  · unfold find
    have := each_search p (fun (_ : Option V) x => some x) (fun _ _ => none) none xs
    rw [this]
    simp only
    congr 1
    cases hf : xs.find? p with
    | some x => rfl
    | none =>
      simp only
      clear hf this
      induction xs with
      | nil => rfl
      | cons x xs ih => simpa using ih
  · unfold findIndex
    have := each_search p (fun (s : Option Nat × Nat) _ => (some s.2, s.2)) (fun s _ => (none, s.2 + 1)) (none, 0) xs
    rw [this]
    simp only
    congr 1
    have cnt : ∀ (ys : List V) (i : Nat),
        ys.foldl (fun (s : Option Nat × Nat) (_ : V) => (none, s.2 + 1)) (none, i) = (none, i + ys.length) := by
      intro ys
      induction ys with
      | nil => simp
      | cons y ys ih => intro i; rw [List.foldl_cons, ih]; simp; omega
    rw [cnt, cnt]
    clear this cnt
    have h2 : ∀ ys : List V, ys.findIdx? p = (ys.find? p).map fun _ => (ys.takeWhile fun x => !p x).length := by
      intro ys
      induction ys with
      | nil => rfl
      | cons y ys ih =>
        by_cases hp : p y
        · simp [hp, List.findIdx?_cons]
        · rw [List.findIdx?_cons]
          simp only [hp]
          rw [if_neg (by simp), ih]
          simp [hp]
          cases ys.find? p <;> rfl
    rw [h2]
    cases xs.find? p <;> simp
  · unfold any
    have := each_search p (fun (_ : Bool) _ => true) (fun _ _ => false) false xs
    rw [this]
    simp only
    congr 1
    cases hf : xs.find? p with
    | some x => simp only; symm; rw [List.any_eq_true]; exact ⟨x, List.mem_of_find?_eq_some hf, List.find?_some hf⟩
    | none =>
      have h2 : xs.any p = false := by
        rw [List.any_eq_false]
        rw [List.find?_eq_none] at hf
        simpa using hf
      rw [h2]
      simp only
      clear hf h2 this
      induction xs with
      | nil => rfl
      | cons x xs ih => simpa using ih
  · unfold all
    have := each_search (fun x => !p x) (fun (_ : Bool) _ => false) (fun _ _ => true) true xs
    have e : (fun (_ : Bool) x => if p x = true then (true, false) else (false, true)) =
        fun _ x => if (!p x) = true then (false, true) else (true, false) := by
      funext _ x; cases p x <;> rfl
    rw [e, this]
    simp only
    congr 1
    cases hf : xs.find? (fun x => !p x) with
    | some x =>
      simp only
      symm
      rw [List.all_eq_false]
      exact ⟨x, List.mem_of_find?_eq_some hf, by have := List.find?_some hf; simpa using this⟩
    | none =>
      have h2 : xs.all p = true := by
        rw [List.all_eq_true]
        rw [List.find?_eq_none] at hf
        simpa using hf
      rw [h2]
      simp only
      clear hf h2 this e
      induction xs with
      | nil => rfl
      | cons x xs ih => simpa using ih
  · unfold none?
    have := each_search p (fun (_ : Bool) _ => false) (fun _ _ => true) true xs
    rw [this]
    simp only
    congr 1
    cases hf : xs.find? p with
    | some x =>
      have h2 : xs.any p = true := by
        rw [List.any_eq_true]; exact ⟨x, List.mem_of_find?_eq_some hf, List.find?_some hf⟩
      rw [h2]; rfl
    | none =>
      have h2 : xs.any p = false := by
        rw [List.any_eq_false]
        rw [List.find?_eq_none] at hf
        simpa using hf
      rw [h2]
      simp only
      clear hf h2 this
      induction xs with
      | nil => rfl
      | cons x xs ih => simpa using ih

example : find (fun n => n > 2) [1, 2, 3, 4, 5] = (some 3, 3) ∧ all (fun n => n < 3) [1, 2, 3, 4] = (false, 3) := by
  decide

theorem one_each (p : V → Bool) (xs : List V) (n : Nat) (hn : n ≤ 1) :
    let R := each (fun n x => if p x then (n + 1, decide (n + 1 > 1)) else (n, false)) n xs
    R.2.2 = decide (n + (xs.filter p).length > 1) ∧ (R.2.2 = false → R.1 = n + (xs.filter p).length) ∧
      R.2.1 ≤ xs.length := by
  induction xs generalizing n with
  | nil => simp [each]; omega
  | cons x xs ih =>
    intro R
    simp only [R, each]
    by_cases hp : p x
    · simp only [hp, if_true]
      by_cases h1 : n + 1 > 1
      · simp only [h1, decide_true]
        simp [hp]; omega
      · simp only [h1, decide_false]
        obtain ⟨a, b, c⟩ := ih (n + 1) (by omega)
        refine ⟨?_, ?_, ?_⟩
        · refine a.trans ?_; simp [hp]; omega
        · intro h; refine (b h).trans ?_; simp [hp]; omega
        · simpa using c
    · simp only [hp]
      rw [if_neg (by simp)]
      obtain ⟨a, b, c⟩ := ih n hn
      refine ⟨?_, ?_, ?_⟩
      · refine a.trans ?_; simp [hp]
      · intro h; refine (b h).trans ?_; simp [hp]
      · simpa using c

/-- C135: `one?` says whether exactly one value passes, and takes nothing after the second that
does. -/
theorem C135_one (p : V → Bool) (xs ys : List V) :
    (one p xs).1 = decide ((xs.filter p).length = 1) ∧
      ((xs.filter p).length ≥ 2 → (one p (xs ++ ys)).2 ≤ xs.length) := by
  obtain ⟨a, b, c⟩ := one_each p xs 0 (by omega)
  simp only [Nat.zero_add] at a b
  unfold one
  constructor
  · generalize hR : each (fun n x => if p x = true then (n + 1, decide (n + 1 > 1)) else (n, false)) 0 xs = R at a b c
    obtain ⟨m, k, l⟩ := R
    simp only at a b ⊢
    subst a
    by_cases h : (xs.filter p).length > 1
    · simp only [h, decide_true, if_true]
      symm; simp; omega
    · rw [if_neg (by simpa using h), b (by simpa using h)]
  · intro h
    rw [each_append _ _ _ _ (by rw [a]; simp; omega)]
    generalize each (fun n x => if p x = true then (n + 1, decide (n + 1 > 1)) else (n, false)) 0 xs = R at c
    obtain ⟨m, k, l⟩ := R
    exact c

example : one (fun n => n > 2) [1, 3, 2] = (true, 3) ∧ one (fun n => n > 2) [3, 1, 4, 5, 6] = (false, 3) := by
  decide

/-- C135: `take(n)`, `first(n)`, `first` and `take_while` give the beginning of the source and take
no more than they have to look at. -/
theorem C135_take (n : Nat) (p : V → Bool) (xs : List V) :
    take n xs = (xs.take n, min n xs.length) ∧ first1 xs = (xs.head?, min 1 xs.length) ∧
      takeWhile p xs = (xs.takeWhile p, min (xs.findIdx (fun x => !p x) + 1) xs.length) := by
  refine ⟨?_, ?_, ?_⟩
  · unfold take
    by_cases hn : n = 0
    · simp [hn]
    · rw [if_neg hn]
      have key : ∀ (xs acc : List V), acc.length < n →
          ∃ b, each (fun res x => (res ++ [x], decide ((res ++ [x]).length ≥ n))) acc xs =
            (acc ++ xs.take (n - acc.length), min (n - acc.length) xs.length, b) := by
        intro xs
        induction xs with
        | nil => intro acc _; exact ⟨false, by simp [each]⟩
        | cons x xs ih =>
          intro acc h
          rw [each]
          by_cases hb : (acc ++ [x]).length ≥ n
          · have h1 : n - acc.length = 1 := by simp at hb; omega
            refine ⟨true, ?_⟩
            simp only [hb, decide_true, h1]
            simp
          · simp only [hb, decide_false]
            obtain ⟨b, hb'⟩ := ih (acc ++ [x]) (by omega)
            refine ⟨b, ?_⟩
            rw [hb']
            have h1 : n - acc.length = (n - (acc ++ [x]).length) + 1 := by simp at hb ⊢; omega
            rw [h1, List.take_succ_cons]
            simp only [List.append_assoc, List.singleton_append, List.length_cons, Nat.add_min_add_right]
      obtain ⟨b, hb⟩ := key xs [] (by simpa using Nat.pos_of_ne_zero hn)
      rw [hb]
      simp
  · cases xs with
    | nil => rfl
    | cons x xs => simp [first1, each]
  · unfold takeWhile
    have e : (fun (res : List V) x => if p x = true then (res ++ [x], false) else (res, true)) =
        fun res x => if (!p x) = true then (res, true) else (res ++ [x], false) := by
      funext _ x; cases p x <;> rfl
    have := each_search (fun x => !p x) (fun (res : List V) _ => res) (fun res x => res ++ [x]) [] xs
    rw [e, this]
    simp only
    congr 1
    have h2 : ∀ ys acc : List V, ys.foldl (fun res x => res ++ [x]) acc = acc ++ ys := by
      intro ys
      induction ys with
      | nil => simp
      | cons y ys ih => intro acc; rw [List.foldl_cons, ih]; simp
    rw [h2, h2]
    cases hf : xs.find? (fun x => !p x) with
    | some x => simp
    | none =>
      simp only [List.nil_append]
      rw [List.find?_eq_none] at hf
      symm
      have h3 : ∀ ys : List V, (∀ x ∈ ys, p x = true) → ys.takeWhile p = ys := by
        intro ys
        induction ys with
        | nil => simp
        | cons y ys ih => intro h; rw [List.takeWhile_cons_of_pos (h y (by simp)), ih fun x hx => h x (by simp [hx])]
      exact h3 xs (by simpa using hf)

example : take 2 [1, 2, 3] = ([1, 2], 2) ∧ takeWhile (fun n => n < 2) [1, 2, 3] = ([1], 2) := by decide

end Verif.Enumer
