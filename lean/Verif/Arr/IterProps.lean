import Verif.Arr.Iter

/-!
# C103, C104: `select!`, `keep_if`, `reject!`, `delete_if` and `map`
-/

namespace Verif.Arr

variable {α β σ : Type}

/-- A block that leaves the array alone: what it answers may depend on the calls before. -/
def Pure (blk : Block σ α β) : Prop := ∀ s v a, (blk s v a).2.2 = a

/-- The answers to the elements one after the other, up to the first exception. -/
def answers (blk : Block σ α β) (s : σ) : List α → List (Option β)
  | [] => []
  | x :: l => match blk s x [] with
    | (none, _, _) => [none]
    | (some b, s', _) => some b :: answers blk s' l

/-- The answers do not depend on the array. -/
def Blind (blk : Block σ α β) : Prop := ∀ s v a a', (blk s v a).1 = (blk s v a').1 ∧ (blk s v a).2.1 = (blk s v a').2.1

/-- The elements that are kept, given the answers; the rest when an exception stops it. -/
def keptOf : List α → List (Option Bool) → List α
  | x :: l, some true :: bs => x :: keptOf l bs
  | _ :: l, some false :: bs => keptOf l bs
  | l, _ => l

theorem shiftDown_eq (rest : List α) : ∀ (pre mid : List α),
    ((List.range' (pre.length + mid.length) rest.length).foldl
      (fun a j => match a[j]? with | some v => a.set (j - mid.length) v | none => a) (pre ++ mid ++ rest)).take
        (pre.length + rest.length) = pre ++ rest := by
  induction rest with
  | nil => intro pre mid; simp
  | cons x rest ih =>
    intro pre mid
    rw [List.length_cons, List.range'_succ, List.foldl_cons]
    have hx : (pre ++ mid ++ x :: rest)[pre.length + mid.length]? = some x := by
      rw [List.getElem?_append_right (by simp)]; simp
    simp only [hx]
    cases mid with
    | nil =>
      have e : (pre ++ [] ++ x :: rest).set (pre.length + ([] : List α).length - ([] : List α).length) x = (pre ++ [x]) ++ [] ++ rest := by
        simp
      rw [e]
      have := ih (pre ++ [x]) []
      simp only [List.length_append, List.length_singleton, List.length_nil, Nat.add_zero] at this ⊢
      rw [show pre.length + (rest.length + 1) = pre.length + 1 + rest.length by omega, this]
      simp
    | cons y mid =>
      have e : (pre ++ (y :: mid) ++ x :: rest).set (pre.length + (y :: mid).length - (y :: mid).length) x =
          (pre ++ [x]) ++ (mid ++ [x]) ++ rest := by
        rw [Nat.add_sub_cancel]
        simp
      rw [e]
      have := ih (pre ++ [x]) (mid ++ [x])
      simp only [List.length_append, List.length_cons, List.length_nil, Nat.zero_add] at this ⊢
      rw [show pre.length + (mid.length + 1) + 1 = pre.length + 1 + (mid.length + 1) by omega,
        show pre.length + (rest.length + 1) = pre.length + 1 + rest.length by omega, this]
      simp

/-- What is in the array when `i` elements have been dealt with: those that are kept, as many others as were removed, and
the elements still to come. -/
theorem retain_state (blk : Block σ α Bool) (hp : Pure blk) (hbl : Blind blk) (l : List α) :
    ∀ (s : σ) (kept gone : List α),
      Retain blk s (kept ++ gone ++ l) (kept.length + gone.length) gone.length
        (if (answers blk s l).all Option.isSome
         then .done (decide ((keptOf l (answers blk s l)).length + kept.length < (kept ++ gone ++ l).length)) (kept ++ keptOf l (answers blk s l))
         else .raised (kept ++ keptOf l (answers blk s l))) := by
  induction l with
  | nil =>
    intro s kept gone
    simp only [answers, List.all_nil, if_true, keptOf, List.append_nil, List.length_nil, List.length_append]
    have := Retain.finish (blk := blk) (s := s) (a := kept ++ gone) (i := kept.length + gone.length) (del := gone.length)
      (by simp)
    have e : atEnd (kept ++ gone) gone.length = .done (decide (0 + kept.length < kept.length + gone.length)) kept := by
      rw [atEnd]
      by_cases h : gone.length > 0
      · rw [if_pos h, if_neg (by simp)]
        simp [h]
      · rw [if_neg h]
        have : gone = [] := List.eq_nil_of_length_eq_zero (by omega)
        simp [this]
    rwa [e] at this
  | cons x l ih =>
    intro s kept gone
    have hi : (kept ++ gone ++ x :: l)[kept.length + gone.length]? = some x := by
      rw [List.getElem?_append_right (by simp)]; simp
    have hpa := hp s x (kept ++ gone ++ x :: l)
    have hb1 := (hbl s x (kept ++ gone ++ x :: l) []).1
    have hb2 := (hbl s x (kept ++ gone ++ x :: l) []).2
    rcases hblk : blk s x (kept ++ gone ++ x :: l) with ⟨b, s', a'⟩
    rw [hblk] at hpa hb1 hb2
    simp only at hpa hb1 hb2
    subst hpa
    rcases hblk0 : blk s x [] with ⟨b0, s0, a0⟩
    rw [hblk0] at hb1 hb2
    simp only at hb1 hb2
    subst hb1 hb2
    cases b with
    | none =>
      simp only [answers, hblk0, List.all_cons, Option.isSome_none, Bool.false_and, Bool.false_eq_true, if_false, keptOf]
      have := Retain.raise (del := gone.length) hi hblk
      have e : onError (kept ++ gone ++ x :: l) (kept.length + gone.length) gone.length = .raised (kept ++ x :: l) := by
        rw [onError]
        by_cases h : gone.length > 0
        · rw [if_pos h, if_neg (by simp; omega)]
          congr 1
          have := shiftDown_eq (x :: l) kept gone
          rw [shiftDown, show (kept ++ gone ++ x :: l).length - (kept.length + gone.length) = (x :: l).length by simp; omega]
          rw [show (kept ++ gone ++ x :: l).length - gone.length = kept.length + (x :: l).length by simp; omega]
          exact this
        · rw [if_neg h]
          have : gone = [] := List.eq_nil_of_length_eq_zero (by omega)
          simp [this]
      rwa [e] at this
    | some b =>
      cases b with
      | false =>
        have := ih s' kept (gone ++ [x])
        simp only [answers, hblk0, List.all_cons, Option.isSome_some, Bool.true_and, keptOf]
        rw [List.append_assoc] at this
        have e1 : kept ++ (gone ++ [x] ++ l) = kept ++ gone ++ x :: l := by simp
        rw [e1] at this
        have e2 : kept.length + (gone ++ [x]).length = kept.length + gone.length + 1 := by simp; omega
        have e3 : (gone ++ [x]).length = gone.length + 1 := by simp
        rw [e2, e3] at this
        exact .drop hi hblk this
      | true =>
        simp only [answers, hblk0, List.all_cons, Option.isSome_some, Bool.true_and, keptOf, List.length_cons]
        cases gone with
        | nil =>
          have := ih s' (kept ++ [x]) []
          simp only [List.append_nil, List.length_nil, Nat.add_zero, List.length_append, List.length_singleton,
            List.append_assoc, List.singleton_append] at this hi hblk ⊢
          rw [show ∀ n, n + 1 + kept.length = n + (kept.length + 1) by omega]
          exact .keep hi hblk this
        | cons y gone =>
          have := ih s' (kept ++ [x]) (gone ++ [x])
          have e1 : kept ++ [x] ++ (gone ++ [x]) ++ l =
              (kept ++ (y :: gone) ++ x :: l).set (kept.length + (y :: gone).length - (y :: gone).length) x := by
            rw [Nat.add_sub_cancel]; simp
          have e2 : (kept ++ [x]).length + (gone ++ [x]).length = kept.length + (y :: gone).length + 1 := by simp; omega
          have e3 : (gone ++ [x]).length = (y :: gone).length := by simp
          have e4 : (kept ++ [x]).length = kept.length + 1 := by simp
          rw [e2, e3, e4] at this
          rw [e1] at this
          rw [show ∀ n, n + 1 + kept.length = n + (kept.length + 1) by omega]
          have e5 : ∀ m, kept ++ x :: m = kept ++ [x] ++ m := by intro m; simp
          rw [e5]
          simp only [List.length_set] at this
          exact .move hi (by simp) hblk hi this

theorem Retain.unique {blk : Block σ α Bool} {s : σ} {a : List α} {i del : Nat} {r r' : Kept α}
    (h : Retain blk s a i del r) (h' : Retain blk s a i del r') : r = r' := by
  induction h with
  | finish h1 =>
    cases h' with
    | finish => rfl
    | raise h2 => exact absurd h2 (by rw [List.getElem?_eq_none h1]; simp)
    | drop h2 => exact absurd h2 (by rw [List.getElem?_eq_none h1]; simp)
    | keep h2 => exact absurd h2 (by rw [List.getElem?_eq_none h1]; simp)
    | move h2 => exact absurd h2 (by rw [List.getElem?_eq_none h1]; simp)
    | outOfBounds h2 => exact absurd h2 (by rw [List.getElem?_eq_none h1]; simp)
  | raise h1 hb =>
    cases h' with
    | finish h2 => exact absurd h1 (by rw [List.getElem?_eq_none h2]; simp)
    | raise h2 hb' => simp_all
    | drop h2 hb' => simp_all
    | keep h2 hb' => simp_all
    | move h2 _ hb' => simp_all
    | outOfBounds h2 _ hb' => simp_all
  | drop h1 hb t ih =>
    cases h' with
    | finish h2 => exact absurd h1 (by rw [List.getElem?_eq_none h2]; simp)
    | raise h2 hb' => simp_all
    | drop h2 hb' t' =>
      rw [h1] at h2; simp only [Option.some.injEq] at h2; subst h2
      rw [hb] at hb'; simp only [Prod.mk.injEq, true_and] at hb'
      obtain ⟨rfl, rfl⟩ := hb'
      exact ih t'
    | keep h2 hb' => simp_all
    | move h2 _ hb' => simp_all
    | outOfBounds h2 _ hb' => simp_all
  | keep h1 hb t ih =>
    cases h' with
    | finish h2 => exact absurd h1 (by rw [List.getElem?_eq_none h2]; simp)
    | raise h2 hb' => simp_all
    | drop h2 hb' t' => simp_all
    | keep h2 hb' t' =>
      rw [h1] at h2; simp only [Option.some.injEq] at h2; subst h2
      rw [hb] at hb'; simp only [Prod.mk.injEq, true_and] at hb'
      obtain ⟨rfl, rfl⟩ := hb'
      exact ih t'
    | move h2 hd => omega
    | outOfBounds h2 hd => omega
  | move h1 hd hb hw t ih =>
    cases h' with
    | finish h2 => exact absurd h1 (by rw [List.getElem?_eq_none h2]; simp)
    | raise h2 hb' => simp_all
    | drop h2 hb' t' => simp_all
    | keep h2 hb' t' => omega
    | move h2 _ hb' hw' t' =>
      rw [h1] at h2; simp only [Option.some.injEq] at h2; subst h2
      rw [hb] at hb'; simp only [Prod.mk.injEq, true_and] at hb'
      obtain ⟨rfl, rfl⟩ := hb'
      rw [hw] at hw'; simp only [Option.some.injEq] at hw'; subst hw'
      exact ih t'
    | outOfBounds h2 _ hb' hw' => simp_all
  | outOfBounds h1 hd hb hw =>
    cases h' with
    | finish h2 => exact absurd h1 (by rw [List.getElem?_eq_none h2]; simp)
    | raise h2 hb' => simp_all
    | drop h2 hb' t' => simp_all
    | keep h2 hb' t' => omega
    | move h2 _ hb' hw' t' => simp_all
    | outOfBounds => rfl

/-- With a block that leaves the array alone, the elements that are kept stay in their order and the others go; an
exception leaves those kept so far and all that were not dealt with; nil (`changed` is false) exactly when none went. -/
theorem C103_keep_partial (blk : Block σ α Bool) (hp : Pure blk) (hbl : Blind blk) (s : σ) (a : List α) (r : Kept α) :
    Retain blk s a 0 0 r ↔
      r = if (answers blk s a).all Option.isSome
        then .done (decide ((keptOf a (answers blk s a)).length < a.length)) (keptOf a (answers blk s a))
        else .raised (keptOf a (answers blk s a)) := by
  have := retain_state blk hp hbl a s [] []
  simp only [List.nil_append, List.length_nil, Nat.add_zero] at this
  constructor
  · intro h; exact h.unique this
  · rintro rfl; exact this

/-- With a predicate it is a filter. -/
theorem C103_filter (p : α → Bool) (a : List α) (r : Kept α) :
    Retain (fun (s : Unit) v a => (some (p v), s, a)) () a 0 0 r ↔
      r = .done (decide ((a.filter p).length < a.length)) (a.filter p) := by
  rw [C103_keep_partial _ (fun _ _ _ => rfl) (fun _ _ _ _ => ⟨rfl, rfl⟩)]
  have h1 : answers (fun (s : Unit) v a => (some (p v), s, a)) () a = a.map fun x => some (p x) := by
    induction a with
    | nil => rfl
    | cons x a ih => simp [answers, ih]
  have h2 : keptOf a (a.map fun x => some (p x)) = a.filter p := by
    clear h1
    induction a with
    | nil => rfl
    | cons x a ih =>
      simp only [List.map_cons]
      cases hx : p x <;> simp [keptOf, ih, hx]
  rw [h1, h2]
  simp

/-- As long as the block does not make the array shorter, nothing is read or written outside of it, and the length that
is left is not negative. -/
theorem C103_no_panic_partial (blk : Block σ α Bool) (hl : ∀ s v a, a.length ≤ (blk s v a).2.2.length) (s : σ) (a : List α)
    (r : Kept α) (h : Retain blk s a 0 0 r) : r ≠ .panicked := by
  suffices H : ∀ i del, del ≤ i → i ≤ a.length → Retain blk s a i del r → ¬ r = .panicked from H 0 0 (by omega) (by omega) h
  clear h
  intro i del hd hi h
  induction h with
  | finish h1 =>
    rw [atEnd]
    split
    · rw [if_neg (by omega)]; simp
    · simp
  | @raise s a i del v s' a' h1 hb =>
    have := hl s v a
    rw [hb] at this
    simp only at this
    rw [onError]
    split
    · rw [if_neg (by omega)]; simp
    · simp
  | @drop s a i del v s' a' r h1 hb t ih =>
    have := hl s v a
    rw [hb] at this
    simp only at this
    have := (List.getElem?_eq_some_iff.1 h1).1
    exact ih (by omega) (by omega)
  | @keep s a i v s' a' r h1 hb t ih =>
    have := hl s v a
    rw [hb] at this
    simp only at this
    have := (List.getElem?_eq_some_iff.1 h1).1
    exact ih (by omega) (by omega)
  | @move s a i del v s' a' w r h1 hd hb hw t ih =>
    have := hl s v a
    rw [hb] at this
    simp only at this
    have := (List.getElem?_eq_some_iff.1 h1).1
    exact ih (by omega) (by simp; omega)
  | @outOfBounds s a i del v s' a' h1 hd hb hw =>
    have := hl s v a
    rw [hb] at this
    simp only at this
    have := (List.getElem?_eq_some_iff.1 h1).1
    rw [List.getElem?_eq_none_iff] at hw
    omega

/-- A block that does brings the interpreter down: `a = [1, 2, 3]; a.delete_if { |x| a.clear if x == 2; x == 1 }`. -/
theorem C103_shrunk_fails :
    Retain (fun (s : Unit) (v : Nat) a => (some (v != 1), s, if v = 2 then [] else a)) () [1, 2, 3] 0 0 .panicked := by
  refine .drop (v := 1) (s' := ()) (a' := [1, 2, 3]) (by decide) (by decide) ?_
  exact .outOfBounds (v := 2) (s' := ()) (a' := []) (by decide) (by decide) (by decide) (by decide)

example : Retain (fun (s : Unit) (v : Nat) a => (if v = 4 then none else some (v != 2), s, a)) () [1, 2, 3, 4, 5] 0 0
    (.raised [1, 3, 4, 5]) := by
  rw [C103_keep_partial _ (fun _ _ _ => rfl) (fun _ _ _ _ => ⟨rfl, rfl⟩)]
  rfl

/-! ## map -/

theorem MapRun.unique {blk : Block σ α β} {s : σ} {a : List α} {i : Nat} {res : List (Option β)}
    {r r' : Option (List (Option β))} (h : MapRun blk s a i res r) (h' : MapRun blk s a i res r') : r = r' := by
  induction h with
  | finish h1 =>
    cases h' with
    | finish => rfl
    | raise h2 => exact absurd h2 (by rw [List.getElem?_eq_none h1]; simp)
    | step h2 => exact absurd h2 (by rw [List.getElem?_eq_none h1]; simp)
  | raise h1 hb =>
    cases h' with
    | finish h2 => exact absurd h1 (by rw [List.getElem?_eq_none h2]; simp)
    | raise => rfl
    | step h2 hb' => simp_all
  | step h1 hb t ih =>
    cases h' with
    | finish h2 => exact absurd h1 (by rw [List.getElem?_eq_none h2]; simp)
    | raise h2 hb' => simp_all
    | step h2 hb' t' =>
      rw [h1] at h2; simp only [Option.some.injEq] at h2; subst h2
      rw [hb] at hb'; simp only [Prod.mk.injEq, Option.some.injEq] at hb'
      obtain ⟨rfl, rfl, rfl⟩ := hb'
      exact ih t'

theorem map_state (blk : Block σ α β) (hp : Pure blk) (hbl : Blind blk) (l : List α) : ∀ (s : σ) (pre : List α)
    (done : List (Option β)), done.length = pre.length →
    MapRun blk s (pre ++ l) pre.length (done ++ List.replicate l.length none)
      (if (answers blk s l).all Option.isSome then some (done ++ answers blk s l) else none) := by
  induction l with
  | nil =>
    intro s pre done _
    simp only [answers, List.all_nil, if_true, List.append_nil, List.length_nil, List.replicate_zero]
    exact .finish (by simp)
  | cons x l ih =>
    intro s pre done hd
    have hi : (pre ++ x :: l)[pre.length]? = some x := by simp
    have hpa := hp s x (pre ++ x :: l)
    have hb1 := (hbl s x (pre ++ x :: l) []).1
    have hb2 := (hbl s x (pre ++ x :: l) []).2
    rcases hblk : blk s x (pre ++ x :: l) with ⟨b, s', a'⟩
    rw [hblk] at hpa hb1 hb2
    simp only at hpa hb1 hb2
    subst hpa
    rcases hblk0 : blk s x [] with ⟨b0, s0, a0⟩
    rw [hblk0] at hb1 hb2
    simp only at hb1 hb2
    subst hb1 hb2
    cases b with
    | none =>
      simp only [answers, hblk0, List.all_cons, Option.isSome_none, Bool.false_and, Bool.false_eq_true, if_false]
      exact .raise hi hblk
    | some b =>
      simp only [answers, hblk0, List.all_cons, Option.isSome_some, Bool.true_and]
      have := ih s' (pre ++ [x]) (done ++ [some b]) (by simp [hd])
      have e : mapPut (done ++ List.replicate (x :: l).length none) pre.length b =
          done ++ [some b] ++ List.replicate l.length none := by
        rw [mapPut, if_pos (by simp [hd]), ← hd]
        simp [List.replicate_succ]
      simp only [List.append_assoc, List.singleton_append, List.length_append, List.length_singleton] at this
      refine .step hi hblk ?_
      rw [e]
      simpa using this

/-- With a block that leaves the array alone, `map` gives the values for the elements, in order, each asked for once; an
exception goes out. -/
theorem C104_map_partial (blk : Block σ α β) (hp : Pure blk) (hbl : Blind blk) (s : σ) (a : List α)
    (r : Option (List (Option β))) :
    Map blk s a r ↔ r = if (answers blk s a).all Option.isSome then some (answers blk s a) else none := by
  have := map_state blk hp hbl a s [] [] rfl
  simp only [List.nil_append, List.length_nil] at this
  constructor
  · intro h; exact MapRun.unique h this
  · rintro rfl; exact this

/-- A block that takes elements off leaves nils at the end: `a = [1, 2, 3]; a.map { |x| a.pop; x }` is `[1, 2, nil]`,
although the block was called twice. -/
theorem C104_map_shrunk_fails :
    Map (fun (s : Unit) (v : Nat) a => (some v, s, a.dropLast)) () [1, 2, 3] (some [some 1, some 2, none]) := by
  refine .step (v := 1) (w := 1) (s' := ()) (a' := [1, 2]) (by decide) (by decide) ?_
  refine .step (v := 2) (w := 2) (s' := ()) (a' := [1]) (by decide) (by decide) ?_
  exact .finish (by decide)

/-- One that adds elements is called for them too. -/
example : Map (fun (s : Nat) (v : Nat) a => (some (v + s), s + 1, if s = 0 then a ++ [9] else a)) 0 [1]
    (some [some 1, some 10]) := by
  refine .step (v := 1) (w := 1) (s' := 1) (a' := [1, 9]) (by decide) (by decide) ?_
  refine .step (v := 9) (w := 10) (s' := 2) (a' := [1, 9]) (by decide) (by decide) ?_
  exact .finish (by decide)

end Verif.Arr
