import Verif.Text.SetLemmas
import Mathlib.Data.List.Basic

/-!
# C127: one meaning for sets of characters in `tr`, `delete`, `count`, `squeeze`

A set is written `"a-z"`, `"^a"`, `"\\-"`; several sets mean their intersection.  Characters are
code points.
-/

namespace Verif.Text

/-- no character with a meaning of its own in a set: `\`, `-`, `^` -/
def Literal (l : List Nat) : Prop := ∀ c ∈ l, c ≠ 92 ∧ c ≠ 45 ∧ c ≠ 94

instance (l : List Nat) : Decidable (Literal l) := by unfold Literal; infer_instance

theorem expandLoop_literal (l : List Nat) (hl : ∀ c ∈ l, c ≠ 92 ∧ c ≠ 45) (n : Nat)
    (hn : l.length ≤ n) : expandLoop n l = some l := by
  induction l generalizing n with
  | nil => cases n <;> rfl
  | cons c t ih =>
    cases n with
    | zero => simp at hn
    | succ n =>
      have hc := hl c List.mem_cons_self
      have it := ih (fun x hx => hl x (List.mem_cons_of_mem _ hx)) n (by simpa using hn)
      unfold expandLoop
      simp only [takeCh, hc.1, if_false]
      split
      · next e u => exact absurd rfl (hl 45 (by simp)).2
      · rw [it]; rfl

theorem expandSpec_literal {l : List Nat} (hl : Literal l) : expandSpec l = some (l, false) := by
  have hl' : ∀ c ∈ l, c ≠ 92 ∧ c ≠ 45 := fun c hc => ⟨(hl c hc).1, (hl c hc).2.1⟩
  unfold expandSpec
  split
  · next d t => exact absurd rfl (hl 94 (by simp)).2.2
  · rw [expandLoop_literal l hl' _ (Nat.le_refl _)]; rfl

theorem parse_some_iff (spec : List Nat) :
    (Charset.parse spec).isSome = (expandSpec spec).isSome := by
  unfold Charset.parse
  split_ifs with h
  · subst h; rfl
  · cases expandSpec spec <;> rfl

theorem okArgs_single (spec : List Nat) : okArgs [spec] = (expandSpec spec).isSome := by
  rw [← parse_some_iff]
  unfold okArgs parseAll
  cases Charset.parse spec <;> rfl

theorem inAll_single (spec : List Nat) (c : Nat) : inAll [spec] c = specHas spec c := by
  simp [inAll]

/-- **C127** A set without `\`, `-` and `^` is the set of the characters written: `delete` keeps
exactly the others and `count` counts exactly these, in any string. -/
theorem C127_literal_set (s l : List Nat) (hl : Literal l) :
    delete s [l] = some (s.filter (· ∉ l)) ∧ count s [l] = some (s.countP (· ∈ l)) := by
  have he := expandSpec_literal hl
  have hm : ∀ c, inAll [l] c = decide (c ∈ l) := by
    intro c
    rw [inAll_single]
    simp only [specHas, he, Bool.xor_false]
    rw [Bool.eq_iff_iff]; simp
  rw [delete_eq, count_eq, okArgs_single, he]
  simp only [Option.isSome_some, if_true]
  refine ⟨?_, ?_⟩
  · congr 1; apply List.filter_congr; intro c _; rw [hm]; simp
  · congr 1; apply List.countP_congr; intro c _; rw [hm]

example : Literal [108, 111] ∧ delete [104, 101, 108, 108, 111] [[108, 111]] = some [104, 101] ∧
    count [104, 101, 108, 108, 111] [[108, 111]] = some 3 := by decide

theorem mem_rangeChars (a b c : Nat) :
    c ∈ rangeChars a b ↔ a ≤ c ∧ c ≤ b ∧ isScalar c = true := by
  unfold rangeChars
  simp only [List.mem_filter, List.mem_map, List.mem_range]
  constructor
  · rintro ⟨⟨k, hk, rfl⟩, h⟩; exact ⟨by omega, by omega, h⟩
  · rintro ⟨h1, h2, h⟩; exact ⟨⟨c - a, by omega, by omega⟩, h⟩

/-- **C127** `"a-b"` is every character from `a` to `b`, and a range written backwards is refused. -/
theorem C127_range_set (s : List Nat) (a b : Nat) (ha : a ≠ 92 ∧ a ≠ 94) (hb : b ≠ 92)
    (hs : ∀ c ∈ s, isScalar c = true) :
    count s [[a, 45, b]] =
      if a ≤ b then some (s.countP fun c => decide (a ≤ c) && decide (c ≤ b)) else none := by
  have he : expandSpec [a, 45, b] = if a > b then none else some (rangeChars a b, false) := by
    unfold expandSpec
    split
    · next d t h => simp only [List.cons.injEq] at h; exact absurd h.1 ha.2
    · simp only [List.length_cons, List.length_nil, expandLoop, takeCh, ha.1, hb, if_false]
      split_ifs <;> simp
  rw [count_eq, okArgs_single, he]
  by_cases hab : a ≤ b
  · have : ¬a > b := by omega
    simp only [this, if_false, hab, if_true, Option.isSome_some]
    congr 1
    apply List.countP_congr
    intro c hc
    rw [inAll_single]
    simp only [specHas, he, this, if_false, Bool.xor_false]
    have h1 := mem_rangeChars a b c
    rw [hs c hc] at h1
    simp only [and_true] at h1
    simp [h1]
  · have : a > b := by omega
    simp [this, hab]

example : count [104, 101, 108, 108, 111] [[97, 45, 104]] = some 2 ∧
    count [104] [[122, 45, 97]] = none := by decide

/-- **C127** `\\` in front makes any character stand for itself, `^` and `-` and `\\` included. -/
theorem C127_escaped (s : List Nat) (c : Nat) : count s [[92, c]] = some (s.count c) := by
  have he : expandSpec [92, c] = some ([c], false) := rfl
  rw [count_eq, okArgs_single, he]
  simp only [Option.isSome_some, if_true]
  congr 1
  apply List.countP_congr
  intro x _
  rw [inAll_single]
  simp [specHas, he]

/-- **C127** `^` in front complements a set: each character is counted by the set or by its
complement, never by both. -/
theorem C127_complement (s spec : List Nat) (h0 : spec ≠ []) (h1 : ∀ d t, spec ≠ 94 :: d :: t)
    {m n : Nat} (hm : count s [spec] = some m) (hn : count s [94 :: spec] = some n) :
    m + n = s.length := by
  have hx : ∀ c, (expandSpec spec).isSome = true → specHas (94 :: spec) c = !specHas spec c := by
    intro c hsome
    cases spec with
    | nil => exact absurd rfl h0
    | cons d t =>
      have e1 : expandSpec (94 :: d :: t) = (expandLoop (t.length + 1) (d :: t)).map (·, true) := rfl
      have e2 : expandSpec (d :: t) = (expandLoop (t.length + 1) (d :: t)).map (·, false) := by
        unfold expandSpec
        split
        · next d' t' he => exact absurd he (h1 d' t')
        · rfl
      rw [e2] at hsome
      simp only [specHas, e1, e2]
      cases hl : expandLoop (t.length + 1) (d :: t) with
      | none => rw [hl] at hsome; simp at hsome
      | some l => simp
  rw [count_eq, okArgs_single] at hm hn
  split_ifs at hm with ho
  split_ifs at hn
  cases hm; cases hn
  have : s.countP (inAll [94 :: spec]) = s.countP (fun c => !inAll [spec] c) := by
    apply List.countP_congr
    intro c _
    rw [inAll_single, inAll_single, hx c ho]
  rw [this, List.length_eq_countP_add_countP (p := inAll [spec]) (l := s)]
  congr 1
  apply List.countP_congr
  intro c _
  simp

example : count [97, 98, 94] [[97, 94]] = some 2 ∧ count [97, 98, 94] [[94, 97, 94]] = some 1 := by
  decide

/-- **C127** What `delete` removes is what `count` counts: with any sets, the length of
`s.delete(..)` plus `s.count(..)` is the length of `s`; the kept characters keep their order; none
of them is counted afterwards; and both refuse the same arguments. -/
theorem C127_delete_count (s : List Nat) (args : List (List Nat)) :
    (delete s args).isSome = (count s args).isSome ∧
    ∀ d n, delete s args = some d → count s args = some n →
      d.length + n = s.length ∧ d.Sublist s ∧ count d args = some 0 ∧ delete d args = some d := by
  simp only [delete_eq, count_eq]
  cases okArgs args with
  | false => exact ⟨rfl, fun d n h => by simp at h⟩
  | true =>
    refine ⟨rfl, fun d n h1 h2 => ?_⟩
    simp only [if_true, Option.some.injEq] at h1 h2
    subst h1; subst h2
    refine ⟨?_, List.filter_sublist, ?_, ?_⟩
    · have := List.length_eq_countP_add_countP (p := inAll args) (l := s)
      rw [this, ← List.countP_eq_length_filter, Nat.add_comm]
      congr 1
      apply List.countP_congr
      intro c _
      simp
    · simp only [if_true, Option.some.injEq, List.countP_eq_zero]
      intro c hc
      simpa using (List.mem_filter.1 hc).2
    · simp [List.filter_filter]

example : delete [104, 101, 108, 108, 111] [[97, 45, 111], [94, 101]] = some [101] ∧
    count [104, 101, 108, 108, 111] [[97, 45, 111], [94, 101]] = some 4 := by decide

/-- **C127** Several sets mean their intersection: a character is deleted exactly when each set on
its own would delete it. -/
theorem C127_intersection (c : Nat) (a b : List Nat) {x y z : Nat}
    (ha : count [c] [a] = some x) (hb : count [c] [b] = some y) (hab : count [c] [a, b] = some z) :
    z = x * y := by
  rw [count_eq] at ha hb hab
  split_ifs at ha hb hab
  cases ha; cases hb; cases hab
  simp only [List.countP_cons, List.countP_nil, inAll, List.all_cons, List.all_nil, Bool.and_true]
  cases specHas a c <;> cases specHas b c <;> simp

/-- **C127** How a string is stored does not matter to `tr`: the path over bytes, with bitmaps and
tables, gives what the path over characters gives, errors included. -/
theorem C127_tr_paths (s from_ to_ : List Nat) (sq : Bool) :
    tr s from_ to_ sq = trChars s from_ to_ sq := tr_eq s from_ to_ sq

theorem out_sentinel (m : TrMap) (b : Nat) (hb : b < 128) : m.out (sentinel [b]) = m.out b := by
  simp [sentinel, hb]

/-- **C127** Nor does the encoding of an ASCII string: through the encoding-aware path `tr`,
`tr_s`, `delete` and `count` give what they give in UTF-8. -/
theorem C127_encoding_irrelevant (s : List Nat) (hs : ∀ c ∈ s, c < 128) (from_ to_ : List Nat)
    (sq : Bool) (args : List (List Nat)) :
    trBytes (s.map ([·])) from_ to_ sq = tr s from_ to_ sq ∧
    deleteEnc (s.map ([·])) args = delete s args ∧ countEnc (s.map ([·])) args = count s args := by
  have hmem : ∀ sets, parseAll args = some sets → ∀ c ∈ s,
      asciiSetsHave sets [c] = inAll args c := by
    intro sets hp c hc
    simp only [asciiSetsHave, hs c hc, if_true]
    rw [← parseAll_has hp]
    congr 1
    funext S
    exact hasByte_eq S c (hs c hc)
  refine ⟨?_, ?_, ?_⟩
  · rw [tr_eq]
    unfold trBytes trChars
    cases buildMap from_ to_ with
    | none => rfl
    | some m =>
      simp only [Option.map_some]
      congr 1
      have key : ∀ (l : List Nat) (last : Option Nat), (∀ c ∈ l, c < 128) →
          trLoop (fun ch => m.out (sentinel ch)) (fun ch => ch) (fun r => [r]) sq last
            (l.map ([·])) = trLoop m.out (fun c => [c]) (fun r => [r]) sq last l := by
        intro l
        induction l with
        | nil => intro _ _; rfl
        | cons b t ih =>
          intro last h
          have it := fun lst => ih lst fun x hx => h x (List.mem_cons_of_mem _ hx)
          rw [List.map_cons, trLoop, trLoop, out_sentinel m b (h b List.mem_cons_self)]
          cases m.out b <;> simp [it]
      exact key s none hs
  · unfold deleteEnc
    rw [delete_eq]
    unfold okArgs
    cases args with
    | nil => rfl
    | cons a t =>
      rw [if_neg (by simp)]
      cases hp : parseAll (a :: t) with
      | none => rfl
      | some sets =>
        simp only [Option.map_some, List.isEmpty_cons, Bool.not_false, Option.isSome_some,
          Bool.and_self, if_true, List.filter_map]
        congr 1
        rw [show ((s.filter ((fun ch => !asciiSetsHave sets ch) ∘ fun x => [x])).map
          fun x => [x]).flatten = s.filter ((fun ch => !asciiSetsHave sets ch) ∘ fun x => [x]) by
            induction s.filter ((fun ch => !asciiSetsHave sets ch) ∘ fun x => [x]) with
            | nil => rfl
            | cons c t ih => simp only [List.map_cons, List.flatten_cons, ih]; rfl]
        apply List.filter_congr
        intro c hc
        simp only [Function.comp, hmem sets hp c hc]
  · unfold countEnc
    rw [count_eq]
    unfold okArgs
    cases args with
    | nil => rfl
    | cons a t =>
      rw [if_neg (by simp)]
      cases hp : parseAll (a :: t) with
      | none => rfl
      | some sets =>
        simp only [Option.map_some, List.isEmpty_cons, Bool.not_false, Option.isSome_some,
          Bool.and_self, if_true, List.countP_map]
        congr 1
        apply List.countP_congr
        intro c hc
        simp only [Function.comp, hmem sets hp c hc]

theorem expandLoop_ascii (n : Nat) (spec l : List Nat) (hs : ∀ c ∈ spec, c < 128)
    (h : expandLoop n spec = some l) : ∀ c ∈ l, c < 128 := by
  induction n generalizing spec l with
  | zero => simp only [expandLoop, Option.some.injEq] at h; subst h; simp
  | succ n ih =>
    cases spec with
    | nil => simp only [expandLoop, Option.some.injEq] at h; subst h; simp
    | cons c t =>
      have htake : ∀ (e : Nat) (u : List Nat), e < 128 → (∀ x ∈ u, x < 128) →
          (takeCh e u).1 < 128 ∧ ∀ x ∈ (takeCh e u).2, x < 128 := by
        intro e u he hu
        unfold takeCh
        by_cases h92 : e = 92
        · rw [if_pos h92]
          cases u with
          | nil => simp
          | cons d v => exact ⟨hu d (by simp), fun x hx => hu x (by simp [hx])⟩
        · rw [if_neg h92]; exact ⟨he, hu⟩
      obtain ⟨h1, h2⟩ := htake c t (hs c (by simp)) (fun x hx => hs x (by simp [hx]))
      unfold expandLoop at h
      generalize takeCh c t = r at h h1 h2
      obtain ⟨ch, t1⟩ := r
      simp only at h h1 h2
      split at h
      · next e u =>
        obtain ⟨h3, h4⟩ := htake e u (h2 e (by simp)) (fun x hx => h2 x (by simp [hx]))
        generalize takeCh e u = q at h h3 h4
        obtain ⟨ec, u1⟩ := q
        simp only at h h3 h4
        split_ifs at h with hgt
        cases hu : expandLoop n u1 with
        | none => rw [hu] at h; cases h
        | some l' =>
          rw [hu] at h
          cases h
          intro x hx
          rcases List.mem_append.1 hx with hx | hx
          · unfold rangeChars at hx
            have := (List.mem_filter.1 hx).1
            simp only [List.mem_map, List.mem_range] at this
            obtain ⟨k, hk, rfl⟩ := this
            omega
          · exact ih u1 l' h4 hu x hx
      · cases hu : expandLoop n t1 with
        | none => rw [hu] at h; cases h
        | some l' =>
          rw [hu] at h
          cases h
          intro x hx
          rcases List.mem_cons.1 hx with rfl | hx
          · exact h1
          · exact ih t1 l' h2 hu x hx

theorem specHas_high (spec : List Nat) (hs : ∀ c ∈ spec, c < 128) (c d : Nat) (hc : 128 ≤ c) (hd : 128 ≤ d) :
    specHas spec c = specHas spec d := by
  unfold specHas
  cases he : expandSpec spec with
  | none => rfl
  | some r =>
    obtain ⟨l, neg⟩ := r
    have hl : ∀ x ∈ l, x < 128 := by
      unfold expandSpec at he
      split at he
      · next e t =>
        cases hx : expandLoop (t.length + 1) (e :: t) with
        | none => rw [hx] at he; cases he
        | some l' =>
          rw [hx] at he
          cases he
          exact expandLoop_ascii _ _ _ (fun x hx => hs x (by simp only [List.mem_cons] at hx ⊢; exact Or.inr hx)) hx
      · cases hx : expandLoop spec.length spec with
        | none => rw [hx] at he; cases he
        | some l' =>
          rw [hx] at he
          cases he
          exact expandLoop_ascii _ _ _ hs hx
    have hno : ∀ x, 128 ≤ x → l.contains x = false := by
      intro x hx
      rw [Bool.eq_false_iff]
      intro hm
      have := hl x (by simpa using hm)
      omega
    simp only [hno c hc, hno d hd]

/-- **C127** In another encoding a character that is not ASCII, whatever its bytes, is deleted and
counted by ASCII sets as any character that is not ASCII is in UTF-8. -/
theorem C127_other_encodings (args : List (List Nat)) (ha : ∀ a ∈ args, ∀ c ∈ a, c < 128)
    (ch : List Nat) (hch : ∀ b, ch = [b] → 128 ≤ b) (hne : ch ≠ []) (c : Nat) (hc : 128 ≤ c) :
    countEnc [ch] args = count [c] args ∧
      (deleteEnc [ch] args).map (· == []) = (delete [c] args).map (· == []) := by
  have hmem : ∀ sets, parseAll args = some sets → asciiSetsHave sets ch = inAll args c := by
    intro sets hp
    have : asciiSetsHave sets ch = sets.all (·.hasChar 0xFFFF) := by
      unfold asciiSetsHave
      split
      · next b => rw [if_neg (by have := hch b rfl; omega)]
      · rfl
    rw [this, parseAll_has hp]
    unfold inAll
    rw [Bool.eq_iff_iff, List.all_eq_true, List.all_eq_true]
    constructor
    · intro h x hx; rw [specHas_high x (ha x hx) c 0xFFFF hc (by omega)]; exact h x hx
    · intro h x hx; rw [specHas_high x (ha x hx) 0xFFFF c (by omega) hc]; exact h x hx
  rw [count_eq, delete_eq]
  unfold okArgs countEnc deleteEnc
  cases args with
  | nil => exact ⟨rfl, rfl⟩
  | cons a t =>
    simp only [reduceCtorEq, if_false]
    cases hp : parseAll (a :: t) with
    | none => exact ⟨rfl, rfl⟩
    | some sets =>
      simp only [Option.map_some, List.isEmpty_cons, Bool.not_false, Option.isSome_some, Bool.and_self, if_true,
        List.countP_cons, List.countP_nil, List.filter_cons, List.filter_nil, hmem sets hp]
      cases inAll (a :: t) c
      · simp [hne]
      · simp

example : (∀ a ∈ [[94, 97]], ∀ c ∈ a, c < 128) ∧ countEnc [[0xA4, 0xA2], [97]] [[94, 97]] = some 1 := by decide

/-- **C127** `tr(set, "")` is `delete(set)`. -/
theorem C127_tr_empty_deletes (s spec : List Nat) (sq : Bool) :
    (tr s spec [] sq).map (·.1) = delete s [spec] := by
  rw [tr_eq, delete_eq, okArgs_single]
  unfold trChars buildMap
  cases he : expandSpec spec with
  | none => rfl
  | some r =>
    obtain ⟨fs, neg⟩ := r
    simp only [Option.bind_some, if_true, Option.map_some, Option.isSome_some]
    congr 1
    have key : ∀ (l : List Nat) last,
        (trLoop (TrMap.delete fs neg).out (fun c => [c]) (fun r => [r]) sq last l).1 =
          l.filter fun c => !inAll [spec] c := by
      intro l
      induction l with
      | nil => intro _; rfl
      | cons b t ih =>
        intro last
        rw [trLoop, List.filter_cons, inAll_single]
        simp only [specHas, he, TrMap.out]
        cases fs.contains b <;> cases neg <;> simp [ih]
    exact key s none

/-- **C127** `tr!` and `tr_s!` say `nil` exactly when no character of the string is in the set. -/
theorem C127_bang_nil (s from_ to_ r : List Nat) (sq changed : Bool)
    (h : tr s from_ to_ sq = some (r, changed)) :
    (changed = false ↔ count s [from_] = some 0) ∧ (changed = false → r = s) := by
  rw [tr_eq] at h
  unfold trChars at h
  cases hb : buildMap from_ to_ with
  | none => rw [hb] at h; cases h
  | some m =>
    rw [hb] at h
    simp only [Option.map_some, Option.some.injEq] at h
    have hf : (expandSpec from_).isSome = true := by
      unfold buildMap at hb
      cases hx : expandSpec from_ with
      | none => rw [hx] at hb; cases hb
      | some _ => rfl
    have hch : changed = s.any fun c => specHas from_ c := by
      have := trLoop_flag m.out (fun c => [c]) (fun r => [r]) sq s none
      rw [h] at this
      refine this.trans ?_
      congr 1
      funext c
      exact buildMap_touches hb c
    have hcount : count s [from_] = some (s.countP (specHas from_)) := by
      rw [count_eq, okArgs_single, hf, if_pos rfl]
      congr 1
      apply List.countP_congr
      intro c _
      rw [inAll_single]
    refine ⟨?_, ?_⟩
    · rw [hch, hcount]
      simp only [Option.some.injEq, List.countP_eq_zero, List.any_eq_false]
    · intro hc
      rw [hch] at hc
      have hkeep : ∀ c ∈ s, m.out c = .keep := by
        intro c hcs
        have h1 := List.any_eq_false.1 hc c hcs
        have h2 := buildMap_touches hb c
        have h3 : specHas from_ c = false := by simpa using h1
        rw [h3] at h2
        simpa using h2
      have key : ∀ (l : List Nat) last, (∀ c ∈ l, m.out c = .keep) →
          (trLoop m.out (fun c => [c]) (fun r => [r]) sq last l).1 = l := by
        intro l
        induction l with
        | nil => intro _ _; rfl
        | cons b t ih =>
          intro last hl
          rw [trLoop, hl b List.mem_cons_self]
          simp [ih none fun x hx => hl x (List.mem_cons_of_mem _ hx)]
      have := key s none hkeep
      rw [h] at this
      exact this

example : tr [97, 98] [97] [97] false = some ([97, 98], true) ∧
    tr [97, 98] [99] [97] false = some ([97, 98], false) := by decide

/-- the replacement of `c` under `tr(f, t)`: that of its last place in `f`; when `t` is too short
its last character serves -/
def replaced (f t : List Nat) (c : Nat) : Nat :=
  if c ∈ f then
    let j := f.length - 1 - f.reverse.idxOf c
    if j < t.length then t.getD j 0 else t.getLastD 0
  else c

theorem lookup_insertLoop (ts : List Nat) (l : List Nat) (i : Nat) (m : List (Nat × Nat)) (c : Nat) :
    (insertLoop ts i l m).lookup c =
      if c ∈ l then some (nthTo ts (i + (l.length - 1 - l.reverse.idxOf c))) else m.lookup c := by
  induction l generalizing i m with
  | nil => simp [insertLoop]
  | cons a t ih =>
    rw [insertLoop, ih]
    by_cases hc : c ∈ t
    · have hr : c ∈ t.reverse := by simpa using hc
      rw [if_pos hc, if_pos (List.mem_cons_of_mem _ hc), List.reverse_cons,
        List.idxOf_append_of_mem hr]
      have hlt : t.reverse.idxOf c < t.length := by
        have := List.idxOf_lt_length_of_mem hr
        simpa using this
      simp only [List.length_cons]
      congr 2
      omega
    · rw [if_neg hc]
      have hr : c ∉ t.reverse := by simpa using hc
      by_cases hca : c = a
      · subst hca
        rw [if_pos List.mem_cons_self, List.lookup_cons, beq_self_eq_true, List.reverse_cons,
          List.idxOf_append_of_notMem hr]
        simp
      · have : ¬c ∈ a :: t := by simp [hca, hc]
        rw [if_neg this, List.lookup_cons, beq_eq_false_iff_ne.2 hca]

theorem nthTo_eq (ts : List Nat) (j : Nat) :
    nthTo ts j = if j < ts.length then ts.getD j 0 else ts.getLastD 0 := by
  unfold nthTo
  split_ifs with h
  · simp [h]
  · simp [h]

/-- **C127** (partial) `tr(f, t)` replaces, place by place, each character of `f` by the one at the
same place in `t`, keeps the others, and keeps the length.  Proved for sets without `\`, `-`, `^`;
for `^` at the front of the replacement it does not hold, see `C127_caret_in_replacement_fails`. -/
theorem C127_tr_pointwise_partial (s f t : List Nat) (hf : Literal f) (ht : Literal t) (h0 : t ≠ []) :
    (tr s f t false).map (·.1) = some (s.map (replaced f t)) := by
  rw [tr_eq]
  unfold trChars buildMap
  rw [expandSpec_literal hf, expandSpec_literal ht]
  simp only [Option.bind_some, h0, if_false, Bool.false_eq_true, Option.map_some]
  congr 1
  have key : ∀ (l : List Nat) last,
      (trLoop (TrMap.map (insertLoop t 0 f [])).out (fun c => [c]) (fun r => [r]) false last l).1 =
        l.map (replaced f t) := by
    intro l
    induction l with
    | nil => intro _; rfl
    | cons b u ih =>
      intro last
      rw [trLoop, List.map_cons]
      simp only [TrMap.out, lookup_insertLoop, List.lookup_nil]
      unfold replaced
      by_cases hb : b ∈ f
      · simp only [hb, if_true, Bool.false_and, Bool.false_eq_true, if_false, Nat.zero_add, nthTo_eq,
          List.singleton_append, ih]
        rfl
      · simp only [hb, if_false, List.singleton_append, ih]
        rfl
  exact key s none

example : Literal [101, 108] ∧ Literal [105, 112] ∧
    tr [104, 101, 108, 108, 111] [101, 108] [105, 112] false =
      some ([104, 105, 112, 112, 111], true) := by decide

/-- **C127 fails** for a replacement that begins with `^`: `"hello".tr("el", "^x")` puts `x` for
`e` and `l` alike (`"hxxxo"`), although the first place of the replacement is `^`. -/
theorem C127_caret_in_replacement_fails :
    ∃ s f t, Literal f ∧ t ≠ [] ∧ (tr s f t false).map (·.1) ≠ some (s.map (replaced f t)) :=
  ⟨[104, 101, 108, 108, 111], [101, 108], [94, 120], by decide, by decide, by decide⟩

/-! ## squeeze -/

/-- no two equal neighbours that both satisfy `p` -/
def NoTwins (p : Nat → Prop) : List Nat → Prop
  | a :: b :: t => (a = b → ¬p a) ∧ NoTwins p (b :: t)
  | _ => True

theorem squeezeLoop_twins (p : Nat → Bool) (s : List Nat) (prev : Option Nat) :
    NoTwins (fun c => p c = true) (squeezeLoop p prev s) ∧
    ∀ a t, squeezeLoop p prev s = a :: t → some a = prev → p a = false := by
  induction s generalizing prev with
  | nil => exact ⟨trivial, fun a t h => by cases h⟩
  | cons c u ih =>
    rw [squeezeLoop]
    split_ifs with h
    · exact ih prev
    · obtain ⟨h1, h2⟩ := ih (some c)
      refine ⟨?_, ?_⟩
      · cases hs : squeezeLoop p (some c) u with
        | nil => trivial
        | cons b t =>
          rw [hs] at h1
          refine ⟨fun e => ?_, h1⟩
          have := h2 b t hs (by rw [e])
          rw [e]; simp [this]
      · intro a t he hp
        cases he
        rw [hp] at h
        simpa using h

theorem squeezeLoop_id (p : Nat → Bool) (s : List Nat) (prev : Option Nat)
    (h : NoTwins (fun c => p c = true) s) (hh : ∀ a t, s = a :: t → some a = prev → p a = false) :
    squeezeLoop p prev s = s := by
  induction s generalizing prev with
  | nil => rfl
  | cons c u ih =>
    rw [squeezeLoop]
    have : (p c && (some c == prev)) = false := by
      by_cases hp : some c = prev
      · rw [hh c u rfl hp]; rfl
      · rw [beq_eq_false_iff_ne.2 hp, Bool.and_false]
    rw [this]
    simp only [Bool.false_eq_true, if_false]
    congr 1
    apply ih
    · cases u with
      | nil => trivial
      | cons b t => exact h.2
    · intro a t he hp
      subst he
      cases hp
      have := h.1 rfl
      simpa using this

/-- collapse every run of equal characters -/
def collapse : List Nat → List Nat
  | [] => []
  | [a] => [a]
  | a :: b :: t => if a = b then collapse (b :: t) else a :: collapse (b :: t)

theorem collapse_dup (a : Nat) (t : List Nat) : collapse (a :: a :: t) = collapse (a :: t) := by
  rw [collapse, if_pos rfl]

theorem squeezeLoop_collapse (p : Nat → Bool) (s : List Nat) (c : Nat) :
    collapse (c :: squeezeLoop p (some c) s) = collapse (c :: s) := by
  induction s generalizing c with
  | nil => rfl
  | cons b t ih =>
    rw [squeezeLoop]
    split_ifs with h
    · have hb : b = c := by simpa using (Bool.and_eq_true_iff.1 h).2
      subst hb
      rw [ih, collapse_dup]
    · by_cases hbc : c = b
      · subst hbc
        rw [collapse_dup, collapse_dup, ih]
      · rw [collapse, collapse, if_neg hbc, if_neg hbc, ih]

theorem squeezeLoop_sublist (p : Nat → Bool) (s : List Nat) (prev : Option Nat) :
    (squeezeLoop p prev s).Sublist s ∧
    (squeezeLoop p prev s).filter (fun c => !p c) = s.filter fun c => !p c := by
  induction s generalizing prev with
  | nil => exact ⟨List.Sublist.refl _, rfl⟩
  | cons c t ih =>
    rw [squeezeLoop]
    split_ifs with h
    · have hp : p c = true := (Bool.and_eq_true_iff.1 h).1
      refine ⟨(ih prev).1.cons _, ?_⟩
      rw [(ih prev).2, List.filter_cons]
      simp [hp]
    · refine ⟨(ih _).1.cons_cons _, ?_⟩
      rw [List.filter_cons, List.filter_cons, (ih _).2]

/-- **C127** `squeeze(sets)`: no two equal neighbours in the sets are left; nothing but repetitions
goes (the string of runs is the same); characters outside the sets stay; squeezing again changes
nothing. -/
theorem C127_squeeze (s r : List Nat) (args : List (List Nat)) (h : squeeze s args = some r) :
    (args = [] → NoTwins (fun _ => True) r) ∧
    (args ≠ [] → NoTwins (fun c => count [c] args = some 1) r ∧
      ∀ d, delete s args = some d → delete r args = some d) ∧
    r.Sublist s ∧ collapse r = collapse s ∧ squeeze r args = some r := by
  rw [squeeze_eq] at h
  split_ifs at h with ho
  cases h
  have htw := (squeezeLoop_twins (inAll args) s none).1
  refine ⟨?_, ?_, (squeezeLoop_sublist _ s none).1, ?_, ?_⟩
  · intro ha
    subst ha
    have : (fun _ : Nat => True) = fun c => inAll [] c = true := by funext c; simp [inAll]
    rw [this]
    exact htw
  · intro ha
    have hok : okArgs args = true := by
      unfold okArgs
      rw [ho]
      cases args with
      | nil => exact absurd rfl ha
      | cons _ _ => rfl
    refine ⟨?_, ?_⟩
    · have : (fun c => count [c] args = some 1) = fun c => inAll args c = true := by
        funext c
        rw [count_eq, hok]
        simp only [if_true, List.countP_cons, List.countP_nil]
        cases inAll args c <;> simp
      rw [this]
      exact htw
    · intro d hd
      rw [delete_eq, hok, if_pos rfl] at hd ⊢
      rw [← hd, (squeezeLoop_sublist _ s none).2]
  · cases s with
    | nil => rfl
    | cons c t =>
      rw [squeezeLoop]
      have : (inAll args c && (some c == none)) = false := by simp
      rw [this]
      simp only [Bool.false_eq_true, if_false]
      exact squeezeLoop_collapse _ t c
  · rw [squeeze_eq, ho, if_pos rfl, squeezeLoop_id (inAll args) _ none htw (fun a t _ e => by cases e)]

example : squeeze [97, 97, 98, 98, 98, 97] [[98]] = some [97, 97, 98, 97] ∧
    squeeze [97, 97, 98, 98, 98, 97] [] = some [97, 98, 97] := by decide

/-- **C127** `tr_s(l, l)` is `squeeze(l)`. -/
theorem C127_tr_s_squeeze (s l : List Nat) (hl : Literal l) (h0 : l ≠ []) :
    (tr s l l true).map (·.1) = squeeze s [l] := by
  have he := expandSpec_literal hl
  have hparse : (parseAll [l]).isSome = true := by
    have := okArgs_single l
    rw [he] at this
    simpa [okArgs] using this
  rw [tr_eq, squeeze_eq, hparse, if_pos rfl]
  unfold trChars buildMap
  rw [he]
  simp only [Option.bind_some, h0, if_false, Bool.false_eq_true, Option.map_some]
  congr 1
  have hm : ∀ c, inAll [l] c = decide (c ∈ l) := by
    intro c
    rw [inAll_single]
    simp only [specHas, he, Bool.xor_false]
    rw [Bool.eq_iff_iff]; simp
  have hself : ∀ c ∈ l, nthTo l (0 + (l.length - 1 - l.reverse.idxOf c)) = c := by
    intro c hc
    have hr : c ∈ l.reverse := by simpa using hc
    have hlt : l.reverse.idxOf c < l.reverse.length := List.idxOf_lt_length_of_mem hr
    have hg : l.reverse[l.reverse.idxOf c] = c := List.getElem_idxOf hlt
    rw [List.getElem_reverse] at hg
    rw [List.length_reverse] at hlt
    have hj : l.length - 1 - l.reverse.idxOf c < l.length := by omega
    rw [Nat.zero_add, nthTo_eq, if_pos hj, List.getD_eq_getElem _ _ hj]
    exact hg
  have key : ∀ (u : List Nat) (last prev : Option Nat),
      (last = prev ∨ (last = none ∧ ∀ c ∈ l, some c ≠ prev)) →
      (trLoop (TrMap.map (insertLoop l 0 l [])).out (fun c => [c]) (fun r => [r]) true last u).1 =
        squeezeLoop (inAll [l]) prev u := by
    intro u
    induction u with
    | nil => intro _ _ _; rfl
    | cons b t ih =>
      intro last prev hp
      rw [trLoop, squeezeLoop, hm]
      simp only [TrMap.out, lookup_insertLoop, List.lookup_nil]
      by_cases hb : b ∈ l
      · have hbl : (some b == last) = (some b == prev) := by
          rcases hp with hp | ⟨hp, hq⟩
          · rw [hp]
          · rw [hp, beq_eq_false_iff_ne.2 (hq b hb)]; rfl
        simp only [hb, if_true, hself b hb, decide_true, Bool.true_and, hbl]
        split_ifs with e
        · have e' : some b = prev := by simpa using e
          rw [ih (some b) prev (Or.inl e')]
        · rw [ih (some b) (some b) (Or.inl rfl)]; rfl
      · simp only [hb, if_false, decide_false, Bool.false_and, Bool.false_eq_true,
          List.singleton_append]
        rw [ih none (some b) (Or.inr ⟨rfl, fun c hc e => hb (by cases e; exact hc)⟩)]
  exact key s none none (Or.inl rfl)

example : Literal [108] ∧ tr [104, 108, 108, 111, 111] [108] [108] true =
    some ([104, 108, 111, 111], true) := by decide

end Verif.Text
