import Verif.Eql.HashLemmas

/-!
# Properties of `eql?` and `hash`

C37: two values that are `eql?` have the same `hash`, so either finds a Hash entry stored
under the other; `eql?` is an equivalence relation.

For every pair of hash functions (`Hashers`).  `eql` is the equality of Hash keys and of
elements of Arrays, `pubEql` and `pubHash` are the methods a program calls.
-/

namespace Verif.Eql

variable {h : Hashers} {hp : Nat → Option Val}

/-! ## An equivalence -/

/-- **C37.** The equality of keys is an equivalence relation on all values a program can hold,
whatever they contain. -/
theorem C37_equivalence :
    (∀ x, eql h x x = true) ∧
    (∀ x y, WF h hp x → WF h hp y → eql h x y = true → eql h y x = true) ∧
    (∀ x y z, WF h hp x → WF h hp y → WF h hp z →
      eql h x y = true → eql h y z = true → eql h x z = true) :=
  ⟨eql_refl, equiv_wf.1, equiv_wf.2⟩

/-- **C37.** It is structural equality: the same kind and the same content, Hashes compared
without regard to order.  Missing: values with Hashes of two or more pairs *inside the keys* of
a Hash (`Tame`), where it is not: see `C37_reordered_key_not_same`. -/
theorem C37_structural_partial {s : Bool} {x y : Val} (hx : WF h hp x) (hy : WF h hp y)
    (tx : Tame s x) (ty : Tame s y) : eql h x y = true ↔ Same x y :=
  same_bound (sizeOf x) x y (Nat.le_refl _) hx hy tx ty

/-! ## The hash agrees -/

/-- **C37.** Keys that are `eql?` find each other: an entry stored under `k'` is found by every
`k` with `k.eql?(k')`, and it is the entry of `k'`.  Missing: keys that contain a Hash of two
or more pairs, and keys that contain both Hashes and Sets. -/
theorem C37_lookup_partial {s : Bool} {qs : List (Val × Val)} {k k' v : Val}
    (hq : ∀ q ∈ qs, WF h hp q.1)
    (hd : qs.Pairwise (fun p q => hit h false q.1 p = false))
    (hm : (k', v) ∈ qs) (hk : WF h hp k) (hn : Narrow s k) (hn' : Narrow s k')
    (he : eql h k k' = true) : get h false qs k = some v := by
  have hh : hit h false k (k', v) = true := hit_of_eql (q := (k', v)) hk (hq _ hm) hn hn' he
  rw [get, find_hit equiv_wf hq hd hk hm hh]
  rfl

/-- **C37.** A lookup finds only what is stored under an equal key. -/
theorem C37_lookup_sound {qs : List (Val × Val)} {k v : Val} (hg : get h false qs k = some v) :
    ∃ k', (k', v) ∈ qs ∧ eql h k k' = true := by
  rw [get] at hg
  cases hf : qs.find? (hit h false k) with
  | none => rw [hf] at hg; simp at hg
  | some q =>
    rw [hf] at hg
    simp only [Option.map_some, Option.some.injEq] at hg
    subst hg
    exact ⟨q.1, List.mem_of_find?_eq_some hf, (hit_eql.1 (List.find?_some hf)).2⟩

/-- **C37.** For a key kept in the word, comparing digests and then `eql?` is comparing words, so
the linear search of a small Hash (hash.rs:655-690) finds what the table would. -/
theorem hit_packed {k : Val} {q : Val × Val} (hk : ∀ a, k.id ≠ .addr a) :
    hit h false k q = true ↔ k.id = q.1.id := by
  constructor
  · intro hh
    rcases eql_iff.1 (hit_eql.1 hh).2 with hi | hc
    · exact hi
    · obtain ⟨x, v⟩ := q
      cases hc <;> exact absurd rfl (hk _)
  · intro hi
    have : k = q.1 := by
      obtain ⟨x, v⟩ := q
      cases k <;> cases x <;> simp [Val.id] at hi hk ⊢ <;> exact hi
    rw [hit_eql, this]
    exact ⟨rfl, eql_refl _⟩

/-- **C37.** Values that are the same key have the same `hash`.  Missing as above. -/
theorem C37_key_hash_partial {s : Bool} {x y : Val} (hx : WF h hp x) (hy : WF h hp y)
    (nx : Narrow s x) (ny : Narrow s y) (he : eql h x y = true) : pubHash h x = pubHash h y :=
  pubHash_bound (sizeOf x) x y (Nat.le_refl _) hx hy nx ny he

/-- **C37.** The methods agree: `x.eql?(y)` implies `x.hash == y.hash`, for Hashes of any size
in any order with narrow keys, nested in one another as values, for Sets, Arrays and Ranges.
Missing: Hashes of two or more pairs inside Arrays, Sets or keys; Hashes compared with Sets;
Ranges with an endpoint that is minus zero or a container.  Each of these is a real
disagreement, see below. -/
theorem C37_methods_partial {s t : Bool} {x y : Val} (hx : WF h hp x) (hy : WF h hp y)
    (ox : Outer s t x) (oy : Outer s t y) (he : pubEql h x y = true) :
    pubHash h x = pubHash h y :=
  pub_bound (sizeOf x) x y (Nat.le_refl _) hx hy ox oy he

/-! ## Where they disagree -/

/-- `{k: v, k': v'}` for small Integers -/
def two (a : Nat) (k v k' v' : Int) : Val :=
  .hash a false false [(.fix k, .fix v), (.fix k', .fix v')]

/-- **C37 fails** for keys that are Hashes: `{1=>2, 3=>4}` and `{3=>4, 1=>2}` are `eql?`, both
ways, and the methods `hash` agree; but an entry stored under one is not found under the other,
unless the two orders collide in the hasher of the table. -/
theorem C37_reordered_hash_not_found (a b : Nat) (k v k' v' : Int) (hk : k ≠ k') (w : Val)
    (hT : h.T (tok h (two a k v k' v')) ≠ h.T (tok h (two b k' v' k v))) :
    pubEql h (two a k v k' v') (two b k' v' k v) = true ∧
    pubEql h (two b k' v' k v) (two a k v k' v') = true ∧
    eql h (two a k v k' v') (two b k' v' k v) = true ∧
    pubHash h (two a k v k' v') = pubHash h (two b k' v' k v) ∧
    get h false [(two a k v k' v', w)] (two a k v k' v') = some w ∧
    get h false [(two a k v k' v', w)] (two b k' v' k v) = none := by
  have hk' : k' ≠ k := Ne.symm hk
  have e1 : ∀ (i j : Int), hit h false (.fix i) (.fix j, .fix v) = decide (i = j) := by
    intro i j
    by_cases hij : i = j
    · subst hij; simp [hit, eql, Val.id]
    · simp [hit, eql, Val.id, hij, Ne.symm hij]
  have e2 : ∀ (i j : Int), hit h false (.fix i) (.fix j, .fix v') = decide (i = j) := by
    intro i j
    by_cases hij : i = j
    · subst hij; simp [hit, eql, Val.id]
    · simp [hit, eql, Val.id, hij, Ne.symm hij]
  refine ⟨?_, ?_, ?_, ?_, ?_, ?_⟩
  · simp [two, pubEql, pubEqlPairs, get, List.find?, e1, e2, hk, Val.id]
  · simp [two, pubEql, pubEqlPairs, get, List.find?, e1, e2, hk', Val.id]
  · refine eql_iff.2 (.inr (.hash _ _ _ _ _ rfl (eqlPairs_eq.2 ?_)))
    simp [List.find?, e1, e2, hk, eql, Val.id]
  · rw [two, two, pubHash, pubHash, pubPairs_eq, pubPairs_eq]
    exact mixAll_perm (List.Perm.swap ..)
  · have : hit h false (two a k v k' v') (two a k v k' v', w) = true := hit_eql.2 ⟨rfl, eql_refl _⟩
    simp [get, this]
  · have : hit h false (two b k' v' k v) (two a k v k' v', w) = false := by
      simp [hit, Ne.symm hT]
    simp [get, this]

/-- **C37 fails** for Arrays of Hashes: `[{1=>2, 3=>4}]` and `[{3=>4, 1=>2}]` are `eql?` but
have different hashes, unless the two orders collide. -/
theorem C37_reordered_in_array (a b c d : Nat) (k v k' v' : Int) (hk : k ≠ k')
    (hT : h.T (tok h (two a k v k' v')) ≠ h.T (tok h (two b k' v' k v)))
    (hD : half (h.D (tok h (two a k v k' v'))) ≠ half (h.D (tok h (two b k' v' k v)))) :
    pubEql h (.arr c [two a k v k' v']) (.arr d [two b k' v' k v]) = true ∧
    pubHash h (.arr c [two a k v k' v']) ≠ pubHash h (.arr d [two b k' v' k v]) := by
  have he := (C37_reordered_hash_not_found a b k v k' v' hk (.imm 0) hT).2.2.1
  constructor
  · simp [pubEql, eqlList, he]
  · simpa [pubHash, tokList] using hD

/-- **C37 fails**: `eql?` itself depends on the order inside keys.  `{ {1=>2, 3=>4} => nil }` is
not `eql?` to `{ {3=>4, 1=>2} => nil }`, although they have the same content. -/
theorem C37_reordered_key_not_same (a b c d : Nat) (k v k' v' : Int)
    (hT : h.T (tok h (two a k v k' v')) ≠ h.T (tok h (two b k' v' k v))) (hcd : c ≠ d) :
    Same (.hash c false false [(two a k v k' v', .imm 0)])
        (.hash d false false [(two b k' v' k v, .imm 0)]) ∧
    pubEql h (.hash c false false [(two a k v k' v', .imm 0)])
        (.hash d false false [(two b k' v' k v, .imm 0)]) = false ∧
    eql h (.hash c false false [(two a k v k' v', .imm 0)])
        (.hash d false false [(two b k' v' k v, .imm 0)]) = false := by
  have hh : hit h false (two a k v k' v') (two b k' v' k v, .imm 0) = false := by
    simp [hit, hT]
  refine ⟨?_, ?_, ?_⟩
  · rw [Same]
    refine .inr ⟨_, _, _, rfl, rfl, samePairs_iff.2 ?_⟩
    intro p hp'
    simp only [List.mem_singleton] at hp'
    subst hp'
    refine ⟨(two b k' v' k v, .imm 0), by simp, ?_, same_refl _⟩
    rw [if_neg (by simp)]
    show Same (two a k v k' v') (two b k' v' k v)
    rw [two, Same]
    refine .inr ⟨_, _, _, rfl, rfl, samePairs_iff.2 ?_⟩
    simp [Same]
  · simp [pubEql, pubEqlPairs, get, hh]
  · rw [Bool.eq_false_iff]
    intro hc
    rcases eql_iff.1 hc with hi | hc
    · simp only [Val.id, Id.addr.injEq] at hi
      exact hcd hi
    · cases hc with
      | hash _ _ _ _ _ _ he =>
        obtain ⟨q, hfd, _⟩ := eqlPairs_eq.1 he _ (List.mem_singleton_self _)
        have hq := List.mem_of_find?_eq_some hfd
        have hh' := List.find?_some hfd
        simp only [List.mem_singleton] at hq
        subst hq
        dsimp only at hh'
        rw [hh] at hh'
        exact Bool.false_ne_true hh'

/-- plus and minus zero -/
def pz : Val := .flo 0
def nz (a : Nat) : Val := .hflo a 0x8000000000000000#64

/-- **C37 fails** for the two zeros: `0.0.eql?(-0.0)` and the hashes are equal, but an entry
stored under one is never found under the other, and `[0.0].eql?([-0.0])` is false. -/
theorem C37_zero_keys (a : Nat) (w : Val) :
    WF h (fun _ => some (nz a)) pz ∧ WF h (fun _ => some (nz a)) (nz a) ∧
    pubEql h pz (nz a) = true ∧ pubEql h (nz a) pz = true ∧ pubHash h pz = pubHash h (nz a) ∧
    get h false [(pz, w)] (nz a) = none ∧ get h false [(nz a, w)] pz = none ∧
    (∀ c d, pubEql h (.arr c [pz]) (.arr d [nz a]) = false) := by
  have e1 : eql h pz (nz a) = false := by simp [eql, pz, nz, Val.id]
  have e2 : eql h (nz a) pz = false := by simp [eql, pz, nz, Val.id]
  refine ⟨?_, ?_, ?_, ?_, ?_, ?_, ?_, ?_⟩
  · simp [pz, WF]; decide
  · simp [nz, WF]; decide
  · have : fEq 0#64 0x8000000000000000#64 = true := by decide
    simp [pz, nz, pubEql, Val.float?, this]
  · have : fEq 0x8000000000000000#64 0#64 = true := by decide
    simp [pz, nz, pubEql, Val.float?, this]
  · have : normZero 0#64 = normZero 0x8000000000000000#64 := by decide
    simp [pz, nz, pubHash, this]
  · simp [get, hit, e2]
  · simp [get, hit, e1]
  · intro c d
    simp [pubEql, eqlList, e1]

/-- **C37 fails** for Ranges from zero: `(0.0..1).eql?(-0.0..1)`, but the hashes differ unless
they collide. -/
theorem C37_zero_range (a c d : Nat)
    (hD : half (h.D (tok h pz ++ (tok h (.fix 1) ++ tok h (.imm 2)))) ≠
      half (h.D (tok h (nz a) ++ (tok h (.fix 1) ++ tok h (.imm 2))))) :
    pubEql h (.range c pz (.fix 1) false) (.range d (nz a) (.fix 1) false) = true ∧
    pubHash h (.range c pz (.fix 1) false) ≠ pubHash h (.range d (nz a) (.fix 1) false) := by
  constructor
  · have := (C37_zero_keys (h := h) a (.imm 0)).2.2.1
    simp [pubEql, this, Val.id]
  · simpa [pubHash] using hD

/-- **C37 fails** for Hash and Set: `{x=>true}.eql?(Set[x])` and `[{x=>true}].eql?([Set[x]])` are
true, `Set[x].eql?({x=>true})` is false: `eql?` is not symmetric. -/
theorem C37_hash_eql_set (a b c d : Nat) (x : Val) :
    pubEql h (.hash a false false [(x, .imm 1)]) (.hash b true false [(x, .imm 1)]) = true ∧
    pubEql h (.hash b true false [(x, .imm 1)]) (.hash a false false [(x, .imm 1)]) = false ∧
    pubEql h (.arr c [.hash a false false [(x, .imm 1)]])
      (.arr d [.hash b true false [(x, .imm 1)]]) = true := by
  have hh : hit h false x (x, .imm 1) = true := hit_eql.2 ⟨rfl, eql_refl _⟩
  refine ⟨?_, ?_, ?_⟩
  · simp [pubEql, pubEqlPairs, get, hh, Val.id]
  · simp [pubEql]
  · have : eql h (.hash a false false [(x, .imm 1)]) (.hash b true false [(x, .imm 1)]) = true := by
      refine eql_iff.2 (.inr (.hash _ _ _ _ _ rfl (eqlPairs_eq.2 ?_)))
      simp [hh, eql_refl]
    simp [pubEql, eqlList, this]

/-! ## The hypotheses are met -/

/-- a number for a list of items, one that looks at the first only -/
def firstOf : List Tok → Nat
  | .i64 n :: _ => n.toNat
  | _ => 0

def demoH : Hashers := ⟨firstOf, firstOf⟩

/-- the hypotheses of the failures are met: these hashers tell the two orders apart -/
example : demoH.T (tok demoH (two 10 1 2 300 4)) ≠ demoH.T (tok demoH (two 20 300 4 1 2)) ∧
    half (demoH.D (tok demoH (two 10 1 2 300 4))) ≠ half (demoH.D (tok demoH (two 20 300 4 1 2))) := by
  decide

example : ∃ h : Hashers, half (h.D (tok h pz ++ (tok h (.fix 1) ++ tok h (.imm 2)))) ≠
      half (h.D (tok h (nz 7) ++ (tok h (.fix 1) ++ tok h (.imm 2)))) :=
  ⟨⟨fun l => if l.head? = some (.u64 0x8000000000000000#64) then 2 else 0, fun _ => 0⟩, by
    simp [tok, pz, nz, half]⟩

/-- `["a", {2**70 => 1.5}]`, twice, at different addresses -/
def demoX : Val := .arr 1 [.str 2 [97], .hash 3 false false [(.big 4 (2 ^ 70), .flo 0x3ff8000000000000#64)]]
def demoY : Val := .arr 5 [.str 6 [97], .hash 7 false false [(.big 8 (2 ^ 70), .flo 0x3ff8000000000000#64)]]

def demoHeap : Nat → Option Val
  | 1 => some demoX
  | 2 => some (.str 2 [97])
  | 3 => some (.hash 3 false false [(.big 4 (2 ^ 70), .flo 0x3ff8000000000000#64)])
  | 4 => some (.big 4 (2 ^ 70))
  | 5 => some demoY
  | 6 => some (.str 6 [97])
  | 7 => some (.hash 7 false false [(.big 8 (2 ^ 70), .flo 0x3ff8000000000000#64)])
  | 8 => some (.big 8 (2 ^ 70))
  | _ => none

theorem demo_flonum : isFlonum 0x3ff8000000000000#64 = true := by decide

example : WF h demoHeap demoX ∧ WF h demoHeap demoY ∧ Narrow false demoX ∧ Narrow false demoY ∧
    Tame false demoX ∧ eql h demoX demoY = true ∧ demoX.id ≠ demoY.id := by
  refine ⟨?_, ?_, ?_, ?_, ?_, ?_, ?_⟩
  · simp [demoX, demoHeap, WF, WFList, WFPairs, demo_flonum]
  · simp [demoY, demoHeap, WF, WFList, WFPairs, demo_flonum]
  · simp [demoX, Narrow, NarrowList, NarrowPairs]
  · simp [demoY, Narrow, NarrowList, NarrowPairs]
  · simp [demoX, Tame, TameList, TamePairs, Narrow]
  · simp [demoX, demoY, eql, eqlList, eqlPairs, Val.id, tok]
  · decide

/-- an entry stored under `demoY` is found by `demoX` -/
example : get h false [(.fix 1, .imm 0), (demoY, .fix 7)] demoX = some (.fix 7) := by
  have e : (Id.fix 1 == Id.addr 1) = false := by decide
  simp [get, List.find?, hit, demoX, demoY, eql, eqlList, eqlPairs, Val.id, tok, tokList, tokPairs,
    e]

/-- Two Hashes of two pairs in different orders, with a nested Hash value, have the same
`hash`. -/
example : pubHash h (.hash 1 false false [(.fix 1, two 2 1 2 3 4), (.fix 5, .imm 1)]) =
    pubHash h (.hash 3 false false [(.fix 5, .imm 1), (.fix 1, two 4 3 4 1 2)]) := by
  apply C37_methods_partial (s := false) (t := false) (hp := fun
    | 1 => some (.hash 1 false false [(.fix 1, two 2 1 2 3 4), (.fix 5, .imm 1)])
    | 2 => some (two 2 1 2 3 4)
    | 3 => some (.hash 3 false false [(.fix 5, .imm 1), (.fix 1, two 4 3 4 1 2)])
    | 4 => some (two 4 3 4 1 2)
    | _ => none)
  · simp [two, WF, WFPairs, hit, eql, Val.id]
  · simp [two, WF, WFPairs, hit, eql, Val.id]
  · simp [two, Outer, OuterPairs, Narrow]
  · simp [two, Outer, OuterPairs, Narrow]
  · have e1 : (Id.fix 5 == Id.fix 1) = false := by decide
    have e2 : (Id.fix 3 == Id.fix 1) = false := by decide
    simp [two, pubEql, pubEqlPairs, get, List.find?, hit, eql, Val.id, e1, e2]

end Verif.Eql
