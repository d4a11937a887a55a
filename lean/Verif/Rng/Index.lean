import Verif.Rng.Lemmas

/-! Lemmas on `array[sequence]`. -/

namespace Verif.Rng

variable {α : Type}

/-- Reads at a progression inside the array succeed and give the elements there. -/
theorem strideRead_ok (l : List α) (s : Int) (n : Nat) : ∀ j : Int,
    (∀ k : Nat, k < n → 0 ≤ j + k * s ∧ j + k * s < l.length) →
    ∃ r, strideRead l j s n = some r ∧ r.map some = (prog j s n).map (fun i => l[i.toNat]?) := by
  induction n with
  | zero => intro j _; exact ⟨[], rfl, rfl⟩
  | succ n ih =>
    intro j h
    have h0 := h 0 (by omega)
    simp only [Nat.cast_zero, Int.zero_mul, Int.add_zero] at h0
    obtain ⟨r, hr, hm⟩ := ih (j + s) (fun k hk => by
      have := h (k + 1) (by omega)
      push_cast at this
      have e1 : j + s + (k : Int) * s = j + ((k : Int) + 1) * s := by ring
      rwa [e1])
    have hj : ¬ j < 0 := by omega
    have hlt : j.toNat < l.length := by omega
    refine ⟨l[j.toNat] :: r, ?_, ?_⟩
    · simp only [strideRead, if_neg hj, List.getElem?_eq_getElem hlt, hr, Option.map_some]
    · rw [prog_succ, List.map_cons, List.map_cons, hm, List.getElem?_eq_getElem hlt]

theorem slice_prog (l : List α) (beg len : Int) (h0 : 0 ≤ beg) (h1 : 0 ≤ len)
    (h : beg + len ≤ l.length) :
    ((l.drop beg.toNat).take len.toNat).map some =
      (prog beg 1 len.toNat).map (fun i => l[i.toNat]?) := by
  apply List.ext_getElem?
  intro i
  by_cases hi : i < len.toNat
  · simp only [List.getElem?_map, prog, List.map_map, List.getElem?_range hi, Option.map_some,
      Function.comp, List.getElem?_take, if_pos hi, List.getElem?_drop]
    have e1 : (beg + (i : Int) * 1).toNat = beg.toNat + i := by omega
    have e2 : beg.toNat + i < l.length := by omega
    rw [e1, List.getElem?_eq_getElem e2]
    rfl
  · rw [List.getElem?_eq_none (by simp; omega), List.getElem?_eq_none (by simp [prog]; omega)]

theorem prog_reverse (b s : Int) (n : Nat) :
    (prog b s n).reverse = prog (b + ((n : Int) - 1) * s) (-s) n := by
  induction n generalizing b with
  | zero => rfl
  | succ n ih =>
    rw [prog_succ, List.reverse_cons, ih]
    unfold prog
    rw [List.range_succ, List.map_append]
    congr 1
    · apply List.map_congr_left; intro k _; push_cast; ring
    · simp

/-- The span `[beg, beg + len)` of the array that `index` walks, and the walk itself. -/
def walk (l : List α) (beg len s : Int) : Res (List α) :=
  if len = 0 then .ok []
  else if s = 1 then .ok ((l.drop beg.toNat).take len.toNat)
  else if s = -1 then .ok ((l.drop beg.toNat).take len.toNat).reverse
  else
    let sEff := if s < 0 ∧ s < -len then -len else s
    let ustep : Int := sEff.natAbs
    let n := (len + ustep - 1) / ustep
    let j := beg + (if sEff > 0 then 0 else len - 1)
    match strideRead l j sEff n.toNat with
    | some r => .ok r
    | none => .ub

/-- The number of steps of length `u` that start inside a span of length `len`. -/
theorem ceil_facts {len u : Int} (hl : 0 < len) (hu : 0 < u) :
    0 < (len + u - 1) / u ∧ ((len + u - 1) / u - 1) * u ≤ len - 1 ∧
      len ≤ (len + u - 1) / u * u := by
  have h1 := Int.ediv_mul_le (len + u - 1) (by omega : u ≠ 0)
  have h2 := Int.lt_ediv_add_one_mul_self (len + u - 1) hu
  generalize (len + u - 1) / u = q at *
  have h3 : (q - 1) * u = q * u - u := by ring
  have h4 : (q + 1) * u = q * u + u := by ring
  refine ⟨?_, by omega, by omega⟩
  by_contra hq
  have : q * u ≤ 0 := by nlinarith
  omega

/-- The walk never leaves the array, and visits the span from the proper end. -/
theorem walk_ok (l : List α) {beg len s : Int} (hs : s ≠ 0) (h0 : 0 ≤ beg) (h1 : 0 ≤ len)
    (h : beg + len ≤ l.length) :
    ∃ r, walk l beg len s = .ok r ∧
      r.map some = (if s > 0 then stepLoop beg (beg + len) s true
        else stepLoop (beg + len - 1) beg s false).map (fun i => l[i.toNat]?) := by
  by_cases hz : len = 0
  · subst hz
    refine ⟨[], by simp [walk], ?_⟩
    rcases Int.lt_or_gt_of_ne hs with hneg | hpos
    · rw [if_neg (by omega), stepLoop_unfold hs, if_neg (by rw [inside_neg hneg]; simp)]; rfl
    · rw [if_pos (by omega), stepLoop_unfold hs, if_neg (by rw [inside_pos hpos]; simp)]; rfl
  have hlp : 0 < len := by omega
  have hcast : ((len.toNat : Nat) : Int) = len := by omega
  by_cases hs1 : s = 1
  · subst hs1
    refine ⟨(l.drop beg.toNat).take len.toNat, by simp [walk, hz], ?_⟩
    rw [if_pos (by omega), slice_prog l beg len h0 h1 h]
    congr 1
    refine (stepLoop_prog hs _ _ _ _ (fun k hk => ?_) ?_).symm
    · rw [inside_pos (by omega)]; simp; omega
    · rw [inside_pos (by omega), hcast]; simp
  by_cases hs2 : s = -1
  · subst hs2
    refine ⟨((l.drop beg.toNat).take len.toNat).reverse, by simp [walk, hz], ?_⟩
    rw [if_neg (by omega), List.map_reverse, slice_prog l beg len h0 h1 h, ← List.map_reverse,
      prog_reverse]
    congr 1
    have hb : beg + ((len.toNat : Int) - 1) * 1 = beg + len - 1 := by omega
    rw [hb]
    refine (stepLoop_prog hs _ _ _ _ (fun k hk => ?_) ?_).symm
    · rw [inside_neg (by omega)]; simp; omega
    · rw [inside_neg (by omega), hcast]; simp
  · rcases Int.lt_or_gt_of_ne hs with hneg | hpos
    · -- down
      by_cases hbig : s < -len
      · -- a single element
        have hu : ((-len).natAbs : Int) = len := by omega
        have hn : (len + len - 1) / len = 1 := by
          obtain ⟨c1, c2, c3⟩ := ceil_facts hlp hlp
          generalize (len + len - 1) / len = q at *
          have : (q - 1) * len = q * len - len := by ring
          by_contra hq
          have : 2 * len ≤ q * len := by nlinarith [(by omega : 2 ≤ q)]
          omega
        obtain ⟨r, hr, hm⟩ := strideRead_ok l (-len) 1 (beg + (len - 1)) (fun k hk => by
          have hk0 : k = 0 := by omega
          subst hk0; simp; omega)
        refine ⟨r, ?_, ?_⟩
        · simp only [walk, if_neg hz, if_neg hs1, if_neg hs2, if_pos (And.intro hneg hbig), hu, hn,
            if_neg (by omega : ¬ -len > 0)]
          rw [show (1 : Int).toNat = 1 from rfl, hr]
        · rw [hm, if_neg (by omega)]
          congr 1
          rw [stepLoop_prog hs _ _ 1 (beg + len - 1) ?_ ?_]
          · simp [prog]; omega
          · intro k hk
            have hk0 : k = 0 := by omega
            subst hk0
            rw [inside_neg hneg]; simp; omega
          · rw [inside_neg hneg]; simp; omega
      · have hu : (s.natAbs : Int) = -s := by omega
        obtain ⟨c1, c2, c3⟩ := ceil_facts hlp (by omega : 0 < -s)
        have hnn : (((len + -s - 1) / -s).toNat : Int) = (len + -s - 1) / -s := by omega
        have hin : ∀ k : Nat, k < ((len + -s - 1) / -s).toNat →
            -(len - 1) ≤ k * s ∧ k * s ≤ 0 := by
          intro k hk
          generalize (len + -s - 1) / -s = q at *
          refine ⟨?_, by nlinarith⟩
          have : (k : Int) * (-s) ≤ (q - 1) * (-s) := by nlinarith [(by omega : (k : Int) ≤ q - 1)]
          have e1 : (k : Int) * (-s) = -(k * s) := by ring
          omega
        obtain ⟨r, hr, hm⟩ := strideRead_ok l s ((len + -s - 1) / -s).toNat (beg + (len - 1))
          (fun k hk => by have := hin k hk; omega)
        refine ⟨r, ?_, ?_⟩
        · simp only [walk, if_neg hz, if_neg hs1, if_neg hs2,
            if_neg (fun h : s < 0 ∧ s < -len => hbig h.2), hu, if_neg (by omega : ¬ s > 0), hr]
        · rw [hm, if_neg (by omega), show beg + (len - 1) = beg + len - 1 by omega]
          congr 1
          refine (stepLoop_prog hs _ _ _ _ (fun k hk => ?_) ?_).symm
          · have := hin k hk
            rw [inside_neg hneg]; simp; omega
          · rw [inside_neg hneg, hnn]
            have e1 : (len + -s - 1) / -s * s = -((len + -s - 1) / -s * -s) := by ring
            simp only [Bool.false_eq_true, if_false, e1]; omega
    · -- up
      have hu : (s.natAbs : Int) = s := by omega
      obtain ⟨c1, c2, c3⟩ := ceil_facts hlp hpos
      have hnn : (((len + s - 1) / s).toNat : Int) = (len + s - 1) / s := by omega
      have hin : ∀ k : Nat, k < ((len + s - 1) / s).toNat → 0 ≤ k * s ∧ k * s ≤ len - 1 := by
        intro k hk
        generalize (len + s - 1) / s = q at *
        refine ⟨by nlinarith, ?_⟩
        have : (k : Int) * s ≤ (q - 1) * s := by nlinarith [(by omega : (k : Int) ≤ q - 1)]
        omega
      obtain ⟨r, hr, hm⟩ := strideRead_ok l s ((len + s - 1) / s).toNat beg
        (fun k hk => by have := hin k hk; omega)
      refine ⟨r, ?_, ?_⟩
      · simp only [walk, if_neg hz, if_neg hs1, if_neg hs2,
          if_neg (fun h : s < 0 ∧ s < -len => absurd h.1 (by omega)), hu, if_pos hpos,
          Int.add_zero, hr]
      · rw [hm, if_pos hpos]
        congr 1
        refine (stepLoop_prog hs _ _ _ _ (fun k hk => ?_) ?_).symm
        · have := hin k hk
          rw [inside_pos hpos]; simp; omega
        · rw [inside_pos hpos, hnn]; simp; omega

/-- The part of `index` after the endpoints have been read: `b`, `e` and `excl` describe the span
in forward order. -/
def span (l : List α) (s : Int) (b e : Option Int) (excl0 : Bool) : Res (List α) :=
  let alen : Int := l.length
  let beg0 := b.getD 0
  let end0 := e.getD (-1)
  let excl := if e.isNone then false else excl0
  let strict : Bool := decide (s.natAbs > 1)
  let beg := if beg0 < 0 then beg0 + alen else beg0
  if beg < 0 then (if strict then .rangeErr else .nil)
  else
    let end1 := if end0 < 0 then end0 + alen else end0
    let end2 := if !excl then end1 + 1 else end1
    if beg > alen then (if strict then .rangeErr else .nil)
    else if strict ∧ end2 - beg > alen then .rangeErr
    else
      let end3 := if !strict ∧ end2 > alen then alen else end2
      let len0 := max (end3 - beg) 0
      let len := if alen < len0 ∨ alen < beg + len0 then alen - beg else len0
      walk l beg len s

/-- The endpoints and `exclude_end?` in forward order (step 1 of `index`). -/
def fold (a : ASeq) : Option Int × Option Int × Bool :=
  if a.s < 0 then
    match a.e with
    | some e => if a.excl then (some (e + 1), a.b, false) else (some e, a.b, a.excl)
    | none => (none, a.b, a.excl)
  else (a.b, a.e, a.excl)

theorem index_span (a : ASeq) (l : List α) :
    index a l =
      if a.s = 0 then .ok []
      else if !isFix a.s then .typeErr
      else if (match a.b with | some b => !isFix b | none => false) then .typeErr
      else if (match a.e with | some e => !isFix e | none => false) then .typeErr
      else span l a.s (fold a).1 (fold a).2.1 (fold a).2.2 := by
  rfl

theorem span_ok (l : List α) {s : Int} (hs : s ≠ 0) (b e : Option Int) (excl : Bool) :
    span l s b e excl = .rangeErr ∨ span l s b e excl = .nil ∨
      ∃ r, span l s b e excl = .ok r := by
  unfold span
  simp only
  generalize hbg : (if b.getD 0 < 0 then b.getD 0 + (l.length : Int) else b.getD 0) = beg
  generalize (if (!if e.isNone = true then false else excl) = true then
    (if e.getD (-1) < 0 then e.getD (-1) + (l.length : Int) else e.getD (-1)) + 1 else
    (if e.getD (-1) < 0 then e.getD (-1) + (l.length : Int) else e.getD (-1))) = end2
  by_cases h1 : beg < 0
  · rw [if_pos h1]; split <;> simp
  · rw [if_neg h1]
    by_cases h2 : beg > l.length
    · rw [if_pos h2]; split <;> simp
    · rw [if_neg h2]
      split
      · simp
      · right; right
        generalize (if (!decide (s.natAbs > 1)) = true ∧ end2 > (l.length : Int) then (l.length : Int)
          else end2) = end3
        obtain ⟨r, hr, _⟩ := walk_ok l (beg := beg)
          (len := if (l.length : Int) < max (end3 - beg) 0 ∨
            (l.length : Int) < beg + max (end3 - beg) 0 then (l.length : Int) - beg
            else max (end3 - beg) 0) hs (by omega) (by split <;> omega) (by split <;> omega)
        exact ⟨r, hr⟩

end Verif.Rng
