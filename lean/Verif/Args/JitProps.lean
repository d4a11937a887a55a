import Verif.Args.JitKw

/-! C66: compiled calls bind the same values as the runtime binder. -/
namespace Verif.Args

theorem posOf_simple (W : World) (p : Params) (cs : CallSite) (hs : cs.splat = [])
    (h : ¬ (cs.args.length = 1 ∧ p.singleArgExpand = true)) : posOf W p cs none = .ok (cs.args, none) := by
  unfold posOf toAryStep expandStep checkSingleArgExpand
  rw [hs]
  cases hx : p.singleArgExpand with
  | false => simp [bind, Except.bind, pure, Except.pure]
  | true =>
    match ha : cs.args with
    | [] => rfl
    | [v] => exact absurd ⟨by rw [ha]; rfl, hx⟩ h
    | a :: b :: l => simp [bind, Except.bind, pure, Except.pure]

/-- What `is_simple_call` says. -/
theorem isSimpleCall_iff (p : Params) (args : List Val) (lits : List (Name × Val)) :
    isSimpleCall p (litSite args lits) = true ↔
      ¬ (args.length = 1 ∧ p.singleArgExpand = true) ∧ ¬ ((p.noKeyword = true ∨ p.forbidKw = true) ∧ lits ≠ []) ∧
      (∀ i n, p.kwNames[i]? = some n → p.kwIsRequired i = true → ∃ v, (n, v) ∈ lits) ∧ p.arityOk args.length = true := by
  unfold isSimpleCall
  have hargs : (litSite args lits).args = args := rfl
  have hsp : (litSite args lits).hasSplat = false := rfl
  have hhs : (litSite args lits).hasHashSplat = false := rfl
  have hkm : (litSite args lits).kwMayExist = true ↔ lits ≠ [] := by
    unfold CallSite.kwMayExist litSite
    cases lits <;> simp
  have hreq : (p.kwNames.zipIdx.all fun e => !(p.kwIsRequired e.2 && !((litSite args lits).kw.any fun k => k.1 == e.1))) = true
      ↔ ∀ i n, p.kwNames[i]? = some n → p.kwIsRequired i = true → ∃ v, (n, v) ∈ lits := by
    rw [List.all_eq_true]
    have hany : ∀ n, ((litSite args lits).kw.any fun k => k.1 == n) = true ↔ ∃ v, (n, v) ∈ lits := by
      intro n
      rw [List.any_eq_true]
      constructor
      · rintro ⟨e, he, hn⟩
        obtain ⟨v, hv⟩ := (litSite_kw_mem args lits e.1 e.2).mp he
        simp only [beq_iff_eq] at hn
        rw [hn] at hv
        exact ⟨v, List.mem_of_getElem? hv⟩
      · rintro ⟨v, hv⟩
        obtain ⟨i, hi⟩ := List.mem_iff_getElem?.mp hv
        exact ⟨(n, i), (litSite_kw_mem args lits n i).mpr ⟨v, hi⟩, by simp⟩
    constructor
    · intro h i n hn hr
      have := h (n, i) (List.mem_zipIdx_iff_getElem?.mpr hn)
      rw [hr] at this
      simp only [Bool.true_and, Bool.not_not] at this
      exact (hany n).mp this
    · rintro h ⟨n, i⟩ he
      have := h i n (List.mem_zipIdx_iff_getElem?.mp he)
      cases hr : p.kwIsRequired i with
      | false => simp only [hr, Bool.false_and, Bool.not_false]
      | true =>
        simp only [hr, Bool.true_and, Bool.not_not]
        exact (hany n).mpr (this hr)
  rw [hargs, hsp, hhs]
  simp only [Bool.and_eq_true, Bool.not_eq_true', Bool.not_false, and_true, Bool.and_eq_false_iff, Bool.or_eq_false_iff]
  rw [hreq]
  have hk' : (litSite args lits).kwMayExist = false ↔ ¬ lits ≠ [] := by rw [← hkm]; simp
  rw [hk']
  simp only [beq_eq_false_iff_ne, ne_eq]
  constructor
  · rintro ⟨⟨⟨a, b⟩, c⟩, d⟩
    refine ⟨?_, ?_, c, d⟩
    · rintro ⟨x, y⟩; rcases a with a | a
      · exact a x
      · rw [y] at a; cases a
    · rintro ⟨x, y⟩; rcases b with b | b
      · rcases x with x | x
        · rw [b.1] at x; cases x
        · rw [b.2] at x; cases x
      · exact b y
  · rintro ⟨a, b, c, d⟩
    refine ⟨⟨⟨?_, ?_⟩, c⟩, d⟩
    · by_cases x : args.length = 1
      · right; cases hx : p.singleArgExpand with
        | false => rfl
        | true => exact absurd ⟨x, hx⟩ a
      · left; exact x
    · by_cases x : lits = []
      · right; exact fun h => h x
      · left
        constructor
        · cases hx : p.noKeyword with
          | false => rfl
          | true => exact absurd ⟨Or.inl hx, x⟩ b
        · cases hx : p.forbidKw with
          | false => rfl
          | true => exact absurd ⟨Or.inr hx, x⟩ b

/-- C66 (partial: literal keywords with distinct names which the callee all knows or takes in `**rest`; the callee is
not a block with trailing required parameters and without `*rest` given more arguments than it has parameters; and it
is not a method made from a `|a,|` block.  The four `_fails` theorems below are the excluded cases): a compiled call
leaves the callee's parameters exactly as the interpreter's binder does, or raises when it raises. -/
theorem C66_jit_partial (W : World) (p : Params) (args : List Val) (lits : List (Name × Val)) (f : Frame)
    (hp : ParamsOk p) (hl : (lits.map (·.1)).Nodup)
    (hu : p.kwRest = true ∨ ∀ e ∈ lits, e.1 ∈ p.kwNames)
    (hpost : p.blockStyle = true → p.rest = .none → p.req + p.opt + p.post < args.length → p.post = 0)
    (himp : p.blockStyle = false → p.rest ≠ .implicit) :
    outcome p (jitSet W p (CallSite.ofSource args [] (lits.map fun e => KwItem.lit e.1 e.2)) f)
      = outcome p (setCallee W p (CallSite.ofSource args [] (lits.map fun e => KwItem.lit e.1 e.2)) f) := by
  rw [ofSource_litSite args lits hl]
  unfold jitSet
  by_cases hs : isSimpleCall p (litSite args lits) = true
  · rw [if_pos hs]
    obtain ⟨s1, s2, s3, s4⟩ := (isSimpleCall_iff p args lits).mp hs
    have hnil : p.noKeyword = true ∨ p.forbidKw = true → lits = [] := by
      intro h; by_contra hc; exact s2 ⟨h, hc⟩
    have hex : (if p.noKeyword = true then (trailing p (allPairs lits [])).head? else none) = none := by
      split_ifs with h
      · rw [hnil (Or.inl h)]; rfl
      · rfl
    have hpos : posOf W p (litSite args lits) none = .ok (args, none) := posOf_simple W p _ rfl s1
    rw [setCallee_eq W p _ lits [] f hp (litSite_siteOk W args lits hl) (by
      rw [hex, hpos]; intro l m h; cases h), hex, hpos]
    rw [if_neg (by
      rintro ⟨h, hc⟩
      rw [hnil (Or.inr h)] at hc
      exact hc rfl)]
    simp only [Except.bind, List.append_nil, Option.isSome_none, Bool.or_false]
    have hall : allPairs lits [] = symPairs lits := by unfold allPairs; simp
    rw [hall]
    have hrest : p.isRest = true ↔ p.rest ≠ .none := isRest_iff p
    have hbad : badArity p args.length = false := by
      unfold badArity
      unfold Params.arityOk Params.withinRange at s4
      cases hb : p.blockStyle with
      | true => rfl
      | false =>
        rw [hb] at s4
        simp only [Bool.false_or] at s4
        cases hr : p.isRest with
        | true =>
          rw [hr] at s4
          simp only [if_true, decide_eq_true_eq] at s4
          have : p.isExplicitRest = true := by
            unfold Params.isExplicitRest
            have h1 := hrest.mp hr
            have h2 := himp hb
            cases h : p.rest with
            | none => exact absurd h h1
            | implicit => exact absurd h h2
            | explicit => rfl
          rw [this]; simp; omega
        | false =>
          rw [hr] at s4
          simp only [Bool.false_eq_true, if_false, Bool.and_eq_true, decide_eq_true_eq] at s4
          simp only [Bool.not_false, Bool.true_and, Bool.or_eq_false_iff, decide_eq_false_iff_not]
          refine ⟨by omega, ?_⟩
          rw [Bool.and_eq_false_iff]; left; simp; exact s4.2
    have hjp : jitPositional p args f = bindL p f args := by
      apply jitPositional_eq p args f hbad
      intro a b c
      apply hpost a _ c
      by_contra hc
      rw [hrest.mpr hc] at b; cases b
    unfold jitInline
    have hargs : (litSite args lits).args = args := rfl
    rw [hargs, hjp]
    have hbl : bindL p f args = .ok (boundL p f args) := by unfold bindL; rw [hbad]; rfl
    rw [hbl]
    simp only [bind, Except.bind]
    rw [jitKeyword_eq p args lits _ hl]
    unfold specCall
    rw [hbl]
    simp only [Except.bind]
    by_cases hk : p.noKeyword = true
    · rw [if_pos hk, hnil (Or.inl hk)]
      unfold Params.noKeyword at hk
      simp only [Bool.and_eq_true, Bool.not_eq_true', List.isEmpty_iff] at hk
      congr 2
      unfold kwFrame kwOver
      rw [hk.1, hk.2]
      simp only [Bool.false_eq_true, if_false]
      funext j
      simp
    · rw [if_neg hk]
      have hm : missingOf p (symPairs lits) = [] := by
        rw [List.eq_nil_iff_forall_not_mem]
        intro n hn
        obtain ⟨i, h1, h2, h3⟩ := (missing_mem p _ n).mp hn
        obtain ⟨v, hv⟩ := s3 i n h1 (by unfold Params.kwIsRequired; rw [List.getD_eq_getElem?_getD, h2]; rfl)
        rw [lastVal_eq_none] at h3
        exact h3 (.sym n, v) (by unfold symPairs; exact List.mem_map.mpr ⟨(n, v), hv, rfl⟩) rfl
      have hun : (!p.kwRest && !(undeclared p (symPairs lits)).isEmpty) = false := by
        rcases hu with h | h
        · rw [h]; rfl
        · have : undeclared p (symPairs lits) = [] := by
            unfold undeclared
            rw [List.filter_eq_nil_iff]
            intro e he
            unfold symPairs at he
            obtain ⟨x, hx, rfl⟩ := List.mem_map.mp he
            simp [declared, h x hx]
          rw [this]; simp
      unfold kwBind
      rw [if_neg (by rw [hm]; simp), hun]
      simp only [Bool.false_eq_true, if_false]
      rw [outcome_kwFrame p _ _ (!(undeclared p (symPairs lits)).isEmpty) (by
        intro h; simpa using h),
        outcome_kwFrame p _ _ (litSite args lits).kwMayExist (by
        intro h
        have : lits = [] := by
          unfold CallSite.kwMayExist litSite at h
          cases lits with
          | nil => rfl
          | cons a l => simp at h
        rw [this]; rfl)]
  · rw [if_neg hs]

/-- A method `def m(a, b = …, *r, c, k:, o: …, **kr)`. -/
def demoFull : Params :=
  { req := 1, opt := 1, rest := .explicit, post := 1, kwNames := [7, 8], kwRequired := [true, false], kwRest := true }

/-- The hypotheses of `C66_jit_partial` hold of a call `m(1, 2, 3, 4, k: 5, z: 6)` of it, and the call is set up
inline. -/
example : isSimpleCall demoFull (CallSite.ofSource [.atom 1, .atom 2, .atom 3, .atom 4] []
      ([(7, .atom 5), (9, .atom 6)].map fun e => KwItem.lit e.1 e.2)) = true
    ∧ ParamsOk demoFull ∧ (((([(7, .atom 5), (9, .atom 6)] : List (Name × Val)).map (·.1)).Nodup))
    ∧ demoFull.kwRest = true
    ∧ (outcome demoFull (jitSet noConv demoFull (CallSite.ofSource [.atom 1, .atom 2, .atom 3, .atom 4] []
      ([(7, .atom 5), (9, .atom 6)].map fun e => KwItem.lit e.1 e.2)) fun _ => none)).map
        (fun g => (List.range 7).map g)
      = some [some (.atom 1), some (.atom 2), some (.arr [.atom 3]), some (.atom 4), some (.atom 5), none,
          some (.hash [(.sym 9, .atom 6)] false)] :=
  ⟨rfl, ⟨by decide, by decide⟩, by decide, rfl, rfl⟩

/-- C66 fails for surplus arguments of a block with trailing required parameters: `yield 1, 2, 3, 4` to
`|a, b = 5, c|` gives `c = 3` when interpreted and `c = 4` when compiled. -/
theorem C66_jit_surplus_fails :
    let p : Params := { req := 1, opt := 1, post := 1, blockStyle := true }
    let cs : CallSite := { args := [.atom 1, .atom 2, .atom 3, .atom 4] }
    (outcome p (setCallee noConv p cs fun _ => none)).map (fun g => g 2) = some (some (.atom 3)) ∧
    (outcome p (jitSet noConv p cs fun _ => none)).map (fun g => g 2) = some (some (.atom 4)) := ⟨rfl, rfl⟩

/-- C66 fails for an unknown keyword: `m(k: 1, z: 2)` of `def m(k:)` raises when interpreted; compiled code drops
`z:`. -/
theorem C66_jit_unknown_keyword_fails :
    let p : Params := { kwNames := [7], kwRequired := [true] }
    let cs := CallSite.ofSource [] [] [.lit 7 (.atom 1), .lit 9 (.atom 2)]
    outcome p (setCallee noConv p cs fun _ => none) = none ∧
    (outcome p (jitSet noConv p cs fun _ => none)).map (fun g => g 0) = some (some (.atom 1)) := ⟨rfl, rfl⟩

/-- C66 fails for a keyword written twice: `m(k: 1, k: 2)` binds `k = 2` when interpreted and stops the compiler with a
failed assertion. -/
theorem C66_jit_duplicate_keyword_fails :
    let p : Params := { kwNames := [7], kwRequired := [true] }
    let cs := CallSite.ofSource [] [] [.lit 7 (.atom 1), .lit 7 (.atom 2)]
    (outcome p (setCallee noConv p cs fun _ => none)).map (fun g => g 0) = some (some (.atom 2)) ∧
    (match jitSet noConv p cs fun _ => none with | .error e => some e | .ok _ => none) = some .ub := ⟨rfl, rfl⟩

/-- C66 fails for `define_method(:m) { |a| … }` called with no argument: the interpreter raises ArgumentError, compiled
code binds `a = nil`. -/
theorem C66_define_method_fails :
    let p : Params := { req := 1, blockStyle := true }
    (outcome p (bmethodInterp noConv p {} fun _ => none)).isNone = true ∧
    (outcome p (bmethodJit noConv p {} fun _ => none)).map (fun g => g 0) = some (some .nil) := ⟨rfl, rfl⟩

/-- C66 fails for `define_method(:m) { |a, b| … }` called with one array: the interpreter raises, compiled code spreads
the array. -/
theorem C66_define_method_spread_fails :
    let p : Params := { req := 2, blockStyle := true }
    let cs : CallSite := { args := [.arr [.atom 1, .atom 2]] }
    (outcome p (bmethodInterp noConv p cs fun _ => none)).isNone = true ∧
    (outcome p (bmethodJit noConv p cs fun _ => none)).map (fun g => g 1) = some (some (.atom 2)) := ⟨rfl, rfl⟩

theorem storeEmptyKwRest_frame (p : Params) (f : Frame) (h : p.kwNames = []) :
    storeEmptyKwRest p f = kwFrame p f [] false := by
  unfold storeEmptyKwRest kwFrame kwOver
  rw [h]
  simp

/-- C66: the source-routed `...` forward of compiled code (leading arguments, then the values the enclosing method was
called with, never collected into an array) leaves the callee's parameters as a call with those arguments written out
does. -/
theorem C66_deferred (W : World) (p : Params) (lead orig : List Val) (f : Frame) (hp : ParamsOk p)
    (h : deferredGate p lead.length orig.length = true) :
    outcome p (.ok (deferredFill p lead orig f)) = outcome p (setCallee W p { args := lead ++ orig } f) := by
  unfold deferredGate at h
  simp only [Bool.and_eq_true, beq_iff_eq, decide_eq_true_eq, List.isEmpty_iff, Bool.not_eq_true', Bool.or_eq_true] at h
  obtain ⟨⟨⟨⟨⟨⟨h1, h2⟩, h3⟩, h4⟩, h5⟩, h6⟩, h7⟩ := h
  have hro : p.reqopt = p.req + p.opt := rfl
  have hmax : p.max = p.req + p.opt + p.post := rfl
  have hmin : p.min = p.req + p.post := rfl
  have ht : p.total = p.max + (if p.isRest then 1 else 0) := rfl
  rw [setCallee_bare W p (lead ++ orig) f hp (lead ++ orig) (posOf_simple W p _ rfl (by rw [h4]; rintro ⟨_, h⟩; cases h))]
  have hbad : badArity p (lead ++ orig).length = false := by
    unfold badArity
    rw [List.length_append]
    rw [Bool.and_eq_false_iff]; right
    simp only [Bool.or_eq_false_iff, decide_eq_false_iff_not, Bool.and_eq_false_iff, Bool.not_eq_false']
    refine ⟨by omega, ?_⟩
    rcases h7 with h7 | h7
    · right; rcases h5 with h5 | h5
      · rw [h7] at h5; cases h5
      · exact h5
    · left; omega
  have hE : effN p (lead ++ orig).length = lead.length + orig.length := by
    unfold effN
    rw [List.length_append]
    split_ifs with a b c
    · omega
    · rfl
    · rcases h7 with h7 | h7
      · exact absurd h7 c
      · omega
    · rfl
  have hfill : deferredFill p lead orig f = storeEmptyKwRest p (boundL p f (lead ++ orig)) := by
    unfold deferredFill
    simp only
    congr 1
    unfold forwardedLayout
    simp only
    rw [← List.map_append]
    have hB : Nat.min (lead.length + orig.length) p.reqopt = min (lead.length + orig.length) p.reqopt := rfl
    rw [hB]
    have htake : lead ++ orig.take (min (lead.length + orig.length) p.reqopt - lead.length)
        = (lead ++ orig).take (min (lead.length + orig.length) p.reqopt) := by
      rw [List.take_append, List.take_of_length_le (l := lead) (by omega)]
    rw [htake, storeRun_eq]
    have hlen : (lead ++ orig).length = lead.length + orig.length := List.length_append
    have hdrop : (orig.drop (min (lead.length + orig.length) p.reqopt - lead.length)).take
          (lead.length + orig.length - min (lead.length + orig.length) p.reqopt)
        = (lead ++ orig).drop (min (lead.length + orig.length) p.reqopt) := by
      rw [List.drop_append, List.drop_of_length_le (l := lead) (by omega), List.nil_append]
      apply List.take_of_length_le
      rw [List.length_drop]; omega
    rw [hdrop]
    unfold boundL bound slotAt
    rw [hE]
    generalize hL : lead ++ orig = L at *
    generalize hN : lead.length + orig.length = n at *
    have hidx : ∀ j, j < p.reqopt →
        ((L.take (min n p.reqopt)).map some ++ List.replicate (p.reqopt - min n p.reqopt) none)[j]?
          = some (if j < n then some (L.getD j .nil) else none) := by
      intro j hj
      by_cases c : j < n
      · rw [if_pos c, List.getElem?_append_left (by simp; omega), List.getElem?_map,
          List.getElem?_take_of_lt (by omega), List.getElem?_eq_getElem (by omega)]
        simp [List.getD_eq_getElem?_getD, List.getElem?_eq_getElem (show j < L.length by omega)]
      · rw [if_neg c, List.getElem?_append_right (by simp; omega), List.getElem?_replicate, if_pos (by simp; omega)]
    have hout : ∀ j, p.reqopt ≤ j →
        ((L.take (min n p.reqopt)).map some ++ List.replicate (p.reqopt - min n p.reqopt) (none : Option Val))[j]? = none := by
      intro j hj
      apply List.getElem?_eq_none
      simp; omega
    have hslice : L.drop (min n p.reqopt)
        = (List.range (n - p.min - min (n - p.min) p.opt)).map fun j => L.getD (p.req + min (n - p.min) p.opt + j) .nil := by
      apply List.ext_getElem?
      intro i
      rw [List.getElem?_drop, List.getElem?_map]
      by_cases c : i < n - p.min - min (n - p.min) p.opt
      · rw [List.getElem?_range c]
        have e : min n p.reqopt + i = p.req + min (n - p.min) p.opt + i := by omega
        rw [e]
        simp [List.getD_eq_getElem?_getD, List.getElem?_eq_getElem (show p.req + min (n - p.min) p.opt + i < L.length by omega)]
      · rw [List.getElem?_eq_none (by omega), List.getElem?_eq_none (by simp; omega)]; rfl
    funext j
    by_cases hR : p.isRest = true
    · rw [hR] at ht
      simp only [if_true] at ht
      rw [if_pos hR]
      unfold Frame.set
      by_cases d3 : j = p.reqopt
      · rw [if_pos d3, if_pos (by omega), if_neg (show ¬ j < p.req by omega), if_neg (show ¬ j < p.reqopt by omega),
          if_pos ⟨hR, d3⟩, hslice]
      · rw [if_neg d3]
        by_cases d2 : j < p.reqopt
        · simp only [Nat.zero_le, if_true, Nat.sub_zero, hidx j d2]
          rw [if_pos (show j < p.total by omega), if_pos d2]
          split_ifs <;> first | rfl | omega
        · simp only [Nat.zero_le, if_true, Nat.sub_zero, hout j (by omega)]
          rw [if_neg (by omega)]
    · rw [if_neg hR]
      have hR' : p.isRest = false := by simpa using hR
      rw [hR'] at ht
      simp only [Bool.false_eq_true, if_false, Nat.add_zero] at ht
      by_cases d2 : j < p.reqopt
      · simp only [Nat.zero_le, if_true, Nat.sub_zero, hidx j d2]
        rw [if_pos (show j < p.total by omega), if_pos d2]
        split_ifs <;> first | rfl | omega
      · simp only [Nat.zero_le, if_true, Nat.sub_zero, hout j (by omega)]
        rw [if_neg (by omega)]
  rw [hfill, storeEmptyKwRest_frame p _ h3]
  have hbl : bindL p f (lead ++ orig) = .ok (boundL p f (lead ++ orig)) := by unfold bindL; rw [hbad]; rfl
  unfold specCall
  rw [hbl]
  simp only [Except.bind]
  by_cases hk : p.noKeyword = true
  · rw [if_pos hk]
    unfold Params.noKeyword at hk
    simp only [Bool.and_eq_true, Bool.not_eq_true', List.isEmpty_iff] at hk
    congr 2
    unfold kwFrame kwOver
    rw [hk.1, hk.2]
    simp
  · rw [if_neg hk]
    unfold kwBind missingOf undeclared
    rw [h3]
    simp

/-- The gate holds for `def f(...) = g(1, ...)` called with two values, with `def g(a, b = 0, *r, **k)`. -/
example : deferredGate { req := 1, opt := 1, rest := .explicit, kwRest := true } 1 2 = true ∧
    deferredFill { req := 1, opt := 1, rest := .explicit, kwRest := true } [.atom 1] [.atom 2, .atom 3] (fun _ => none) 2
      = some (.arr [.atom 3]) := ⟨rfl, rfl⟩

end Verif.Args
