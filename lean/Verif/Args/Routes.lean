import Verif.Args.Norm

/-! C66: every route that sets up a callee's frame binds the same. -/
namespace Verif.Args

/-! ### The head fast path and the simple helpers -/

/-- C66: the head fast path of the runtime binder gives what the general path gives. -/
theorem C66_fast_path (W : World) (p : Params) (cs : CallSite) (f : Frame) (h : headFast p cs = true) :
    fillSlots p f cs.args = genericTail W p cs f := headFast_eq W p cs f h

example : headFast demoMethod { args := [.atom 1, .atom 2] } = true := rfl

/-- C66: the helper for calls without keywords and splats (used by compiled calls, `send` and `yield`) binds as the
general one, including every error. -/
theorem C66_simple (W : World) (p : Params) (args : List Val) (f : Frame) :
    setSimple W p args f = setCallee W p { args := args } f := by
  rw [setCallee_generic]
  unfold setSimple genericTail
  have hc : coerceSite W { args := args } = .ok { args := args } := rfl
  have ha : anyKeywordPassed { args := args } = false := rfl
  have he : excess p { args := args } = .ok none := by
    unfold excess
    have : ({ args := args } : CallSite).kwMayExist = false := rfl
    rw [this, Bool.and_false]; rfl
  rw [hc]
  simp only [bind, Except.bind, pure, Except.pure, ha, Bool.and_false, Bool.false_eq_true, if_false, he,
    genericPositional_eq]
  unfold posOf
  simp only [bind, Except.bind, pure, Except.pure, fillSlice_eq, fillSlots_eq]
  have hm : ({ args := args } : CallSite).kwMayExist = false := rfl
  have tail : ∀ g, (if (!p.noKeyword) = true then handleKeyword p { args := args } none g else Except.ok g)
      = if (!p.noKeyword || !({ args := args } : CallSite).kwMayExist) = true
        then handleKeyword p { args := args } none g else .ok g := by
    intro g
    rw [hm]
    cases hn : p.noKeyword with
    | false => rfl
    | true => simp [handleKeyword_none p { args := args } none g rfl hn]
  cases toAryStep W p args [] none with
  | error e => rfl
  | ok c =>
    cases c with
    | some l =>
      simp only
      cases bindL p f l with
      | error e => rfl
      | ok g => exact tail g
    | none =>
      simp only
      cases expandStep p args [] none with
      | some l =>
        simp only
        cases bindL p f l with
        | error e => rfl
        | ok g => exact tail g
      | none =>
        simp only [List.isEmpty_nil, Option.isNone_none, Bool.and_self, if_true]
        cases bindL p f args with
        | error e => rfl
        | ok g => exact tail g

/-- C66: so does the compiled `yield`, whose shortcut copies the arguments. -/
theorem C66_yield (W : World) (p : Params) (args : List Val) (f : Frame) :
    yieldSimple W p args f = setCallee W p { args := args } f := by
  rw [← C66_simple]
  unfold yieldSimple
  split_ifs with h
  · rw [Bool.and_eq_true, beq_iff_eq] at h
    obtain ⟨h1, h2⟩ := h
    unfold Params.isSimple at h1
    simp only [Bool.and_eq_true, beq_iff_eq, Bool.not_eq_true', List.isEmpty_iff] at h1
    obtain ⟨⟨⟨⟨ho, hpo⟩, hr⟩, hkn⟩, hkr⟩ := h1
    have hnk : p.noKeyword = true := by unfold Params.noKeyword; rw [hkn, hkr]; rfl
    have hR : p.rest = .none := by
      have := isRest_iff p
      rw [hr] at this
      by_contra hc; exact absurd (this.mpr hc) (by simp)
    have ht : p.total = p.req := by unfold Params.total Params.max; rw [ho, hpo, hr]; simp
    have hposs : posOf W p { args := args } none = .ok (args, none) := by
      by_cases hx : args.length = 1
      · have := posOf_plain W p { args := args } none (by
          unfold Params.singleArgExpand; rw [ht, h2, hx]; simp) rfl
        rw [this]; simp
      · exact posOf_many W p args hx
    rw [C66_simple, setCallee_noKeyword W p _ f hnk (plainSite W args []) args hposs]
    have hmin : p.min = args.length := by unfold Params.min; omega
    have hmax : p.max = args.length := by unfold Params.max; omega
    have hba : badArity p args.length = false := by
      unfold badArity; rw [hmin, hmax]; simp
    have hE : effN p args.length = args.length := by
      unfold effN; rw [hmin, hmax, hr]; simp
    unfold bindL
    rw [hba]
    simp only [Bool.false_eq_true, if_false]
    congr 1
    funext i
    unfold boundL bound memcpy slotAt
    rw [hE, ht]
    by_cases hi : i < p.req
    · rw [if_pos (by omega), if_pos hi]; simp only; rw [if_pos hi, slots_rd]; simp
    · rw [if_neg (by omega), if_neg hi]
  · rfl

example : yieldSimple noConv { req := 2, blockStyle := true } [.atom 1, .atom 2] (fun _ => none)
    = .ok (memcpy (fun _ => none) 0 (.slots [.atom 1, .atom 2]) 0 2) := rfl

/-! ### `send(*args)` -/

theorem handleKeywordSimple_eq (p : Params) (f : Frame) : handleKeywordSimple p f = kwBind p f [] false := by
  unfold handleKeywordSimple
  have hz : ∀ n, ((List.range n).foldl (fun f i => Frame.set f (p.kwPos + i) none) f)
      = fun j => if p.kwPos ≤ j ∧ j < p.kwPos + n then none else f j := by
    intro n
    induction n with
    | zero => funext j; rw [List.range_zero, List.foldl_nil, if_neg (by omega)]
    | succ n ih =>
      rw [List.range_succ, List.foldl_append, ih, List.foldl_cons, List.foldl_nil]
      funext j
      simp only [Frame.set]
      split_ifs <;> first | rfl | (exfalso; omega)
  have hk : (fun j => if p.kwPos ≤ j ∧ j < p.kwPos + p.kwNames.length then none else f j)
      = kwOver p f fun n _ => lastVal [] (.sym n) := by
    funext j
    unfold kwOver
    by_cases a : p.kwPos ≤ j
    · rw [if_pos a]
      by_cases b : j < p.kwPos + p.kwNames.length
      · rw [if_pos ⟨a, b⟩, List.getElem?_eq_getElem (by omega)]; rfl
      · rw [if_neg (by omega), List.getElem?_eq_none (by omega)]
    · rw [if_neg a, if_neg (by omega)]
  rw [hz, hk]
  simp only [bind, Except.bind, pure, Except.pure]
  have hff : (if p.kwRest = true then
        Frame.set (kwOver p f fun n _ => lastVal [] (.sym n)) p.kwRestPos (some .nil)
      else kwOver p f fun n _ => lastVal [] (.sym n)) = kwFrame p f [] false := rfl
  rw [hff, checkMissing_eq p (kwFrame p f [] false) [] (fun i n hi => kwFrame_named p f [] false i n hi)]
  unfold kwBind
  by_cases hm : missingOf p [] = []
  · simp only [hm, ne_eq, not_true_eq_false, if_false]
    have : (undeclared p []).isEmpty = true := rfl
    rw [this]; simp
  · simp only [ne_eq, hm, not_false_eq_true, if_true]

/-- What a splatted array turns into at the end of the arguments when it holds no keyword hash. -/
theorem r2kSplit_plain (p : Params) (l : List Val) (h : ∀ m, l.getLast? ≠ some (.hash m true)) :
    r2kSplit p l = (l, none) := by
  unfold r2kSplit
  cases hl : l.getLast? with
  | none => rfl
  | some v =>
    have : r2kHash v = none := by
      cases v with
      | hash m fl => cases fl with
        | true => rw [hl] at h; exact absurd rfl (h m)
        | false => rfl
      | _ => rfl
    simp only [this]

theorem posOf_splat (W : World) (p : Params) (l : List Val) (h : p.singleArgExpand = false)
    (hl : ∀ m, l.getLast? ≠ some (.hash m true)) :
    posOf W p { args := [.arr l], splat := [0] } none = .ok (l, none) := by
  unfold posOf toAryStep expandStep
  rw [h]
  simp only [bind, Except.bind, pure, Except.pure, Bool.false_and, Bool.false_eq_true, if_false, List.isEmpty_cons]
  have hm : ({ args := [.arr l], splat := [0] } : CallSite).kwMayExist = false := rfl
  have he : expandArgs { args := [.arr l], splat := [0] } = l := by
    unfold expandArgs expandArg; simp
  rw [hm, he]
  simp only [Bool.not_false, Bool.and_self, if_true, Option.toList_none, List.append_nil]
  rw [r2kSplit_plain p l hl]

/-- C66 (partial: the array does not end in a `ruby2_keywords` hash, and the callee is a method): `send(*[name, …])`
binds as calling the method with the splatted array. -/
theorem C66_send_splat_partial (W : World) (p : Params) (name : Val) (l : List Val) (f : Frame) (hp : ParamsOk p)
    (hb : p.blockStyle = false) (hl : ∀ m, l.getLast? ≠ some (.hash m true)) :
    sendSplat p (name :: l) f = setCallee W p { args := [.arr l], splat := [0] } f := by
  have hx : p.singleArgExpand = false := by unfold Params.singleArgExpand; rw [hb]; rfl
  have hex : (if p.noKeyword = true then (trailing p (allPairs [] [])).head? else none) = none := by
    split_ifs <;> rfl
  have hpos := posOf_splat W p l hx hl
  rw [setCallee_eq W p _ [] [] f hp (plainSite W _ [0]) (by rw [hex, hpos]; intro l m h; cases h), hex, hpos,
    if_neg (by rintro ⟨_, h⟩; exact h rfl)]
  simp only [Except.bind]
  unfold sendSplat specCall
  simp only [fillSlice_eq, bind, Except.bind, pure, Except.pure]
  cases bindL p f l with
  | error e => split_ifs <;> rfl
  | ok g =>
    simp only [handleKeywordSimple_eq]
    cases p.noKeyword <;> rfl

/-- Without the restriction it is false: `send(*[:m, …, {x: 1} flagged])` passes the hash as a positional argument,
`m(*[…, {x: 1} flagged])` passes a keyword. -/
theorem C66_send_splat_fails : ∃ p : Params, ParamsOk p ∧ p.blockStyle = false ∧
    ∃ l : List Val, outcome p (sendSplat p (.atom 0 :: l) (fun _ => none)) = none ∧
      outcome p (setCallee noConv p { args := [.arr l], splat := [0] } (fun _ => none)) ≠ none := by
  refine ⟨{ kwNames := [10], kwRequired := [true] }, ⟨by simp, by intro h; cases h⟩, rfl,
    [.hash [(.sym 10, .atom 1)] true], rfl, ?_⟩
  intro h; cases h

/-! ### Calls from native code -/

theorem invokerKeywords_go (p : Params) (m0 : List (Key × Val)) : ∀ (ns : List Name) (f : Frame) (k : Nat)
    (m : List (Key × Val)), ns.Nodup → (∀ n ∈ ns, mapGet m (.sym n) = mapGet m0 (.sym n)) →
    (ns.zipIdx k).foldl (fun (a : Frame × List (Key × Val)) e =>
      (Frame.set a.1 (p.kwPos + e.2) (mapGet a.2 (.sym e.1)), mapRemove a.2 (.sym e.1))) (f, m)
    = ((fun j => if p.kwPos + k ≤ j then (match ns[j - (p.kwPos + k)]? with
        | some n => mapGet m0 (.sym n) | none => f j) else f j),
       ns.foldl (fun m n => mapRemove m (.sym n)) m)
  | [], f, k, m, _, _ => by simp
  | n :: ns, f, k, m, hn, hm => by
    rw [List.nodup_cons] at hn
    rw [List.zipIdx_cons, List.foldl_cons, invokerKeywords_go p m0 ns _ (k + 1) _ hn.2, List.foldl_cons]
    · congr 1
      funext j
      by_cases h1 : p.kwPos + k ≤ j
      · rw [if_pos h1]
        by_cases h2 : p.kwPos + (k + 1) ≤ j
        · rw [if_pos h2]
          have : j - (p.kwPos + k) = (j - (p.kwPos + (k + 1))) + 1 := by omega
          rw [this, List.getElem?_cons_succ]
          cases ns[j - (p.kwPos + (k + 1))]?
          · simp only [Frame.set]; rw [if_neg (by omega)]
          · rfl
        · rw [if_neg h2]
          have hj : j = p.kwPos + k := by omega
          subst hj
          simp [Frame.set, hm n (by simp)]
      · rw [if_neg h1, if_neg (by omega)]
        simp only [Frame.set]; rw [if_neg (by omega)]
    · intro n' hn'
      have hne : n' ≠ n := fun h => hn.1 (h ▸ hn')
      have := mapGet_filter (fun k => !(k == Key.sym n)) m (.sym n')
      unfold mapRemove
      rw [this, if_pos (by simpa using hne)]
      exact hm n' (by simp [hn'])

theorem invokerKeywords_eq (p : Params) (m : List (Key × Val)) (f : Frame) (hn : p.kwNames.Nodup) (hm : NodupKeys m) :
    invokerKeywords p m f = (kwOver p f fun n _ => lastVal m (.sym n), undeclared p m) := by
  have := invokerKeywords_go p m p.kwNames f 0 m hn (fun _ _ => rfl)
  unfold invokerKeywords
  refine Eq.trans this ?_
  rw [removeNames_eq]
  congr 1
  funext j
  unfold kwOver
  simp only [Nat.add_zero, lastVal_of_nodup hm]
  split_ifs
  · cases p.kwNames[j - p.kwPos]? <;> rfl
  · rfl

theorem bound_comm (p : Params) (f : Frame) (l : List Val) (φ : Name → Option Val) :
    kwOver p (boundL p f l) (fun n _ => φ n) = boundL p (kwOver p f fun n _ => φ n) l := by
  have hk : p.kwPos = p.total := rfl
  funext j
  unfold boundL bound kwOver
  by_cases a : p.kwPos ≤ j
  · simp only [if_pos a, if_neg (show ¬ j < p.total by omega)]
  · simp only [if_neg a, if_pos (show j < p.total by omega)]

theorem boundL_set (p : Params) (f : Frame) (l : List Val) (i : Nat) (v : Option Val) (h : p.total ≤ i) :
    boundL p (f.set i v) l = (boundL p f l).set i v := by
  funext j
  unfold boundL bound
  simp only [Frame.set]
  split_ifs <;> first | rfl | (exfalso; omega)

/-- The positional list of a native call. -/
theorem positionalInvoker_eq (p : Params) (f : Frame) (args : List Val) (up : Bool) (ex : Option Val) :
    positionalInvoker p f args up ex
      = bindL p f ((expandStep p args [] ex).getD (args ++ ex.toList)) := by
  unfold positionalInvoker
  simp only [fillSlice_eq, fillSlots_eq]
  cases expandStep p args [] ex with
  | some l => rfl
  | none => cases ex <;> simp

/-- The keyword hash of a native call as a call site: none, or one `**` operand. -/
def nativeSite (args : List Val) (kw : List (Key × Val)) : CallSite :=
  { args := args, hs := if kw = [] then [] else [.hash kw false] }

theorem nativeSite_ok (W : World) (args : List Val) (kw : List (Key × Val)) (h : NodupKeys kw) :
    ∃ es, SiteOk W (nativeSite args kw) [] es ∧ allPairs [] es = kw ∧
      ((nativeSite args kw).kwMayExist = false → kw = []) := by
  by_cases hk : kw = []
  · subst hk
    exact ⟨[], plainSite W args [], rfl, fun _ => rfl⟩
  · refine ⟨[kw], ⟨⟨rfl, List.nodup_nil⟩, ⟨[.hash kw false], ?_, rfl⟩, by simpa using h⟩, by simp [allPairs, symPairs], ?_⟩
    · simp only [nativeSite, if_neg hk]; rfl
    · intro hm; unfold nativeSite CallSite.kwMayExist at hm; simp [hk] at hm

theorem posOf_native (W : World) (p : Params) (args : List Val) (kw : List (Key × Val)) (ex : Option Val)
    (ho : p.singleArgExpand = true → ∀ n, args ≠ [.obj n]) :
    posOf W p (nativeSite args kw) ex = .ok ((expandStep p args [] ex).getD (args ++ ex.toList), none) := by
  have h1 : toAryStep W p args [] ex = .ok none := by
    unfold toAryStep
    cases hs : p.singleArgExpand with
    | false => rfl
    | true =>
      split_ifs
      · match args with
        | [] => rfl
        | [.obj n] => exact absurd rfl (ho hs n)
        | [.arr _] => rfl
        | [.nil] => rfl
        | [.atom _] => rfl
        | [.hash _ _] => rfl
        | _ :: _ :: _ => simp
      · rfl
  have hargs : (nativeSite args kw).args = args := rfl
  have hsp : (nativeSite args kw).splat = [] := rfl
  unfold posOf
  rw [hargs, hsp, h1]
  simp only [bind, Except.bind, pure, Except.pure]
  cases expandStep p args [] ex with
  | some l => rfl
  | none =>
    simp only [List.isEmpty_nil, Bool.true_and, Bool.not_true, Bool.and_false, Bool.false_eq_true, if_false]
    have he : expandArgs (nativeSite args kw) = args := by
      unfold expandArgs; exact expandArgs_nil _ _ rfl 0
    rw [he]
    cases ex <;> simp

/-- C66 (partial: not for a block with several parameters called with one object that is not an Array): a call made by
the runtime itself (`Proc#call`, `Integer#times`, `method_missing`, …), with the arguments in either direction and a
keyword hash with distinct keys, starts the callee with the parameters an interpreted call `m(args…, **kw)` starts it
with, and raises when that does. -/
theorem C66_native_partial (W : World) (p : Params) (args : List Val) (up : Bool) (kw : List (Key × Val)) (f : Frame)
    (hp : ParamsOk p) (hkw : (kw.map (·.1)).Nodup)
    (ho : p.singleArgExpand = true → ∀ n, args ≠ [.obj n]) :
    outcome p (invoker p args up kw f) = outcome p (setCallee W p (nativeSite args kw) f) := by
  have hkw' : NodupKeys kw := hkw
  obtain ⟨es, hs, hall, hmay⟩ := nativeSite_ok W args kw hkw'
  have hpos := fun ex => posOf_native W p args kw ex ho
  rw [setCallee_eq W p _ [] es f hp hs (by rw [hpos]; intro l m h; cases h), hpos, hall]
  simp only [Except.bind, Option.isSome_none, Bool.or_false, List.append_nil]
  unfold invoker
  rw [invokerKeywords_eq p kw f hp.nodup hkw']
  simp only [bind, Except.bind, pure, Except.pure, throw, throwThe, MonadExceptOf.throw, MonadExcept.throw]
  have hcheck : ∀ g : Frame, (∀ i n, p.kwNames[i]? = some n → g (p.kwPos + i) = lastVal kw (.sym n)) →
      checkMissing p g = if missingOf p kw ≠ [] then .error (.missing (missingOf p kw)) else .ok () :=
    fun g => checkMissing_eq p g kw
  by_cases hnk : p.noKeyword = true
  · -- no keyword parameters: the hash becomes the last argument
    have hn : p.kwNames = [] ∧ p.kwRest = false := by
      unfold Params.noKeyword at hnk; simpa using hnk
    have hund : undeclared p kw = kw := by
      unfold undeclared; rw [List.filter_eq_self]
      intro e _; cases h : e.1 <;> simp [declared, hn.1]
    have hover : (kwOver p f fun n _ => lastVal kw (.sym n)) = f := by
      funext j; unfold kwOver; rw [hn.1]; simp
    have hmiss : missingOf p kw = [] := by unfold missingOf; rw [hn.1]; rfl
    rw [hund, hover, if_pos hnk, hn.2]
    simp only [Bool.false_eq_true, if_false]
    by_cases hk0 : kw = []
    · subst hk0
      have ht : trailing p [] = [] := rfl
      simp only [List.isEmpty_nil, Bool.not_true, Bool.and_false, Bool.false_eq_true, if_false, if_true, ne_eq,
        not_true_eq_false, and_false, ht, List.head?_nil]
      rw [positionalInvoker_eq]
      unfold specCall
      rw [if_pos hnk]
      cases bindL p f ((expandStep p args [] none).getD (args ++ none.toList)) with
      | error e => rfl
      | ok g =>
        simp only
        rw [hcheck g (by rw [hn.1]; intro i n h; simp at h), hmiss]
        simp
    · have hke : kw.isEmpty = false := List.isEmpty_eq_false_iff.mpr hk0
      rw [hke]
      simp only [Bool.not_false, Bool.and_true]
      by_cases hf : p.forbidKw = true
      · rw [if_pos hf, if_pos ⟨hf, hk0⟩]
      · rw [if_neg hf, if_neg (show ¬ (p.forbidKw = true ∧ kw ≠ []) from fun h => hf h.1), hn.1]
        have ht : trailing p kw = [.hash kw p.r2k] := by
          unfold trailing; rw [if_neg hk0, insertAll_self kw hkw']
        simp only [Bool.false_eq_true, if_false, List.isEmpty_nil, if_true, ht, List.head?_cons]
        rw [positionalInvoker_eq]
        unfold specCall
        rw [if_pos hnk]
        cases bindL p f ((expandStep p args [] (some (Val.hash kw p.r2k))).getD (args ++ (some (Val.hash kw p.r2k)).toList)) with
        | error e => rfl
        | ok g =>
          simp only
          rw [hcheck g (by rw [hn.1]; intro i n h; simp at h), hmiss]
          simp
  · -- keyword parameters
    have hnk' : p.noKeyword = false := by simpa using hnk
    have hf : p.forbidKw = false := by
      cases hq : p.forbidKw with
      | false => rfl
      | true => exact absurd (hp.forbid hq) hnk
    rw [hf, hnk']
    simp only [Bool.false_and, Bool.false_eq_true, if_false, false_and]
    unfold specCall
    rw [hnk']
    simp only [Bool.false_eq_true, if_false]
    obtain ⟨l, hl⟩ : ∃ l, l = (expandStep p args [] none).getD (args ++ none.toList) := ⟨_, rfl⟩
    have main : ∀ (c : Bool), (c = false → kw = []) →
        outcome p ((bindL p f l).bind fun f => kwBind p f kw c)
          = outcome p ((bindL p f l).bind fun f => kwBind p f kw true) := by
      intro c hc
      cases bindL p f l with
      | error e => rfl
      | ok g =>
        simp only [Except.bind]
        exact outcome_kwBind p g kw c (fun h => by rw [hc h]; rfl)
    rw [← hl, main _ hmay]
    cases hr : p.kwRest with
    | true =>
      simp only [if_true]
      rw [positionalInvoker_eq, ← hl]
      unfold bindL
      by_cases hba : badArity p l.length = true
      · simp only [if_pos hba]; rfl
      · simp only [if_neg hba]
        have hkr : p.total ≤ p.kwRestPos := by unfold Params.kwRestPos; omega
        simp only [Except.bind]
        rw [boundL_set p _ l _ _ hkr, ← bound_comm p f l (fun n => lastVal kw (.sym n))]
        have hslot : ∀ (i : Nat) n, p.kwNames[i]? = some n →
            (Frame.set (kwOver p (boundL p f l) fun n _ => lastVal kw (.sym n)) p.kwRestPos
              (some (if (undeclared p kw).isEmpty = true then Val.nil else .hash (undeclared p kw) false))) (p.kwPos + i)
              = lastVal kw (.sym n) := by
          intro i n hi
          have := getElem?_lt hi
          simp only [Frame.set]
          rw [if_neg (by unfold Params.kwPos Params.kwRestPos; omega)]
          exact kwOver_at p _ _ i n hi
        rw [hcheck _ hslot]
        unfold kwBind
        by_cases hm : missingOf p kw = []
        · simp only [hm, ne_eq, not_true_eq_false, if_false, hr, Bool.not_true, Bool.false_and, Bool.false_eq_true]
          by_cases hu : undeclared p kw = []
          · rw [← outcome_kwFrame p (boundL p f l) kw false (fun _ => hu)]
            congr 2
            unfold kwFrame; rw [if_pos hr, hu]; rfl
          · rw [List.isEmpty_eq_false_iff.mpr hu]
            congr 2
            unfold kwFrame; rw [if_pos hr, undeclared_insertAll, insertAll_self kw hkw']; rfl
        · simp only [ne_eq, hm, not_false_eq_true, if_true]
    | false =>
      have hne : p.kwNames.isEmpty = false := by
        unfold Params.noKeyword at hnk'; rw [hr] at hnk'; simpa using hnk'
      simp only [Bool.false_eq_true, if_false, hne]
      by_cases hu : undeclared p kw = []
      · rw [hu]
        simp only [List.isEmpty_nil, if_true]
        rw [positionalInvoker_eq, ← hl]
        unfold bindL
        split_ifs with hba
        · rfl
        · simp only [Except.bind]
          rw [← bound_comm p f l (fun n => lastVal kw (.sym n)),
            hcheck _ (fun i n hi => kwOver_at p _ _ i n hi)]
          unfold kwBind
          by_cases hm : missingOf p kw = []
          · simp only [hm, ne_eq, not_true_eq_false, if_false, hu, List.isEmpty_nil, Bool.not_true, Bool.and_false,
              Bool.false_eq_true]
            congr 2
            unfold kwFrame; rw [hr]; rfl
          · simp only [ne_eq, hm, not_false_eq_true, if_true]
      · rw [List.isEmpty_eq_false_iff.mpr hu]
        simp only [Bool.false_eq_true, if_false]
        rw [outcome_error]
        cases bindL p f l with
        | error e => rfl
        | ok g =>
          simp only [Except.bind]
          unfold kwBind
          split_ifs with c1 c2
          · rfl
          · rfl
          · exfalso; apply c2; rw [hr, List.isEmpty_eq_false_iff.mpr hu]; rfl

example : outcome demoKw (invoker demoKw [.atom 1] true [(.sym 10, .atom 2), (.other 3, .atom 4)] (fun _ => none)) ≠ none := by
  intro h; cases h

/-- Without the restriction it is false: a block `|a, b|` that the runtime itself calls with one object having
`to_ary` (here object 5, which converts to `[7, 8]`) gets the object, while `yield obj` spreads it. -/
theorem C66_native_to_ary_fails : ∃ g g', invoker { req := 2, blockStyle := true } [.obj 5] true [] (fun _ => none) = .ok g ∧
    setCallee demoWorld { req := 2, blockStyle := true } { args := [.obj 5] } (fun _ => none) = .ok g' ∧
    g 0 = some (.obj 5) ∧ g 1 = some .nil ∧ g' 0 = some (.atom 7) ∧ g' 1 = some (.atom 8) :=
  ⟨_, _, rfl, rfl, rfl, rfl, rfl, rfl⟩

end Verif.Args
