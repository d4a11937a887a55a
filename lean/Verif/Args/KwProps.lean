import Verif.Args.Props

/-! C67: keyword parameters. -/
namespace Verif.Args

theorem kwPos_eq (p : Params) : p.kwPos = p.req + p.opt + p.post + (if p.rest = .none then 0 else 1) := by
  unfold Params.kwPos Params.total Params.max
  have := isRest_iff p
  by_cases hr : p.rest = .none
  · have h0 : p.isRest = false := by rw [← Bool.not_eq_true, this]; simpa using hr
    rw [if_pos hr, h0]; rfl
  · rw [if_neg hr, this.mpr hr]; rfl

theorem kwFrame_low (p : Params) (f : Frame) (all : List (Key × Val)) (b : Bool) (i : Nat) (h : i < p.total) :
    kwFrame p f all b i = f i := by
  have hk : p.kwPos = p.total := rfl
  have hr : p.kwRestPos = p.total + p.kwNames.length := rfl
  have : kwOver p f (fun n _ => lastVal all (.sym n)) i = f i := by
    unfold kwOver; rw [if_neg (by omega)]
  unfold kwFrame
  split_ifs <;> first | exact this | (simp only [Frame.set]; rw [if_neg (by omega)]; exact this)

theorem kwFrame_named (p : Params) (f : Frame) (all : List (Key × Val)) (b : Bool) (i : Nat) (n : Name)
    (h : p.kwNames[i]? = some n) : kwFrame p f all b (p.kwPos + i) = lastVal all (.sym n) := by
  have hk : p.kwPos = p.total := rfl
  have hr : p.kwRestPos = p.total + p.kwNames.length := rfl
  have hi := getElem?_lt h
  have := kwOver_at p f (fun n _ => lastVal all (.sym n)) i n h
  unfold kwFrame
  split_ifs <;> first | exact this | (simp only [Frame.set]; rw [if_neg (by omega)]; exact this)

theorem kwFrame_high (p : Params) (f : Frame) (all : List (Key × Val)) (b : Bool) (i : Nat)
    (h : p.kwRestPos + (if p.kwRest then 1 else 0) ≤ i) : kwFrame p f all b i = f i := by
  have hk : p.kwPos = p.total := rfl
  have hr : p.kwRestPos = p.total + p.kwNames.length := rfl
  have : kwOver p f (fun n _ => lastVal all (.sym n)) i = f i := by
    unfold kwOver
    split_ifs
    · rw [List.getElem?_eq_none]
      split_ifs at h <;> omega
    · rfl
  unfold kwFrame
  cases hc : p.kwRest with
  | true => rw [hc] at h; simp only [if_true] at h ⊢; simp only [Frame.set]; rw [if_neg (by omega)]; exact this
  | false => simp only [Bool.false_eq_true, if_false]; exact this

theorem missing_mem (p : Params) (all : List (Key × Val)) (n : Name) :
    n ∈ missingOf p all ↔ ∃ i : Nat, p.kwNames[i]? = some n ∧ p.kwRequired[i]? = some true ∧ lastVal all (.sym n) = none := by
  unfold missingOf
  simp only [List.mem_map, List.mem_filter, Bool.and_eq_true, Option.isNone_iff_eq_none]
  constructor
  · rintro ⟨⟨m, i⟩, ⟨hm, hr, hl⟩, rfl⟩
    have := List.mem_zipIdx' hm
    refine ⟨i, (List.getElem?_eq_getElem this.1).trans (congrArg some this.2.symm), ?_, hl⟩
    unfold Params.kwIsRequired at hr
    rw [List.getD_eq_getElem?_getD] at hr
    cases hq : p.kwRequired[i]? with
    | none => rw [hq] at hr; cases hr
    | some b => rw [hq] at hr; simp at hr; rw [hr]
  · rintro ⟨i, hi, hr, hl⟩
    refine ⟨(n, i), ⟨?_, ?_, hl⟩, rfl⟩
    · rw [List.mem_zipIdx_iff_getElem?]; exact hi
    · unfold Params.kwIsRequired; rw [List.getD_eq_getElem?_getD, hr]; rfl

theorem undeclared_mem (p : Params) (all : List (Key × Val)) (k : Key) :
    k ∈ (undeclared p all).map (·.1) ↔ (∃ e ∈ all, e.1 = k) ∧ ∀ n ∈ p.kwNames, k ≠ .sym n := by
  have hd : declared p k = false ↔ ∀ n ∈ p.kwNames, k ≠ .sym n := by
    cases k with
    | other i => simp [declared]
    | sym m => simp [declared]; constructor
               · intro h n hn he; cases he; exact h hn
               · intro h hm; exact h m hm rfl
  unfold undeclared
  simp only [List.mem_map, List.mem_filter, Bool.not_eq_true']
  constructor
  · rintro ⟨e, ⟨he, hde⟩, rfl⟩
    exact ⟨⟨e, he, rfl⟩, hd.mp hde⟩
  · rintro ⟨⟨e, he, rfl⟩, h⟩
    exact ⟨e, ⟨he, hd.mpr h⟩, rfl⟩

/-- The shape of a call with plain positional arguments. -/
theorem setCallee_plain (W : World) (p : Params) (cs : CallSite) (lits : List (Name × Val))
    (es : List (List (Key × Val))) (f : Frame) (hp : ParamsOk p) (h : SiteOk W cs lits es)
    (hs : cs.splat = []) (hx : p.singleArgExpand = false) :
    setCallee W p cs f =
      if p.forbidKw = true ∧ allPairs lits es ≠ [] then .error .noKeywords
      else specCall p (cs.args ++ if p.noKeyword then trailing p (allPairs lits es) else [])
        (allPairs lits es) cs.kwMayExist f := by
  have ht : ∀ l : List Val, (l = [] ∨ ∃ v, l = [v]) → l.head?.toList = l := by
    rintro l (rfl | ⟨v, rfl⟩) <;> rfl
  have htr : trailing p (allPairs lits es) = [] ∨ ∃ v, trailing p (allPairs lits es) = [v] := by
    unfold trailing; split_ifs
    · left; rfl
    · right; exact ⟨_, rfl⟩
  have hpos := posOf_plain W p cs (if p.noKeyword then (trailing p (allPairs lits es)).head? else none) hx hs
  rw [setCallee_eq W p cs lits es f hp h (by rw [hpos]; intro l m hh; cases hh), hpos]
  simp only [Except.bind, Option.isSome_none, Bool.or_false, List.append_nil]
  have : (if p.noKeyword = true then (trailing p (allPairs lits es)).head? else none).toList
      = if p.noKeyword = true then trailing p (allPairs lits es) else [] := by
    split_ifs
    · exact ht _ htr
    · rfl
  rw [this]

/-- C67 (partial: the literal keywords come before any `**` operand with the same key).  A call `m(args…, kws…)` of a
method that declares keywords, whose positional count is right:
* raises ArgumentError naming exactly the required keywords that are not passed, if there are any;
* otherwise, without `**rest`, raises ArgumentError naming exactly the keys passed that are not declared, if any;
* otherwise binds the positional parameters as without keywords, every declared keyword to the value written last for
  it (or leaves it for its default), and `**rest` to a hash with the last value of every other key;
* touches no other slot. -/
theorem C67_keywords_partial (W : World) (p : Params) (args : List Val) (items : List KwItem)
    (ps : List (Key × Val)) (f : Frame)
    (hn : p.kwNames.Nodup) (hf : p.forbidKw = false) (hb : p.blockStyle = false)
    (hk : p.kwNames ≠ [] ∨ p.kwRest = true)
    (hw : Written W items ps) (ho : Orderly W items)
    (h1 : p.req + p.post ≤ args.length) (h2 : args.length ≤ p.req + p.opt + p.post ∨ p.rest = .explicit) :
    let absent := fun n => ∃ i : Nat, p.kwNames[i]? = some n ∧ p.kwRequired[i]? = some true ∧ ∀ v, (Key.sym n, v) ∉ ps
    let extra := fun k => (∃ v, (k, v) ∈ ps) ∧ ∀ n ∈ p.kwNames, k ≠ .sym n
    let r := setCallee W p (CallSite.ofSource args [] items) f
    ((∃ n, absent n) → ∃ ns, r = .error (.missing ns) ∧ ∀ n, n ∈ ns ↔ absent n) ∧
    ((¬ ∃ n, absent n) → p.kwRest = false → (∃ k, extra k) →
      ∃ ks, r = .error (.unknown ks) ∧ ∀ k, k ∈ ks ↔ extra k) ∧
    ((¬ ∃ n, absent n) → (p.kwRest = true ∨ ¬ ∃ k, extra k) →
      ∃ g, r = .ok g ∧ Placed p g args ∧
        (∀ (i : Nat) n, p.kwNames[i]? = some n → ∀ v, g (p.kwPos + i) = some v ↔ IsLast ps (.sym n) v) ∧
        (p.kwRest = true → (items = [] → g p.kwRestPos = some .nil) ∧
          (items ≠ [] → ∃ m, g p.kwRestPos = some (.hash m false) ∧ (m.map (·.1)).Nodup ∧
            ∀ k v, (k, v) ∈ m ↔ (∀ n ∈ p.kwNames, k ≠ .sym n) ∧ IsLast ps k v)) ∧
        ∀ i, p.kwRestPos + (if p.kwRest then 1 else 0) ≤ i → g i = f i) := by
  have hnk : p.noKeyword = false := by
    unfold Params.noKeyword
    rcases hk with hk | hk
    · rw [List.isEmpty_eq_false_iff.mpr hk]; rfl
    · rw [hk]; simp
  have hp : ParamsOk p := ⟨hn, by rw [hf]; intro h; cases h⟩
  have hx : p.singleArgExpand = false := by unfold Params.singleArgExpand; rw [hb]; rfl
  obtain ⟨lits, es, hsite, hkeys, hlast⟩ := written_site (args := args) (splat := []) hw
  have hlast := hlast ho
  have hpl := setCallee_plain W p _ lits es f hp hsite rfl hx
  have hargs : (CallSite.ofSource args [] items).args = args := rfl
  rw [hf, if_neg (by rintro ⟨h, _⟩; cases h), hnk, hargs] at hpl
  simp only [Bool.false_eq_true, if_false, List.append_nil] at hpl
  unfold specCall at hpl
  rw [hnk] at hpl
  simp only [Bool.false_eq_true, if_false] at hpl
  obtain ⟨g0, hg0, hpl0, hun0⟩ := (bindL_method p f args hb).2 h1 h2
  rw [hg0] at hpl
  simp only [Except.bind] at hpl
  have hnone : ∀ k, lastVal (allPairs lits es) k = none ↔ ∀ v, (k, v) ∉ ps := by
    intro k; rw [hlast, lastVal_eq_none]
    constructor
    · intro h v hv; exact h _ hv rfl
    · rintro h ⟨k', v⟩ hv he; cases he; exact h v hv
  have habs : ∀ n, n ∈ missingOf p (allPairs lits es) ↔
      ∃ i : Nat, p.kwNames[i]? = some n ∧ p.kwRequired[i]? = some true ∧ ∀ v, (Key.sym n, v) ∉ ps := by
    intro n; rw [missing_mem]; simp only [hnone]
  have hext : ∀ k, k ∈ (undeclared p (allPairs lits es)).map (·.1) ↔
      (∃ v, (k, v) ∈ ps) ∧ ∀ n ∈ p.kwNames, k ≠ .sym n := by
    intro k; rw [undeclared_mem, hkeys]
    have : (∃ e ∈ ps, e.1 = k) ↔ ∃ v, (k, v) ∈ ps := by
      constructor
      · rintro ⟨⟨k', v⟩, he, rfl⟩; exact ⟨v, he⟩
      · rintro ⟨v, hv⟩; exact ⟨_, hv, rfl⟩
    rw [this]
  have hme : missingOf p (allPairs lits es) = [] ↔ ¬ ∃ n, ∃ i : Nat, p.kwNames[i]? = some n ∧ p.kwRequired[i]? = some true ∧ ∀ v, (Key.sym n, v) ∉ ps := by
    constructor
    · intro h ⟨n, hn⟩; have := (habs n).mpr hn; rw [h] at this; cases this
    · intro h; rw [List.eq_nil_iff_forall_not_mem]; intro n hn; exact h ⟨n, (habs n).mp hn⟩
  have hue : undeclared p (allPairs lits es) = [] ↔ ¬ ∃ k, (∃ v, (k, v) ∈ ps) ∧ ∀ n ∈ p.kwNames, k ≠ .sym n := by
    constructor
    · intro h ⟨k, hk⟩; have := (hext k).mpr hk; rw [h] at this; cases this
    · intro h
      have : (undeclared p (allPairs lits es)).map (·.1) = [] := by
        rw [List.eq_nil_iff_forall_not_mem]; intro k hk; exact h ⟨k, (hext k).mp hk⟩
      exact List.map_eq_nil_iff.mp this
  simp only
  refine ⟨?_, ?_, ?_⟩
  · intro ha
    refine ⟨missingOf p (allPairs lits es), ?_, habs⟩
    rw [hpl]; unfold kwBind
    rw [if_pos (fun h => (hme.mp h) ha)]
  · intro ha hkr he
    refine ⟨(undeclared p (allPairs lits es)).map (·.1), ?_, hext⟩
    rw [hpl]; unfold kwBind
    rw [if_neg (not_not_intro (hme.mpr ha)), if_pos]
    rw [hkr]
    simp only [Bool.not_false, Bool.true_and, Bool.not_eq_true', List.isEmpty_eq_false_iff]
    intro h; exact (hue.mp h) he
  · intro ha he
    refine ⟨kwFrame p g0 (allPairs lits es) (CallSite.ofSource args [] items).kwMayExist, ?_, ?_, ?_, ?_, ?_⟩
    · rw [hpl]; unfold kwBind
      rw [if_neg (not_not_intro (hme.mpr ha)), if_neg]
      intro h
      rw [Bool.and_eq_true, Bool.not_eq_true', Bool.not_eq_true', List.isEmpty_eq_false_iff] at h
      rcases he with he | he
      · rw [he] at h; cases h.1
      · exact h.2 (hue.mpr he)
    · exact placed_congr (fun i hi => kwFrame_low p g0 _ _ i hi) hpl0
    · intro i n hi v
      rw [kwFrame_named p g0 _ _ i n hi, hlast, lastVal_iff]
    · intro hkr
      have hslot : kwFrame p g0 (allPairs lits es) (CallSite.ofSource args [] items).kwMayExist p.kwRestPos
          = some (if (CallSite.ofSource args [] items).kwMayExist then
              .hash (mapInsertAll [] (undeclared p (allPairs lits es))) false else .nil) := by
        unfold kwFrame; rw [if_pos hkr]; simp [Frame.set]
      have hmay : (CallSite.ofSource args [] items).kwMayExist = true ↔ items ≠ [] := by
        cases items with
        | nil => simp [CallSite.ofSource, compileKw, CallSite.kwMayExist]
        | cons it items =>
          simp only [ne_eq, reduceCtorEq, not_false_eq_true, iff_true]
          unfold CallSite.kwMayExist
          cases it with
          | lit n v =>
            have : symPairs lits ≠ [] := by
              obtain ⟨l', hl', hs'⟩ := ofSource_lit args [] (.lit n v :: items)
              have e1 : l' = lits := by
                have := hl'.pairs.symm.trans hsite.lit.pairs; cases this; rfl
              rw [← e1, hs', ne_eq, mapInsertAll_nil_iff]
              simp [litItems, symPairs]
            have hkw : (CallSite.ofSource args [] (.lit n v :: items)).kw ≠ [] := by
              intro h
              have := hsite.lit.names
              rw [h] at this
              have : lits = [] := List.map_eq_nil_iff.mp this.symm
              subst this
              contradiction
            rw [List.isEmpty_eq_false_iff.mpr hkw]; rfl
          | splat h =>
            have : (CallSite.ofSource args [] (.splat h :: items)).hs = h :: splatItems items := rfl
            rw [this]; simp
      rw [hslot]
      constructor
      · intro hi
        have : ¬ (CallSite.ofSource args [] items).kwMayExist = true := by rw [hmay]; simpa using hi
        rw [if_neg this]
      · intro hi
        rw [if_pos (hmay.mpr hi)]
        refine ⟨_, rfl, NodupKeys.insertAll _ nodupKeys_nil, ?_⟩
        intro k v
        have hnd : NodupKeys (mapInsertAll [] (undeclared p (allPairs lits es))) :=
          NodupKeys.insertAll _ nodupKeys_nil
        have hmem : (k, v) ∈ mapInsertAll [] (undeclared p (allPairs lits es)) ↔
            lastVal (undeclared p (allPairs lits es)) k = some v := by
          have hm : mapGet (mapInsertAll [] (undeclared p (allPairs lits es))) k
              = lastVal (undeclared p (allPairs lits es)) k := by
            rw [mapGet_insertAll, mapGet_nil, Option.or_none]
          rw [← hm, ← lastVal_of_nodup hnd, lastVal_iff]
          constructor
          · intro h
            obtain ⟨a, b, hab⟩ := List.append_of_mem h
            refine ⟨a, b, hab, ?_⟩
            intro e hb he
            unfold NodupKeys at hnd
            rw [hab, List.map_append, List.map_cons, List.nodup_append, List.nodup_cons] at hnd
            apply hnd.2.1.1
            exact List.mem_map.mpr ⟨e, hb, he⟩
          · rintro ⟨a, b, hab, _⟩; rw [hab]; simp
        rw [hmem]
        have : lastVal (undeclared p (allPairs lits es)) k = if (!declared p k) = true then lastVal (allPairs lits es) k else none :=
          lastVal_filter (fun k => !declared p k) (allPairs lits es) k
        rw [this, hlast]
        have hd : (!declared p k) = true ↔ ∀ n ∈ p.kwNames, k ≠ .sym n := by
          cases k with
          | other i => simp [declared]
          | sym m =>
            simp [declared]
            constructor
            · intro h n hn he; cases he; exact h hn
            · intro h hm; exact h m hm rfl
        rw [← lastVal_iff, ← hd]
        cases (!declared p k) <;> simp
    · intro i hi
      rw [kwFrame_high p g0 _ _ i hi]
      apply hun0
      have : p.kwRestPos = p.total + p.kwNames.length := rfl
      split_ifs at hi <;> omega

/-- `def m(a, x:, y: …, **r)`. -/
def demoKw : Params := { req := 1, kwNames := [10, 11], kwRequired := [true, false], kwRest := true }

def noConv : World := ⟨fun _ => .missing, fun _ => .missing⟩

example : ∃ g, setCallee noConv demoKw
      (CallSite.ofSource [.atom 1] [] [.lit 10 (.atom 2), .lit 20 (.atom 3),
        .splat (.hash [(.sym 10, .atom 4), (.other 7, .atom 5), (.sym 20, .atom 6)] false)]) (fun _ => some (.atom 99)) = .ok g ∧
    (List.range 5).map g = [some (.atom 1), some (.atom 4), none,
      some (.hash [(.sym 20, .atom 6), (.other 7, .atom 5)] false), some (.atom 99)] := ⟨_, rfl, rfl⟩

example : setCallee noConv { demoKw with kwRest := false }
      (CallSite.ofSource [.atom 1] [] [.lit 20 (.atom 3)]) (fun _ => none) = .error (.missing [10]) := rfl

example : setCallee noConv { demoKw with kwRest := false }
      (CallSite.ofSource [.atom 1] [] [.lit 20 (.atom 3), .lit 10 (.atom 3)]) (fun _ => none) = .error (.unknown [.sym 20]) := rfl

/-- The full claim is false: in `m(**{x: w}, x: v)` the literal comes last, so `x` should be `v`; it is bound to `w`,
for all values, because the literals are taken before the operands whatever their order in the source. -/
theorem C67_literal_after_splat_fails (W : World) (n : Name) (v w : Val) (fl : Bool) (f : Frame) :
    ∃ g, setCallee W { kwNames := [n], kwRequired := [true] }
        (CallSite.ofSource [] [] [.splat (.hash [(.sym n, w)] fl), .lit n v]) f = .ok g ∧ g 0 = some w := by
  have hw : Written W [.splat (.hash [(.sym n, w)] fl), .lit n v] ([(.sym n, w)] ++ [(.sym n, v)]) :=
    .splat _ _ _ _ (.hash _ _) (by simp) (.lit _ _ _ _ .nil)
  have hlit : LitOk (CallSite.ofSource [] [] [.splat (.hash [(.sym n, w)] fl), .lit n v]) [(n, v)] :=
    ⟨rfl, by simp [CallSite.ofSource, compileKw, kwInsert]⟩
  have hs : SiteOk W (CallSite.ofSource [] [] [.splat (.hash [(.sym n, w)] fl), .lit n v]) [(n, v)] [[(.sym n, w)]] :=
    ⟨hlit, ⟨[.hash [(.sym n, w)] fl], rfl, rfl⟩, by simp [NodupKeys]⟩
  have := setCallee_plain W { kwNames := [n], kwRequired := [true] } _ _ _ f
    ⟨by simp, by intro h; cases h⟩ hs rfl rfl
  have hl : lastVal (allPairs [(n, v)] [[(.sym n, w)]]) (.sym n) = some w := by
    simp [allPairs, symPairs, lastVal, mapGet]
  refine ⟨kwFrame { kwNames := [n], kwRequired := [true] } (boundL { kwNames := [n], kwRequired := [true] } f [])
    (allPairs [(n, v)] [[(.sym n, w)]]) true, this.trans ?_, ?_⟩
  · rw [if_neg (by rintro ⟨h, _⟩; cases h)]
    unfold specCall
    simp only [Params.noKeyword, List.isEmpty_cons, Bool.false_and, Bool.false_eq_true, if_false]
    have hb : bindL { kwNames := [n], kwRequired := [true] } f
        ((CallSite.ofSource [] [] [.splat (.hash [(.sym n, w)] fl), .lit n v]).args ++ [])
        = .ok (boundL { kwNames := [n], kwRequired := [true] } f []) := rfl
    rw [hb]
    simp only [Except.bind]
    unfold kwBind
    rw [if_neg, if_neg]
    · rfl
    · simp [undeclared, allPairs, symPairs, declared]
    · unfold missingOf
      simp [hl]
  · have := kwFrame_named { kwNames := [n], kwRequired := [true] } (boundL { kwNames := [n], kwRequired := [true] } f []) (allPairs [(n, v)] [[(.sym n, w)]]) true 0 n rfl
    rw [hl] at this
    exact this

/-- `**rest` lists the literal keywords first, whatever the order in the call: `m(**{x: 1}, y: 2)` gives
`{y: 2, x: 1}`. -/
theorem C67_rest_order_fails : ∃ g, setCallee noConv { kwRest := true }
      (CallSite.ofSource [] [] [.splat (.hash [(.sym 10, .atom 1)] false), .lit 11 (.atom 2)]) (fun _ => none) = .ok g ∧
    g 0 = some (.hash [(.sym 11, .atom 2), (.sym 10, .atom 1)] false) := ⟨_, rfl, rfl⟩

/-- C67: a method with neither keyword parameters nor `**nil` takes the keywords as one trailing hash, holding the last
value of every key; when the keywords come to nothing (`**{}`) no argument is added. -/
theorem C67_trailing_hash_partial (W : World) (p : Params) (args : List Val) (items : List KwItem)
    (ps : List (Key × Val)) (f : Frame)
    (hk : p.kwNames = []) (hk2 : p.kwRest = false) (hf : p.forbidKw = false) (hb : p.blockStyle = false)
    (hw : Written W items ps) (ho : Orderly W items) :
    (ps = [] → setCallee W p (CallSite.ofSource args [] items) f = setCallee W p { args := args } f) ∧
    (ps ≠ [] → ∃ m, (m.map (·.1)).Nodup ∧ (∀ k v, (k, v) ∈ m ↔ IsLast ps k v) ∧
      setCallee W p (CallSite.ofSource args [] items) f
        = setCallee W p { args := args ++ [.hash m p.r2k] } f) := by
  have hnk : p.noKeyword = true := by unfold Params.noKeyword; rw [hk, hk2]; rfl
  have hx : p.singleArgExpand = false := by unfold Params.singleArgExpand; rw [hb]; rfl
  obtain ⟨lits, es, hsite, hkeys, hlast⟩ := written_site (args := args) (splat := []) hw
  have hlast := hlast ho
  have hpl := setCallee_plain W p _ lits es f (noKeyword_ok hnk) hsite rfl hx
  have hpl' := fun l => setCallee_plain W p { args := l } [] [] f (noKeyword_ok hnk) (plainSite W l []) rfl hx
  have hargs : (CallSite.ofSource args [] items).args = args := rfl
  rw [hf, if_neg (by rintro ⟨h, _⟩; cases h), hargs] at hpl
  have hempty : allPairs lits es = [] ↔ ps = [] := by
    rw [List.eq_nil_iff_forall_not_mem, List.eq_nil_iff_forall_not_mem]
    constructor
    · intro h e he
      obtain ⟨e', he', _⟩ := (hkeys e.1).mpr ⟨e, he, rfl⟩
      exact h e' he'
    · intro h e he
      obtain ⟨e', he', _⟩ := (hkeys e.1).mp ⟨e, he, rfl⟩
      exact h e' he'
  have htriv : trailing p (allPairs [] []) = [] := rfl
  unfold specCall at hpl hpl'
  simp only [hf, hnk, if_true, htriv, List.append_nil, Bool.false_eq_true, false_and, if_false] at hpl hpl'
  constructor
  · intro h
    rw [hpl, hpl' args]
    unfold trailing; rw [if_pos (hempty.mpr h), List.append_nil]
  · intro h
    have hnd : NodupKeys (mapInsertAll [] (allPairs lits es)) := NodupKeys.insertAll _ nodupKeys_nil
    refine ⟨mapInsertAll [] (allPairs lits es), hnd, ?_, ?_⟩
    · intro k v
      have hm : mapGet (mapInsertAll [] (allPairs lits es)) k = lastVal ps k := by
        rw [mapGet_insertAll, mapGet_nil, Option.or_none, hlast]
      rw [← lastVal_iff, ← hm, ← lastVal_of_nodup hnd, lastVal_iff]
      constructor
      · intro h
        obtain ⟨a, b, hab⟩ := List.append_of_mem h
        refine ⟨a, b, hab, ?_⟩
        intro e hb he
        unfold NodupKeys at hnd
        rw [hab, List.map_append, List.map_cons, List.nodup_append, List.nodup_cons] at hnd
        apply hnd.2.1.1
        exact List.mem_map.mpr ⟨e, hb, he⟩
      · rintro ⟨a, b, hab, _⟩; rw [hab]; simp
    · rw [hpl, hpl' _]
      unfold trailing; rw [if_neg (fun hh => h (hempty.mp hh))]

/-- C67: `**nil` rejects a call that passes any keyword, and accepts one that passes none (`**{}`). -/
theorem C67_nil_rejects (W : World) (p : Params) (args : List Val) (items : List KwItem)
    (ps : List (Key × Val)) (f : Frame)
    (hk : p.kwNames = []) (hk2 : p.kwRest = false) (hf : p.forbidKw = true) (hb : p.blockStyle = false)
    (hw : Written W items ps) :
    (ps ≠ [] → setCallee W p (CallSite.ofSource args [] items) f = .error .noKeywords) ∧
    (ps = [] → setCallee W p (CallSite.ofSource args [] items) f = setCallee W p { args := args } f) := by
  have hnk : p.noKeyword = true := by unfold Params.noKeyword; rw [hk, hk2]; rfl
  have hx : p.singleArgExpand = false := by unfold Params.singleArgExpand; rw [hb]; rfl
  obtain ⟨lits, es, hsite, hkeys, _⟩ := written_site (args := args) (splat := []) hw
  have hpl := setCallee_plain W p _ lits es f (noKeyword_ok hnk) hsite rfl hx
  have hpl' := fun l => setCallee_plain W p { args := l } [] [] f (noKeyword_ok hnk) (plainSite W l []) rfl hx
  have hempty : allPairs lits es = [] ↔ ps = [] := by
    rw [List.eq_nil_iff_forall_not_mem, List.eq_nil_iff_forall_not_mem]
    constructor
    · intro h e he
      obtain ⟨e', he', _⟩ := (hkeys e.1).mpr ⟨e, he, rfl⟩
      exact h e' he'
    · intro h e he
      obtain ⟨e', he', _⟩ := (hkeys e.1).mp ⟨e, he, rfl⟩
      exact h e' he'
  constructor
  · intro h
    rw [hpl, if_pos ⟨hf, fun hh => h (hempty.mp hh)⟩]
  · intro h
    have e1 : trailing p (allPairs lits es) = [] := by unfold trailing; rw [if_pos (hempty.mpr h)]
    have e2 : trailing p (allPairs [] []) = [] := rfl
    have e3 : allPairs [] [] = [] := rfl
    have e4 : (CallSite.ofSource args [] items).args = args := rfl
    rw [hpl, hpl' args, e1, e2, e3, hempty.mpr h, e4]
    unfold specCall
    simp [hnk]

/-- A `ruby2_keywords` hash slips past `**nil`: `def g(*a, **nil)` called as `g(*args)` where `args` ends in a flagged
hash `{x: 1}` is accepted, and gets the hash as a positional argument (Ruby raises ArgumentError, no keywords
accepted). -/
theorem C67_nil_rejects_promoted_fails : ∃ g, setCallee noConv { rest := .explicit, forbidKw := true }
      { args := [.arr [.atom 1, .hash [(.sym 10, .atom 2)] true]], splat := [0] } (fun _ => none) = .ok g ∧
    g 0 = some (.arr [.atom 1, .hash [(.sym 10, .atom 2)] false]) := ⟨_, rfl, rfl⟩

theorem mapM_first_error {α β ε : Type} {g : α → Except ε β} {pre post : List α} {x : α} {e : ε}
    (hpre : ∀ a ∈ pre, ∃ b, g a = .ok b) (hx : g x = .error e) : (pre ++ x :: post).mapM g = .error e := by
  induction pre with
  | nil => simp [List.mapM_cons, hx, bind, Except.bind]
  | cons a t ih =>
    obtain ⟨b, hb⟩ := hpre a (by simp)
    rw [List.cons_append, List.mapM_cons, hb]
    simp only [bind, Except.bind]
    rw [ih (fun c hc => hpre c (by simp [hc]))]

open Classical in
/-- C67: the first `**` operand that is neither nil, nor a hash, nor an object whose `to_hash` answers a hash makes the
call raise, whatever the method's parameters: the exception of `to_hash` itself if it raises, else a TypeError. -/
theorem C67_operand_raises (W : World) (p : Params) (cs : CallSite) (f : Frame) (pre post : List Val) (h : Val)
    (hs : cs.hs = pre ++ h :: post) (hpre : ∀ v ∈ pre, ∃ m, Entries W v m) (hno : ¬ ∃ m, Entries W h m) :
    setCallee W p cs f = .error (if ∃ n, h = .obj n ∧ W.toHash n = .raises then .raised else .typeErr) := by
  have hh : headFast p cs = false := by simp [headFast, CallSite.kwMayExist, hs]
  have hx : coerceHashSplat W h = .error (if ∃ n, h = .obj n ∧ W.toHash n = .raises then .raised else .typeErr) := by
    cases h with
    | nil => exact absurd ⟨_, .nil⟩ hno
    | hash m fl => exact absurd ⟨_, .hash m fl⟩ hno
    | atom a => simp [coerceHashSplat]
    | arr l => simp [coerceHashSplat]
    | obj n =>
      cases hc : W.toHash n with
      | missing => simp [coerceHashSplat, hc]
      | raises => simp [coerceHashSplat, hc]
      | gives v =>
        cases v with
        | hash m fl => exact absurd ⟨_, .conv n m fl hc⟩ hno
        | nil => simp [coerceHashSplat, hc]
        | atom a => simp [coerceHashSplat, hc]
        | arr l => simp [coerceHashSplat, hc]
        | obj k => simp [coerceHashSplat, hc]
  have : coerceSite W cs = .error (if ∃ n, h = .obj n ∧ W.toHash n = .raises then .raised else .typeErr) := by
    unfold coerceSite
    rw [hs, mapM_first_error (fun v hv => by
      obtain ⟨m, hm⟩ := hpre v hv
      obtain ⟨b, hb, _⟩ := entries_model hm
      exact ⟨b, hb⟩) hx]
    rfl
  unfold setCallee genericTail
  rw [hh, this]
  rfl

/-- `f(**{}, **o)` where `o.to_hash` answers an array. -/
example (p : Params) (f : Frame) : ∃ e, setCallee ⟨fun _ => .missing, fun _ => .gives (.arr [])⟩ p
    { hs := [.hash [] false, .obj 0] } f = .error e :=
  ⟨_, C67_operand_raises _ p _ f [.hash [] false] [] (.obj 0) rfl
    (by intro v hv; simp only [List.mem_singleton] at hv; subst hv; exact ⟨_, .hash [] false⟩)
    (by rintro ⟨m, h⟩; cases h with | conv _ _ _ hc => simp at hc)⟩

end Verif.Args
