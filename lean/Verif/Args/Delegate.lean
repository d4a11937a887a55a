import Verif.Args.JitProps

/-! C69 and C70: delegation with `ruby2_keywords` and with `...`. -/
namespace Verif.Args

theorem expandArgs_last (cs : CallSite) (lead L : List Val) (ha : cs.args = lead ++ [.arr L])
    (hs : cs.splat = [lead.length]) : expandArgs cs = lead ++ L := by
  unfold expandArgs
  rw [ha, hs, List.zipIdx_append, List.map_append, List.flatten_append]
  have h1 : (List.map (fun e : Val × Nat => expandArg [lead.length] e.2 e.1) lead.zipIdx) = lead.map fun v => [v] := by
    apply List.ext_getElem?
    intro i
    rw [List.getElem?_map, List.getElem?_zipIdx, List.getElem?_map]
    cases hi : lead[i]? with
    | none => rfl
    | some v =>
      have hlt := (List.getElem?_eq_some_iff.mp hi).1
      simp only [Option.map_some, Nat.zero_add]
      unfold expandArg
      rw [if_neg (by simp; omega)]
  rw [h1]
  have h2 : ∀ l : List Val, (l.map fun v => [v]).flatten = l := by
    intro l; induction l with
    | nil => rfl
    | cons a l ih => simp [ih]
  rw [h2]
  simp [List.zipIdx, expandArg]

theorem single_method {p : Params} (h : p.blockStyle = false) : p.singleArgExpand = false := by
  unfold Params.singleArgExpand; rw [h]; rfl

/-- The positional arguments of a call of a method with a splat. -/
theorem posOf_splats (W : World) (p : Params) (cs : CallSite) (ex : Option Val) (h : p.singleArgExpand = false)
    (hs : cs.splat ≠ []) :
    posOf W p cs ex = .ok (if cs.kwMayExist then (expandArgs cs ++ ex.toList, none)
      else r2kSplit p (expandArgs cs ++ ex.toList)) := by
  unfold posOf toAryStep expandStep
  rw [h]
  have : cs.splat.isEmpty = false := by simpa using hs
  rw [this]
  cases cs.kwMayExist <;> simp [bind, Except.bind, pure, Except.pure]

/-- A call with positional arguments `pos` and keyword pairs `all`. -/
def specDirect (p : Params) (pos : List Val) (all : List (Key × Val)) (f : Frame) : Except Err Frame :=
  if p.forbidKw = true ∧ all ≠ [] then .error .noKeywords
  else specCall p (pos ++ if p.noKeyword then trailing p all else []) all true f

theorem trailing_head (p : Params) (all : List (Key × Val)) : (trailing p all).head?.toList = trailing p all := by
  unfold trailing; split_ifs <;> rfl

theorem trailing_congr (p : Params) {a b : List (Key × Val)} (h : mapInsertAll [] a = mapInsertAll [] b) :
    trailing p a = trailing p b := by
  unfold trailing
  have : a = [] ↔ b = [] := by rw [← mapInsertAll_nil_iff, h, mapInsertAll_nil_iff]
  by_cases c : a = []
  · rw [if_pos c, if_pos (this.mp c)]
  · rw [if_neg c, if_neg (fun x => c (this.mpr x)), h]

theorem specDirect_congr (p : Params) (pos : List Val) {a b : List (Key × Val)} (f : Frame)
    (h : mapInsertAll [] a = mapInsertAll [] b) :
    outcome p (specDirect p pos a f) = outcome p (specDirect p pos b f) := by
  unfold specDirect
  have : a = [] ↔ b = [] := by rw [← mapInsertAll_nil_iff, h, mapInsertAll_nil_iff]
  rw [trailing_congr p h]
  by_cases c : p.forbidKw = true ∧ a ≠ []
  · rw [if_pos c, if_pos ⟨c.1, fun x => c.2 (this.mpr x)⟩]
  · have c' : ¬ (p.forbidKw = true ∧ b ≠ []) := fun x => c ⟨x.1, fun y => x.2 (this.mp y)⟩
    rw [if_neg c, if_neg c']
    exact outcome_specCall p _ a b true true f (by simp) (by simp) h

/-- A call of a method whose splats, if any, bring no keywords. -/
theorem direct_eq (W : World) (p : Params) (cs : CallSite) (lits : List (Name × Val)) (es : List (List (Key × Val)))
    (f : Frame) (hp : ParamsOk p) (h : SiteOk W cs lits es) (hb : p.blockStyle = false)
    (hkm : cs.kwMayExist = false → allPairs lits es = [])
    (hr : cs.kwMayExist = false → cs.splat ≠ [] → ∀ m, (expandArgs cs).getLast? ≠ some (.hash m true)) :
    setCallee W p cs f = if p.forbidKw = true ∧ allPairs lits es ≠ [] then .error .noKeywords
      else specCall p (expandArgs cs ++ if p.noKeyword then trailing p (allPairs lits es) else []) (allPairs lits es)
        cs.kwMayExist f := by
  have hx := single_method hb
  have hpos : posOf W p cs (if p.noKeyword then (trailing p (allPairs lits es)).head? else none)
      = .ok (expandArgs cs ++ (if p.noKeyword then trailing p (allPairs lits es) else []), none) := by
    have e1 : (if p.noKeyword then (trailing p (allPairs lits es)).head? else none).toList
        = if p.noKeyword then trailing p (allPairs lits es) else [] := by
      split_ifs
      · exact trailing_head p _
      · rfl
    by_cases hs : cs.splat = []
    · rw [posOf_plain W p cs _ hx hs, e1]
      unfold expandArgs
      rw [expandArgs_nil cs.args cs.splat hs]
    · rw [posOf_splats W p cs _ hx hs, e1]
      cases hk : cs.kwMayExist with
      | true => rfl
      | false =>
        simp only [Bool.false_eq_true, if_false]
        have hnil := hkm hk
        have : (if p.noKeyword then trailing p (allPairs lits es) else []) = [] := by
          rw [hnil]; split_ifs <;> rfl
        rw [this, List.append_nil, r2kSplit_plain p _ (hr hk hs)]
  rw [setCallee_eq W p cs lits es f hp h (by rw [hpos]; intro l m hh; cases hh), hpos]
  simp only [Except.bind, List.append_nil, Option.isSome_none, Bool.or_false]

theorem direct_outcome (W : World) (p : Params) (cs : CallSite) (lits : List (Name × Val)) (es : List (List (Key × Val)))
    (f : Frame) (hp : ParamsOk p) (h : SiteOk W cs lits es) (hb : p.blockStyle = false)
    (hkm : cs.kwMayExist = false → allPairs lits es = [])
    (hr : cs.kwMayExist = false → cs.splat ≠ [] → ∀ m, (expandArgs cs).getLast? ≠ some (.hash m true)) :
    outcome p (setCallee W p cs f) = outcome p (specDirect p (expandArgs cs) (allPairs lits es) f) := by
  rw [direct_eq W p cs lits es f hp h hb hkm hr]
  unfold specDirect
  by_cases c : p.forbidKw = true ∧ allPairs lits es ≠ []
  · rw [if_pos c, if_pos c]
  · rw [if_neg c, if_neg c]
    exact outcome_specCall p _ _ _ _ _ f hkm (by simp) rfl

/-! ### `...` -/

/-- A frame of `def f(...)` that stands for positional arguments `L` and keyword pairs `all`. -/
structure Rep (fw : Forwarded) (L : List Val) (all : List (Key × Val)) : Prop where
  op : fw.op = .val (.arr L) ∨ fw.op = .marker L
  kw : (fw.kw = .nil ∧ all = []) ∨ fw.kw = .hash (mapInsertAll [] all) false

theorem Rep.mat {fw : Forwarded} {L : List Val} {all : List (Key × Val)} (h : Rep fw L all) :
    fw.op.materialize = .arr L ∧ fw.op.elems = L := by
  rcases h.op with h | h <;> rw [h] <;> exact ⟨rfl, rfl⟩

theorem Rep.site (W : World) {fw : Forwarded} {L : List Val} {all : List (Key × Val)} (h : Rep fw L all) (lead : List Val) :
    SiteOk W (forwardSite lead fw) [] [mapInsertAll [] all] := by
  refine ⟨⟨rfl, List.nodup_nil⟩, ?_, by simpa using NodupKeys.insertAll all nodupKeys_nil⟩
  rcases h.kw with ⟨h1, h2⟩ | h1
  · refine ⟨[.nil], ?_, ?_⟩
    · unfold forwardSite; rw [h1]; rfl
    · rw [h2]; rfl
  · refine ⟨[.hash (mapInsertAll [] all) false], ?_, rfl⟩
    unfold forwardSite; rw [h1]; rfl

theorem kwEmpty_rep {fw : Forwarded} {L : List Val} {all : List (Key × Val)} (h : Rep fw L all) (lead : List Val) :
    kwEmpty (forwardSite lead fw) = true → all = [] := by
  intro hk
  rcases h.kw with ⟨_, h2⟩ | h1
  · exact h2
  · unfold kwEmpty forwardSite at hk
    rw [h1] at hk
    simp at hk
    exact (mapInsertAll_nil_iff all).mp hk

theorem withOperand_rep (lead : List Val) (fw : Forwarded) :
    (forwardSite lead fw).withOperand lead.length fw.op = forwardSite lead fw := by
  unfold CallSite.withOperand forwardSite
  simp

/-- The two ways a forwarding call is set up. -/
theorem forwardCall_cases (W : World) (p : Params) (lead : List Val) (fw : Forwarded) (f : Frame) {L : List Val}
    {all : List (Key × Val)} (h : Rep fw L all) :
    (all = [] ∧ p.kwNames = [] ∧ forwardCall W p lead fw f
        = (bindL p f (lead ++ L)).bind fun f => .ok (storeEmptyKwRest p f)) ∨
    forwardCall W p lead fw f = setCallee W p (forwardSite lead fw) f := by
  unfold forwardCall setFrame
  have e1 : (forwardSite lead fw).forwarding = true := rfl
  have e2 : (forwardSite lead fw).splat = [lead.length] := rfl
  simp only [e1, e2]
  by_cases hc : (decide (lead.length < (forwardSite lead fw).args.length) && forwardOk p (forwardSite lead fw)) = true
  · rw [if_pos hc]
    unfold forwardedCore
    by_cases hc2 : (kwEmpty (forwardSite lead fw) && forwardOk p (forwardSite lead fw) && !p.singleArgExpand) = true
    · left
      rw [if_pos hc2]
      simp only [Bool.and_eq_true] at hc2
      refine ⟨kwEmpty_rep h lead hc2.1.1, ?_, ?_⟩
      · have := hc2.1.2
        unfold forwardOk Params.noKeyword at this
        simp only [Bool.or_eq_true, Bool.and_eq_true, List.isEmpty_iff] at this
        rcases this with t | t
        · exact t.1
        · exact t.1
      · have hbuf : (forwardSite lead fw).args.take lead.length ++ fw.op.elems ++ (forwardSite lead fw).args.drop (lead.length + 1)
            = lead ++ L := by
          unfold forwardSite
          rw [h.mat.2]
          simp
        simp only [hbuf, fillSlice_eq]
        rfl
    · right
      rw [if_neg hc2, withOperand_rep]
  · right
    rw [if_neg hc, withOperand_rep]

theorem forward_outcome (W : World) (p : Params) (lead : List Val) (fw : Forwarded) (f : Frame) {L : List Val}
    {all : List (Key × Val)} (h : Rep fw L all) (hp : ParamsOk p) (hb : p.blockStyle = false) :
    outcome p (forwardCall W p lead fw f) = outcome p (specDirect p (lead ++ L) all f) := by
  rcases forwardCall_cases W p lead fw f h with ⟨h1, h2, h3⟩ | h3
  · rw [h3, h1]
    unfold specDirect
    have ht : (if p.noKeyword then trailing p [] else []) = [] := by split_ifs <;> rfl
    rw [if_neg (by simp), ht, List.append_nil]
    unfold specCall
    cases bindL p f (lead ++ L) with
    | error e => simp only [Except.bind]; split_ifs <;> rfl
    | ok g =>
      simp only [Except.bind]
      rw [storeEmptyKwRest_frame p g h2]
      by_cases hk : p.noKeyword = true
      · rw [if_pos hk]
        unfold Params.noKeyword at hk
        simp only [Bool.and_eq_true, Bool.not_eq_true', List.isEmpty_iff] at hk
        congr 2
        unfold kwFrame kwOver
        rw [hk.1, hk.2]
        simp
      · rw [if_neg hk, outcome_kwFrame p g [] false (by simp [undeclared])]
        unfold kwBind missingOf undeclared
        rw [h2]
        simp
  · rw [h3, direct_outcome W p _ _ _ f hp (h.site W lead) hb (by intro hk; cases hk) (by intro hk; cases hk)]
    have he : expandArgs (forwardSite lead fw) = lead ++ L :=
      expandArgs_last _ lead L (by unfold forwardSite; rw [h.mat.1]) rfl
    rw [he]
    apply specDirect_congr
    simp only [allPairs, symPairs, List.map_nil, List.nil_append, List.flatten_cons, List.flatten_nil, List.append_nil]
    exact insertAll_self _ (NodupKeys.insertAll all nodupKeys_nil)

theorem tramp_ok : ParamsOk trampoline := ⟨List.nodup_nil, by intro h; cases h⟩

theorem getD_self (L : List Val) : (List.range L.length).map (fun i => L.getD i .nil) = L := by
  apply List.ext_getElem?
  intro i
  rw [List.getElem?_map]
  by_cases hi : i < L.length
  · rw [List.getElem?_range hi, List.getElem?_eq_getElem hi]
    simp [List.getD_eq_getElem?_getD, List.getElem?_eq_getElem hi]
  · rw [List.getElem?_eq_none (l := L) (by omega), List.getElem?_eq_none (by simp; omega)]; rfl

theorem tramp_bind (L : List Val) (f : Frame) : ∃ g, bindL trampoline f L = .ok g ∧ g 0 = some (.arr L) := by
  refine ⟨boundL trampoline f L, ?_, ?_⟩
  · unfold bindL
    have : badArity trampoline L.length = false := by
      unfold badArity
      have e : trampoline.min = 0 := rfl
      have e' : trampoline.isExplicitRest = true := rfl
      rw [e, e']; simp
    rw [this]; rfl
  · unfold boundL bound
    have e : effN trampoline L.length = L.length := rfl
    rw [e]
    have : slotAt trampoline (fun i => L.getD i .nil) L.length 0
        = some (.arr ((List.range (L.length - 0 - min (L.length - 0) 0)).map fun j => L.getD (0 + min (L.length - 0) 0 + j) .nil)) := rfl
    rw [if_pos (by decide), this]
    simp only [Nat.sub_zero, Nat.min_zero, Nat.zero_add]
    rw [getD_self]

/-- What `def f(...)` is entered with. -/
theorem tramp_spec (L : List Val) (all : List (Key × Val)) (b : Bool) (f : Frame) (hb : b = false → all = []) :
    ∃ g fw, specCall trampoline L all b f = .ok g ∧ readForwarded g = .ok fw ∧ Rep fw L all := by
  obtain ⟨g, h1, h2⟩ := tramp_bind L f
  have hu : undeclared trampoline all = all := by
    unfold undeclared
    rw [List.filter_eq_self]
    intro e _
    cases e.1 <;> rfl
  refine ⟨kwFrame trampoline g all b, { op := .val (.arr L), kw := if b then .hash (mapInsertAll [] all) false else .nil },
    ?_, ?_, ⟨Or.inl rfl, ?_⟩⟩
  · unfold specCall
    rw [if_neg (by decide), h1]
    rfl
  · unfold readForwarded
    have e0 : kwFrame trampoline g all b 0 = some (.arr L) := h2
    have e1 : kwFrame trampoline g all b 1 = some (if b then .hash (mapInsertAll [] all) false else .nil) := by
      have := kwFrame_rest_slot trampoline g all b rfl
      rw [hu] at this
      exact this
    rw [e0, e1]
  · cases b with
    | true => right; rfl
    | false => left; exact ⟨rfl, hb rfl⟩

theorem SiteOk.moved {W : World} {cs cs' : CallSite} {lits : List (Name × Val)} {es : List (List (Key × Val))}
    (h : SiteOk W cs lits es) (h1 : cs'.kw = cs.kw) (h2 : cs'.kwVals = cs.kwVals) (h3 : cs'.hs = cs.hs) :
    SiteOk W cs' lits es := by
  obtain ⟨⟨a, b⟩, c, d⟩ := h
  refine ⟨⟨?_, by rw [h1]; exact b⟩, by rw [h3]; exact c, d⟩
  unfold CallSite.kwPairs at a ⊢
  rw [h1, h2]; exact a

theorem SiteOk.none {W : World} {cs : CallSite} {lits : List (Name × Val)} {es : List (List (Key × Val))}
    (h : SiteOk W cs lits es) (hk : cs.kwMayExist = false) : allPairs lits es = [] := by
  unfold CallSite.kwMayExist at hk
  simp only [Bool.or_eq_false_iff, Bool.not_eq_false', List.isEmpty_iff] at hk
  obtain ⟨⟨a, _⟩, ⟨hs, c, d⟩, _⟩ := h
  unfold CallSite.kwPairs at a
  rw [hk.1] at a
  rw [hk.2] at c
  cases a
  cases c
  cases d
  rfl

/-- Leading arguments before a site with splats. -/
theorem expandArgs_lead (pre args : List Val) (splat : List Nat) (cs cs' : CallSite) (h1 : cs.args = args)
    (h2 : cs.splat = splat) (h3 : cs'.args = pre ++ args) (h4 : cs'.splat = splat.map (· + pre.length)) :
    expandArgs cs' = pre ++ expandArgs cs := by
  unfold expandArgs
  rw [h1, h2, h3, h4, List.zipIdx_append, List.map_append, List.flatten_append]
  congr 1
  · have e1 : (List.map (fun e : Val × Nat => expandArg (splat.map (· + pre.length)) e.2 e.1) pre.zipIdx)
        = pre.map fun v => [v] := by
      apply List.ext_getElem?
      intro i
      rw [List.getElem?_map, List.getElem?_zipIdx, List.getElem?_map]
      cases hi : pre[i]? with
      | none => rfl
      | some v =>
        have hlt := (List.getElem?_eq_some_iff.mp hi).1
        simp only [Option.map_some, Nat.zero_add]
        unfold expandArg
        rw [if_neg (by simp; intro x _; omega)]
    rw [e1]
    generalize pre = l
    induction l with
    | nil => rfl
    | cons a l ih => simpa using ih
  · congr 1
    apply List.ext_getElem?
    intro i
    rw [List.getElem?_map, List.getElem?_zipIdx, List.getElem?_map, List.getElem?_zipIdx]
    cases hi : args[i]? with
    | none => rfl
    | some v =>
      simp only [Option.map_some, Nat.zero_add]
      unfold expandArg
      have : ((splat.map (· + pre.length)).contains (pre.length + i)) = splat.contains i := by
        rw [Bool.eq_iff_iff, List.contains_iff_mem, List.contains_iff_mem, List.mem_map]
        constructor
        · rintro ⟨a, ha, he⟩
          have : a = i := by omega
          rw [← this]; exact ha
        · intro hm; exact ⟨i, hm, by omega⟩
      rw [this]

/-- The value is not a hash in flight as keywords, and has none among its elements. -/
def Plain (v : Val) : Prop := (∀ m, v ≠ .hash m true) ∧ ∀ l, v = .arr l → ∀ m, Val.hash m true ∉ l

theorem plain_expand (cs : CallSite) (h : ∀ v ∈ cs.args, Plain v) : ∀ m, (expandArgs cs).getLast? ≠ some (.hash m true) := by
  intro m hl
  have hm := List.mem_of_getLast? hl
  unfold expandArgs at hm
  rw [List.mem_flatten] at hm
  obtain ⟨l, hl1, hl2⟩ := hm
  rw [List.mem_map] at hl1
  obtain ⟨e, he, rfl⟩ := hl1
  have hv : e.1 ∈ cs.args := by
    have := List.mem_zipIdx' he
    exact List.mem_of_getElem this.2.symm
  obtain ⟨p1, p2⟩ := h e.1 hv
  unfold expandArg at hl2
  split_ifs at hl2
  · split at hl2
    next l hh => exact p2 l hh m hl2
    next hh => simp at hl2
    next => simp at hl2; exact p1 m hl2.symm
  · simp at hl2; exact p1 m hl2.symm

/-- One step of a chain. -/
theorem forward_step (W : World) (lead : List Val) (fw : Forwarded) (f : Frame) {L : List Val} {all : List (Key × Val)}
    (h : Rep fw L all) : ∃ g fw', forwardCall W trampoline lead fw f = .ok g ∧ readForwarded g = .ok fw' ∧
      ∃ all', Rep fw' (lead ++ L) all' ∧ mapInsertAll [] all' = mapInsertAll [] all := by
  rcases forwardCall_cases W trampoline lead fw f h with ⟨h1, _, h3⟩ | h3
  · obtain ⟨g, e1, e2⟩ := tramp_bind (lead ++ L) f
    refine ⟨storeEmptyKwRest trampoline g, { op := .val (.arr (lead ++ L)), kw := .nil }, ?_, ?_, [],
      ⟨Or.inl rfl, Or.inl ⟨rfl, rfl⟩⟩, by rw [h1]⟩
    · rw [h3, e1]; rfl
    · unfold readForwarded
      have e0 : storeEmptyKwRest trampoline g 0 = some (.arr (lead ++ L)) := e2
      have e1' : storeEmptyKwRest trampoline g 1 = some .nil := rfl
      rw [e0, e1']
  · have he : expandArgs (forwardSite lead fw) = lead ++ L :=
      expandArgs_last _ lead L (by unfold forwardSite; rw [h.mat.1]) rfl
    have hd := direct_eq W trampoline (forwardSite lead fw) [] [mapInsertAll [] all] f tramp_ok (h.site W lead) rfl
      (by intro hk; cases hk) (by intro hk; cases hk)
    rw [if_neg (by rintro ⟨hk, _⟩; cases hk), he] at hd
    have hnk : trampoline.noKeyword = false := rfl
    rw [hnk] at hd
    simp only [Bool.false_eq_true, if_false, List.append_nil] at hd
    obtain ⟨g, fw', e1, e2, e3⟩ := tramp_spec (lead ++ L) (allPairs [] [mapInsertAll [] all])
      (forwardSite lead fw).kwMayExist f (by intro hk; cases hk)
    refine ⟨g, fw', by rw [h3, hd, e1], e2, _, e3, ?_⟩
    simp only [allPairs, symPairs, List.map_nil, List.nil_append, List.flatten_cons, List.flatten_nil, List.append_nil]
    exact insertAll_self _ (NodupKeys.insertAll all nodupKeys_nil)

theorem forward_chain (W : World) (f : Frame) : ∀ (leads : List (List Val)) (fw : Forwarded) (L : List Val)
    (all : List (Key × Val)), Rep fw L all → ∃ fw', forwardThrough W f leads fw = .ok fw' ∧
      ∃ all', Rep fw' (leads.reverse.flatten ++ L) all' ∧ mapInsertAll [] all' = mapInsertAll [] all
  | [], fw, L, all, h => ⟨fw, rfl, all, by simpa using h, rfl⟩
  | lead :: leads, fw, L, all, h => by
    obtain ⟨g, fw1, h1, h2, all1, h3, h4⟩ := forward_step W lead fw f h
    obtain ⟨fw2, h5, all2, h6, h7⟩ := forward_chain W f leads fw1 _ all1 h3
    refine ⟨fw2, ?_, all2, by simpa using h6, h7.trans h4⟩
    unfold forwardThrough
    simp only [bind, Except.bind, h1, h2]
    exact h5

/-- Entering the first method of the chain. -/
theorem enter_rep (W : World) (cs : CallSite) (lits : List (Name × Val)) (es : List (List (Key × Val))) (f : Frame)
    (hs : SiteOk W cs lits es) (hr : ∀ v ∈ cs.args, Plain v) (lazy : Bool) :
    ∃ fw, (if lazy then enterLazy W cs f else enterEager W cs f) = .ok fw ∧ Rep fw (expandArgs cs) (allPairs lits es) := by
  have heager : ∃ fw, enterEager W cs f = .ok fw ∧ Rep fw (expandArgs cs) (allPairs lits es) := by
    have hd := direct_eq W trampoline cs lits es f tramp_ok hs rfl hs.none (fun _ _ => plain_expand cs hr)
    rw [if_neg (by rintro ⟨hk, _⟩; cases hk)] at hd
    have hnk : trampoline.noKeyword = false := rfl
    rw [hnk] at hd
    simp only [Bool.false_eq_true, if_false, List.append_nil] at hd
    obtain ⟨g, fw, e1, e2, e3⟩ := tramp_spec (expandArgs cs) (allPairs lits es) cs.kwMayExist f hs.none
    refine ⟨fw, ?_, e3⟩
    unfold enterEager
    simp only [bind, Except.bind, hd, e1, e2]
  cases lazy with
  | false => simpa using heager
  | true =>
    simp only [if_true]
    unfold enterLazy
    by_cases hl : lazyEntry cs = true
    · rw [if_pos hl]
      unfold lazyEntry at hl
      simp only [Bool.and_eq_true, List.isEmpty_iff] at hl
      refine ⟨_, rfl, Or.inr ?_, Or.inl ⟨rfl, hs.none (by unfold CallSite.kwMayExist; rw [hl.1.2, hl.2]; rfl)⟩⟩
      unfold expandArgs
      rw [expandArgs_nil cs.args cs.splat hl.1.1]
    · rw [if_neg hl]; exact heager

/-- C70 (partial: the final callee is a method, and none of the values passed is a hash flagged by `ruby2_keywords`):
a call that goes through any number of methods `def f(...)`, each passing `(lead.., ...)` on, binds the final callee's
parameters as the call written out does: all leading arguments in front, the last method's first, then the original
arguments with their splats, then the original keywords.  Whether the first method was entered with a materialised
array or with the lazy marker makes no difference. -/
theorem C70_forward_partial (W : World) (p : Params) (args : List Val) (splat : List Nat) (items : List KwItem)
    (ps : List (Key × Val)) (leads : List (List Val)) (lead : List Val) (f f' : Frame) (lazy : Bool)
    (hp : ParamsOk p) (hb : p.blockStyle = false) (hw : Written W items ps)
    (ha : ∀ v ∈ args, Plain v) (hl : ∀ l ∈ leads, ∀ v ∈ l, Plain v) (hl' : ∀ v ∈ lead, Plain v) :
    outcome p ((if lazy then enterLazy W (CallSite.ofSource args splat items) f'
        else enterEager W (CallSite.ofSource args splat items) f').bind fun fw =>
      (forwardThrough W f' leads fw).bind fun fw => forwardCall W p lead fw f)
    = outcome p (setCallee W p (CallSite.ofSource (lead ++ leads.reverse.flatten ++ args)
        (splat.map (· + (lead ++ leads.reverse.flatten).length)) items) f) := by
  obtain ⟨lits, es, hs, _⟩ := written_site (args := args) (splat := splat) hw
  obtain ⟨fw, h1, h2⟩ := enter_rep W _ lits es f' hs ha lazy
  obtain ⟨fw', h3, all', h4, h5⟩ := forward_chain W f' leads fw _ _ h2
  rw [h1]
  simp only [Except.bind, h3]
  rw [forward_outcome W p lead fw' f h4 hp hb]
  have hs' : SiteOk W (CallSite.ofSource (lead ++ leads.reverse.flatten ++ args)
        (splat.map (· + (lead ++ leads.reverse.flatten).length)) items) lits es := hs.moved rfl rfl rfl
  rw [direct_outcome W p _ lits es f hp hs' hb hs'.none (fun _ _ => plain_expand _ (by
    intro v hv
    have hv : v ∈ lead ++ leads.reverse.flatten ++ args := hv
    simp only [List.mem_append, List.mem_flatten, List.mem_reverse] at hv
    rcases hv with (hv | ⟨l, hl1, hl2⟩) | hv
    · exact hl' v hv
    · exact hl l hl1 v hl2
    · exact ha v hv))]
  rw [expandArgs_lead (lead ++ leads.reverse.flatten) args splat (CallSite.ofSource args splat items)
    (CallSite.ofSource (lead ++ leads.reverse.flatten ++ args)
        (splat.map (· + (lead ++ leads.reverse.flatten).length)) items) rfl rfl rfl rfl]
  rw [List.append_assoc]
  exact specDirect_congr p _ f h5

/-- `def f(...) = g(9, ...)` called as `f(1, *[2, 3], k: 4)` with `def g(a, *r, k:)`: the hypotheses hold and `g` gets
`a = 9`, `r = [1, 2, 3]`, `k = 4`. -/
example : Written noConv [.lit 7 (.atom 4)] [(.sym 7, .atom 4)] ∧ (∀ v ∈ [.atom 1, .arr [.atom 2, .atom 3]], Plain v) ∧
    (outcome { req := 1, rest := .explicit, kwNames := [7], kwRequired := [true] }
      ((enterEager noConv (CallSite.ofSource [.atom 1, .arr [.atom 2, .atom 3]] [1] [.lit 7 (.atom 4)]) fun _ => none).bind
        fun fw => forwardCall noConv { req := 1, rest := .explicit, kwNames := [7], kwRequired := [true] } [.atom 9] fw
          fun _ => none)).map (fun g => (List.range 3).map g)
      = some [some (.atom 9), some (.arr [.atom 1, .atom 2, .atom 3]), some (.atom 4)] := by
  refine ⟨?_, ?_, rfl⟩
  · exact .lit 7 (.atom 4) [] [] .nil
  · intro v hv
    simp only [List.mem_cons, List.not_mem_nil, or_false] at hv
    rcases hv with rfl | rfl
    · exact ⟨(by intro m h; cases h), (by intro l h; cases h)⟩
    · refine ⟨(by intro m h; cases h), ?_⟩
      intro l h m hm
      cases h
      simp at hm

/-! ### `ruby2_keywords` -/

theorem r2k_ok : ParamsOk r2kMethod := ⟨List.nodup_nil, by intro h; cases h⟩

theorem r2k_bind (L : List Val) (f : Frame) : ∃ g, bindL r2kMethod f L = .ok g ∧ g 0 = some (.arr L) := by
  refine ⟨boundL r2kMethod f L, ?_, ?_⟩
  · unfold bindL
    have : badArity r2kMethod L.length = false := by
      unfold badArity
      have e : r2kMethod.min = 0 := rfl
      have e' : r2kMethod.isExplicitRest = true := rfl
      rw [e, e']; simp
    rw [this]; rfl
  · unfold boundL bound
    have e : effN r2kMethod L.length = L.length := rfl
    rw [e]
    have : slotAt r2kMethod (fun i => L.getD i .nil) L.length 0
        = some (.arr ((List.range (L.length - 0 - min (L.length - 0) 0)).map fun j => L.getD (0 + min (L.length - 0) 0 + j) .nil)) := rfl
    rw [if_pos (by decide), this]
    simp only [Nat.sub_zero, Nat.min_zero, Nat.zero_add]
    rw [getD_self]

theorem r2kSplit_flagged (p : Params) (l : List Val) (m : List (Key × Val)) :
    r2kSplit p (l ++ [.hash m true]) = if p.noKeyword then (l ++ [.hash m p.r2k], none) else (l, some (.hash m true)) := by
  unfold r2kSplit
  simp only [List.getLast?_append, List.getLast?_singleton, Option.some_or, r2kHash, List.dropLast_concat]
  cases p.noKeyword <;> cases p.r2k <;> rfl

/-- Passing on an array that ends in the flagged keywords. -/
theorem splat_outcome (W : World) (p : Params) (lead L : List Val) (all : List (Key × Val)) (f : Frame) (hp : ParamsOk p)
    (hb : p.blockStyle = false) (hf : all ≠ [] → p.forbidKw = false) (hl : ∀ v ∈ lead ++ L, ∀ m, v ≠ .hash m true) :
    outcome p (setCallee W p (splatSite lead (.arr (L ++ trailing r2kMethod all))) f)
      = outcome p (specDirect p (lead ++ L) all f) := by
  have hx := single_method hb
  have hsite : SiteOk W (splatSite lead (.arr (L ++ trailing r2kMethod all))) [] [] :=
    ⟨⟨rfl, List.nodup_nil⟩, ⟨[], rfl, rfl⟩, by simp⟩
  have hex : (if p.noKeyword = true then (trailing p (allPairs [] [])).head? else none) = none := by
    split_ifs <;> rfl
  have hE : expandArgs (splatSite lead (.arr (L ++ trailing r2kMethod all))) = lead ++ (L ++ trailing r2kMethod all) :=
    expandArgs_last _ lead _ rfl rfl
  have hpos : posOf W p (splatSite lead (.arr (L ++ trailing r2kMethod all))) none
      = .ok (r2kSplit p (lead ++ (L ++ trailing r2kMethod all))) := by
    rw [posOf_splats W p _ none hx (by unfold splatSite; simp), hE]
    have : (splatSite lead (.arr (L ++ trailing r2kMethod all))).kwMayExist = false := rfl
    rw [this]; simp
  by_cases hc : all = []
  · have ht : trailing r2kMethod all = [] := by unfold trailing; rw [if_pos hc]
    rw [ht, List.append_nil] at hpos hsite ⊢
    rw [r2kSplit_plain p _ (by
      intro m hm
      exact hl _ (List.mem_of_getLast? hm) m rfl)] at hpos
    rw [setCallee_eq W p _ [] [] f hp hsite (by rw [hex, hpos]; intro l m hh; cases hh), hex, hpos, if_neg (by simp [allPairs, symPairs])]
    unfold specDirect
    rw [hc, if_neg (by simp)]
    have : (if p.noKeyword then trailing p [] else []) = [] := by split_ifs <;> rfl
    rw [this]
    simp only [Except.bind, List.append_nil]
    exact outcome_specCall p _ _ _ _ _ f (by simp [allPairs, symPairs]) (by simp) rfl
  · have ht : trailing r2kMethod all = [.hash (mapInsertAll [] all) true] := by unfold trailing; rw [if_neg hc]; rfl
    rw [ht] at hpos hsite ⊢
    rw [← List.append_assoc, r2kSplit_flagged] at hpos
    have hnd := NodupKeys.insertAll all nodupKeys_nil
    rw [setCallee_eq W p _ [] [] f hp hsite (by
      rw [hex, hpos]
      intro l m hh
      split_ifs at hh with hk
      · cases hh
      · cases hh; exact ⟨_, rfl, hnd⟩), hex, hpos, if_neg (by simp [allPairs, symPairs])]
    unfold specDirect
    have hnf : ¬ (p.forbidKw = true ∧ all ≠ []) := by
      rintro ⟨h, _⟩; rw [hf hc] at h; cases h
    rw [if_neg hnf]
    have htp : trailing p all = [.hash (mapInsertAll [] all) p.r2k] := by unfold trailing; rw [if_neg hc]
    rw [htp]
    cases hk : p.noKeyword with
    | true =>
      simp only [if_true, Except.bind]
      unfold specCall
      rw [hk]; rfl
    | false =>
      simp only [Bool.false_eq_true, if_false, Except.bind, List.append_nil, Option.isSome_some, Bool.or_true]
      apply outcome_specCall p _ _ _ _ _ f (by simp) (by simp)
      simp only [allPairs, symPairs, List.map_nil, List.nil_append, List.flatten_nil]
      exact insertAll_self _ hnd

theorem noKw_frame {p : Params} (hk : p.noKeyword = true) (pos : List Val) (all : List (Key × Val)) (b : Bool) (f : Frame) :
    specCall p pos all b f = bindL p f pos := by unfold specCall; rw [if_pos hk]

theorem outcome_inj_r2k {a b : Except Err Frame} (h : outcome r2kMethod a = outcome r2kMethod b) (g : Frame) (hb : b = .ok g) :
    a = .ok g := by
  subst hb
  cases a with
  | error e => cases h
  | ok g' =>
    have e1 : outcome r2kMethod (.ok g') = some g' := rfl
    have e2 : outcome r2kMethod (.ok g) = some g := rfl
    rw [e1, e2] at h
    cases h; rfl

theorem r2k_direct (pos : List Val) (all : List (Key × Val)) (f : Frame) :
    ∃ g, specDirect r2kMethod pos all f = .ok g ∧ g 0 = some (.arr (pos ++ trailing r2kMethod all)) := by
  obtain ⟨g, h1, h2⟩ := r2k_bind (pos ++ trailing r2kMethod all) f
  refine ⟨g, ?_, h2⟩
  unfold specDirect
  have hk : r2kMethod.noKeyword = true := rfl
  rw [if_neg (by rintro ⟨h, _⟩; cases h), hk, noKw_frame hk]
  exact h1

theorem r2k_chain (W : World) (f : Frame) (all : List (Key × Val)) : ∀ (leads : List (List Val)) (L : List Val),
    (∀ v ∈ L, ∀ m, v ≠ .hash m true) → (∀ l ∈ leads, ∀ v ∈ l, ∀ m, v ≠ .hash m true) →
    r2kThrough W f leads (.arr (L ++ trailing r2kMethod all))
      = .ok (.arr (leads.reverse.flatten ++ L ++ trailing r2kMethod all))
  | [], L, _, _ => by simp [r2kThrough]
  | lead :: leads, L, h1, h2 => by
    have hl : ∀ v ∈ lead ++ L, ∀ m, v ≠ .hash m true := by
      intro v hv
      rw [List.mem_append] at hv
      rcases hv with hv | hv
      · exact h2 lead (by simp) v hv
      · exact h1 v hv
    have ho := splat_outcome W r2kMethod lead L all f r2k_ok rfl (fun _ => rfl) hl
    obtain ⟨g, e1, e2⟩ := r2k_direct (lead ++ L) all f
    have e3 := outcome_inj_r2k ho g e1
    unfold r2kThrough enterR2k
    simp only [bind, Except.bind, e3, e2]
    rw [r2k_chain W f all leads (lead ++ L) hl (fun l hl' => h2 l (by simp [hl']))]
    simp

/-- C69 (partial: the final callee is a method without `**nil`; none of the positional values passed is itself a
flagged hash): keyword arguments pass through any number of methods `ruby2_keywords def m(*args)`, each passing
`(lead.., *args)` on, and arrive at the final callee as the call written out delivers them: as keywords if it takes
keywords, otherwise as one trailing hash. -/
theorem C69_ruby2_keywords_partial (W : World) (p : Params) (args : List Val) (items : List KwItem)
    (ps : List (Key × Val)) (leads : List (List Val)) (lead : List Val) (f f' : Frame)
    (hp : ParamsOk p) (hb : p.blockStyle = false) (hf : p.forbidKw = false) (hw : Written W items ps)
    (ha : ∀ v ∈ args, ∀ m, v ≠ .hash m true) (hl : ∀ l ∈ leads, ∀ v ∈ l, ∀ m, v ≠ .hash m true)
    (hl' : ∀ v ∈ lead, ∀ m, v ≠ .hash m true) :
    outcome p ((enterR2k W (CallSite.ofSource args [] items) f').bind fun v =>
      (r2kThrough W f' leads v).bind fun v => setCallee W p (splatSite lead v) f)
    = outcome p (setCallee W p (CallSite.ofSource (lead ++ leads.reverse.flatten ++ args) [] items) f) := by
  obtain ⟨lits, es, hs, _⟩ := written_site (args := args) (splat := []) hw
  have hE : ∀ l, expandArgs (CallSite.ofSource l [] items) = l := by
    intro l; unfold expandArgs; exact expandArgs_nil _ _ rfl 0
  have ho := direct_outcome W r2kMethod _ lits es f' r2k_ok hs rfl hs.none (fun _ h => absurd rfl h)
  rw [hE] at ho
  obtain ⟨g, e1, e2⟩ := r2k_direct args (allPairs lits es) f'
  have e3 := outcome_inj_r2k ho g e1
  have e4 : enterR2k W (CallSite.ofSource args [] items) f' = .ok (.arr (args ++ trailing r2kMethod (allPairs lits es))) := by
    unfold enterR2k
    simp only [bind, Except.bind, e3, e2]
  rw [e4]
  simp only [Except.bind]
  rw [r2k_chain W f' _ leads args ha hl]
  simp only
  rw [splat_outcome W p lead _ _ f hp hb (fun _ => hf) (by
    intro v hv
    simp only [List.mem_append, List.mem_flatten, List.mem_reverse] at hv
    rcases hv with hv | ⟨l, h1, h2⟩ | hv
    · exact hl' v hv
    · exact hl l h1 v h2
    · exact ha v hv)]
  have hs' : SiteOk W (CallSite.ofSource (lead ++ leads.reverse.flatten ++ args) [] items) lits es := hs.moved rfl rfl rfl
  rw [direct_outcome W p _ lits es f hp hs' hb hs'.none (fun _ h => absurd rfl h), hE, List.append_assoc]

/-- `ruby2_keywords def m(*args) = g(9, *args)` called as `m(1, k: 4)` with `def g(a, *r, k:)`. -/
example : Written noConv [.lit 7 (.atom 4)] [(.sym 7, .atom 4)] ∧
    (outcome { req := 1, rest := .explicit, kwNames := [7], kwRequired := [true] }
      ((enterR2k noConv (CallSite.ofSource [.atom 1] [] [.lit 7 (.atom 4)]) fun _ => none).bind fun v =>
        setCallee noConv { req := 1, rest := .explicit, kwNames := [7], kwRequired := [true] } (splatSite [.atom 9] v)
          fun _ => none)).map (fun g => (List.range 3).map g)
      = some [some (.atom 9), some (.arr [.atom 1]), some (.atom 4)] := ⟨.lit 7 (.atom 4) [] [] .nil, rfl⟩

/-- C69 fails for a final callee with `**nil`: `g(k: 4)` of `def g(*r, **nil)` raises; through
`ruby2_keywords def m(*args) = g(*args)` it gets a hash. -/
theorem C69_nil_fails :
    let p : Params := { rest := .explicit, forbidKw := true }
    let cs := CallSite.ofSource [] [] [.lit 7 (.atom 4)]
    outcome p (setCallee noConv p cs fun _ => none) = none ∧
    (outcome p ((enterR2k noConv cs fun _ => none).bind fun v => setCallee noConv p (splatSite [] v) fun _ => none)).map
      (fun g => g 0) = some (some (.arr [.hash [(.sym 7, .atom 4)] false])) := ⟨rfl, rfl⟩

end Verif.Args
