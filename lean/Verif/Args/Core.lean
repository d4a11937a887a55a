import Verif.Args.KwBind
import Mathlib.Tactic.Tauto

/-! Helper lemmas: what `set_callee_frame_arguments` computes. -/
namespace Verif.Args

/-- The keywords of a site: the literals, and the entries of the `**` operands after their conversion. -/
structure SiteOk (W : World) (cs : CallSite) (lits : List (Name × Val)) (es : List (List (Key × Val))) : Prop where
  lit : LitOk cs lits
  conv : ∃ hs, cs.hs.mapM (coerceHashSplat W) = .ok hs ∧ hs.mapM entriesOf = .ok es
  keys : ∀ m ∈ es, NodupKeys m

/-- A callee as the parser and `ParamsInfo` make it: keyword names are distinct, and `**nil` excludes them. -/
structure ParamsOk (p : Params) : Prop where
  nodup : p.kwNames.Nodup
  forbid : p.forbidKw = true → p.noKeyword = true

/-- All keyword pairs in the order the binders take them. -/
def allPairs (lits : List (Name × Val)) (es : List (List (Key × Val))) : List (Key × Val) :=
  symPairs lits ++ es.flatten

/-- The trailing hash. -/
def trailing (p : Params) (all : List (Key × Val)) : List Val :=
  if all = [] then [] else [.hash (mapInsertAll [] all) p.r2k]

theorem mapInsert_ne_nil (m : List (Key × Val)) (k : Key) (v : Val) : mapInsert m k v ≠ [] := by
  intro h
  have := congrArg (List.map (·.1)) h
  rw [mapInsert_keys] at this
  split_ifs at this with hk
  · rw [List.map_nil] at this; rw [this] at hk; cases hk
  · simp at this

theorem mapInsertAll_ne_nil : ∀ (es m : List (Key × Val)), m ≠ [] → mapInsertAll m es ≠ []
  | [], _, h => h
  | e :: es, m, _ => mapInsertAll_ne_nil es _ (mapInsert_ne_nil m e.1 e.2)

theorem mapInsertAll_nil_iff (es : List (Key × Val)) : mapInsertAll [] es = [] ↔ es = [] := by
  cases es with
  | nil => simp [mapInsertAll]
  | cons e es =>
    constructor
    · intro h; exact absurd h (mapInsertAll_ne_nil es _ (mapInsert_ne_nil [] e.1 e.2))
    · intro h; cases h

theorem foldl_insertAll : ∀ (es : List (List (Key × Val))) (m : List (Key × Val)),
    es.foldl mapInsertAll m = mapInsertAll m es.flatten
  | [], _ => rfl
  | e :: es, m => by rw [List.foldl_cons, foldl_insertAll es, List.flatten_cons, mapInsertAll_append]

theorem symFold' (l : List (Name × Val)) (acc : List (Key × Val)) :
    l.foldl (fun m e => mapInsert m (.sym e.1) e.2) acc = mapInsertAll acc (symPairs l) := by
  unfold symPairs mapInsertAll; rw [List.foldl_map]

theorem SiteOk.coerce {W : World} {cs : CallSite} {lits : List (Name × Val)} {es : List (List (Key × Val))}
    (h : SiteOk W cs lits es) : ∃ hs, coerceSite W cs = .ok { cs with hs := hs } ∧ hs.mapM entriesOf = .ok es
      ∧ hs.length = cs.hs.length := by
  obtain ⟨hs, h1, h2⟩ := h.conv
  refine ⟨hs, ?_, h2, mapM_ok_length h1⟩
  unfold coerceSite; rw [h1]; rfl

theorem kwMayExist_hs (cs : CallSite) (hs : List Val) (h : hs.length = cs.hs.length) :
    ({ cs with hs := hs } : CallSite).kwMayExist = cs.kwMayExist := by
  unfold CallSite.kwMayExist
  have : hs.isEmpty = cs.hs.isEmpty := by
    cases hs <;> cases h' : cs.hs <;> simp_all
  simp only [this]

theorem carries_any : ∀ (hs : List Val) (es : List (List (Key × Val))), hs.mapM entriesOf = .ok es →
    (hs.any carriesKw = true ↔ es.flatten ≠ [])
  | [], es, h => by
    have : (Except.ok [] : Except Err (List (List (Key × Val)))) = .ok es := h
    cases this; simp
  | a :: hs, es, h => by
    obtain ⟨m, es', rfl, ha, hl⟩ := mapM_cons_ok h
    rw [List.any_cons, Bool.or_eq_true, carries_any hs es' hl, List.flatten_cons]
    have : carriesKw a = true ↔ m ≠ [] := by
      cases a with
      | nil => cases ha; simp [carriesKw]
      | hash m' fl => cases ha; cases m <;> simp [carriesKw]
      | atom _ => cases ha
      | obj _ => cases ha
      | arr _ => cases ha
    rw [this]
    cases m <;> simp

theorem anyKw_iff (W : World) (cs : CallSite) (lits : List (Name × Val)) (es : List (List (Key × Val)))
    (h : LitOk cs lits) (hs : List Val) (he : hs.mapM entriesOf = .ok es) :
    anyKeywordPassed { cs with hs := hs } = true ↔ allPairs lits es ≠ [] := by
  unfold anyKeywordPassed allPairs
  rw [Bool.or_eq_true, carries_any hs es he]
  have hl : (cs.kw = [] ↔ symPairs lits = []) := by
    have := h.names
    unfold symPairs
    rw [List.map_eq_nil_iff]
    constructor
    · intro h0; rw [h0, List.map_nil] at this
      exact List.map_eq_nil_iff.mp this.symm
    · intro h0; rw [h0, List.map_nil] at this
      exact List.map_eq_nil_iff.mp this
  simp only [Bool.not_eq_true', List.isEmpty_eq_false_iff, ne_eq, List.append_eq_nil_iff, hl]
  tauto

/-- `excess`. -/
theorem excess_eq (p : Params) (cs : CallSite) (lits : List (Name × Val)) (es : List (List (Key × Val)))
    (h : LitOk cs lits) (hs : List Val) (he : hs.mapM entriesOf = .ok es) :
    excess p { cs with hs := hs } = .ok (if p.noKeyword then (trailing p (allPairs lits es)).head? else none) := by
  unfold excess
  have hk : ({ cs with hs := hs } : CallSite).kwPairs = .ok lits := h.pairs
  cases hn : p.noKeyword with
  | false => rfl
  | true =>
    simp only [Bool.true_and, if_true]
    by_cases hm : ({ cs with hs := hs } : CallSite).kwMayExist = true
    · rw [if_pos hm, hk]
      simp only [bind, Except.bind, pure, Except.pure, he]
      rw [symFold', foldl_insertAll, ← mapInsertAll_append]
      unfold trailing
      change (if (mapInsertAll [] (allPairs lits es)).isEmpty = true then _ else Except.ok (some (Val.hash (mapInsertAll [] (allPairs lits es)) p.r2k))) = _
      by_cases ha : allPairs lits es = []
      · rw [if_pos ha, ha]; rfl
      · rw [if_neg ha, if_neg]
        · rfl
        · rw [List.isEmpty_iff, mapInsertAll_nil_iff]; exact ha
    · rw [if_neg hm]
      have : allPairs lits es = [] := by
        unfold CallSite.kwMayExist at hm
        simp only [Bool.or_eq_true, Bool.not_eq_true', List.isEmpty_eq_false_iff, not_or, not_not] at hm
        have h1 : lits = [] := by
          have := h.names; rw [hm.1, List.map_nil] at this; exact List.map_eq_nil_iff.mp this.symm
        have h2 : es = [] := by
          have := mapM_ok_length he
          rw [hm.2] at this; exact List.length_eq_zero_iff.mp this
        rw [h1, h2]; rfl
      unfold trailing; rw [if_pos this]; rfl

/-- The list of positional arguments bound, and the promoted keyword hash. -/
def posOf (W : World) (p : Params) (cs : CallSite) (ex : Option Val) : Except Err (List Val × Option Val) := do
  let coerced ← toAryStep W p cs.args cs.splat ex
  match coerced with
  | some l => pure (l, none)
  | none => match expandStep p cs.args cs.splat ex with
    | some l => pure (l, none)
    | none =>
      if cs.splat.isEmpty && ex.isNone then pure (cs.args, none)
      else
        if !cs.kwMayExist && !cs.splat.isEmpty then pure (r2kSplit p (expandArgs cs ++ ex.toList))
        else pure (expandArgs cs ++ ex.toList, none)

theorem genericPositional_eq (W : World) (p : Params) (cs : CallSite) (ex : Option Val) (f : Frame) :
    genericPositional W p cs ex f = (do
      let lr ← posOf W p cs ex
      let f ← bindL p f lr.1
      pure (f, lr.2)) := by
  unfold genericPositional posOf
  simp only [fillSlice_eq, fillSlots_eq]
  cases toAryStep W p cs.args cs.splat ex with
  | error e => rfl
  | ok c =>
    cases c with
    | some l => rfl
    | none =>
      simp only [bind, Except.bind]
      cases expandStep p cs.args cs.splat ex with
      | some l => rfl
      | none =>
        simp only
        split_ifs
        · rfl
        · rfl
        · rfl

theorem handleKeyword_none (p : Params) (cs : CallSite) (r : Option Val) (f : Frame) (hk : cs.kwMayExist = false)
    (hn : p.noKeyword = true) : handleKeyword p cs r f = .ok f := by
  have hkw : cs.kw = [] ∧ cs.hs = [] := by
    unfold CallSite.kwMayExist at hk
    simpa using hk
  have hp : p.kwNames = [] ∧ p.kwRest = false := by
    unfold Params.noKeyword at hn
    simpa using hn
  unfold handleKeyword anyKeywordPassed
  rw [hkw.1, hkw.2, hp.2]
  simp only [List.isEmpty_nil, Bool.not_true, List.any_nil, Bool.or_false, Bool.false_eq_true, if_false]
  have ho : ordinaryKeyword p cs f = .ok (f, []) := by
    unfold ordinaryKeyword
    rw [hp.1, hkw.1, hp.2]; rfl
  have hh : hashSplatAndKwRest p cs r f = .ok (f, []) := by
    unfold hashSplatAndKwRest; rw [hn]; rfl
  have hc : checkMissing p f = .ok () := by
    unfold checkMissing missingNames; rw [hp.1]; rfl
  rw [ho]
  simp only [bind, Except.bind, pure, Except.pure, hh, hc]
  cases p.forbidKw <;> rfl

/-- The head fast path agrees with the general one. -/
theorem headFast_eq (W : World) (p : Params) (cs : CallSite) (f : Frame) (h : headFast p cs = true) :
    fillSlots p f cs.args = genericTail W p cs f := by
  unfold headFast at h
  simp only [Bool.and_eq_true, Bool.not_eq_true'] at h
  obtain ⟨⟨⟨⟨⟨h1, h2⟩, h3⟩, h4⟩, h5⟩, h6⟩ := h
  have hkw : cs.kw = [] ∧ cs.hs = [] := by
    unfold CallSite.kwMayExist at h2; simpa using h2
  have hsp : cs.splat = [] := by
    unfold CallSite.hasSplat at h1; simpa using h1
  unfold genericTail
  have hc : coerceSite W cs = .ok cs := by
    unfold coerceSite; rw [hkw.2]
    simp only [List.mapM_nil, bind, Except.bind, pure, Except.pure]
    rw [← hkw.2]
  rw [hc]
  simp only [bind, Except.bind, pure, Except.pure, h4, Bool.false_and, Bool.false_eq_true, if_false]
  have he : excess p cs = .ok none := by
    unfold excess; rw [h2, Bool.and_false]; rfl
  rw [he]
  simp only [genericPositional_eq]
  have hp : posOf W p cs none = .ok (cs.args, none) := by
    unfold posOf toAryStep expandStep
    rw [h5, hsp]; rfl
  rw [hp]
  simp only [bind, Except.bind, pure, Except.pure, fillSlots_eq]
  cases bindL p f cs.args with
  | error e => rfl
  | ok g =>
    simp only [h2, Bool.not_false, Bool.or_true, if_true]
    rw [handleKeyword_none p cs none g h2 h3]

theorem setCallee_generic (W : World) (p : Params) (cs : CallSite) (f : Frame) :
    setCallee W p cs f = genericTail W p cs f := by
  unfold setCallee
  split_ifs with h
  · exact headFast_eq W p cs f h
  · rfl

/-- What a call does, given its positional arguments and keyword pairs. -/
def specCall (p : Params) (pos : List Val) (all : List (Key × Val)) (present : Bool) (f : Frame) : Except Err Frame :=
  if p.noKeyword then bindL p f pos else (bindL p f pos).bind fun f => kwBind p f all present

/-- The general shape of a call. -/
theorem setCallee_eq (W : World) (p : Params) (cs : CallSite) (lits : List (Name × Val))
    (es : List (List (Key × Val))) (f : Frame) (hp : ParamsOk p) (h : SiteOk W cs lits es)
    (hr : ∀ l m, posOf W p cs (if p.noKeyword then (trailing p (allPairs lits es)).head? else none) = .ok (l, some m) →
      ∃ kvs, m = .hash kvs true ∧ NodupKeys kvs) :
    setCallee W p cs f =
      if p.forbidKw = true ∧ allPairs lits es ≠ [] then .error .noKeywords
      else (posOf W p cs (if p.noKeyword then (trailing p (allPairs lits es)).head? else none)).bind fun lr =>
        specCall p lr.1 (allPairs lits es ++ (match lr.2 with | some (.hash m _) => m | _ => []))
          (cs.kwMayExist || lr.2.isSome) f := by
  rw [setCallee_generic]
  unfold genericTail
  obtain ⟨hs, h1, h2, h3⟩ := h.coerce
  rw [h1]
  simp only [bind, Except.bind, pure, Except.pure]
  have hany := anyKw_iff W cs lits es h.lit hs h2
  by_cases hf : p.forbidKw = true ∧ allPairs lits es ≠ []
  · rw [if_pos hf, if_pos]
    · rfl
    · rw [hf.1, hany.mpr hf.2]; rfl
  · rw [if_neg hf, if_neg (by
      intro hc; rw [Bool.and_eq_true] at hc; exact hf ⟨hc.1, hany.mp hc.2⟩)]
    rw [excess_eq p cs lits es h.lit hs h2]
    simp only [genericPositional_eq]
    have hpos : ∀ ex, posOf W p { cs with hs := hs } ex = posOf W p cs ex := by
      intro ex; unfold posOf
      rw [kwMayExist_hs cs hs h3]; rfl
    rw [hpos]
    cases hpo : posOf W p cs (if p.noKeyword then (trailing p (allPairs lits es)).head? else none) with
    | error e => rfl
    | ok lr =>
      simp only [bind, Except.bind, pure, Except.pure]
      unfold specCall
      cases hb : bindL p f lr.1 with
      | error e =>
        cases hn : p.noKeyword <;> rfl
      | ok g =>
        simp only [kwMayExist_hs cs hs h3]
        cases hn : p.noKeyword with
        | true =>
          simp only [Bool.not_true, Bool.false_or, if_true]
          by_cases hk : cs.kwMayExist = true
          · rw [hk]; simp
          · have hk' : cs.kwMayExist = false := by simpa using hk
            rw [hk', Bool.not_false, if_pos rfl, handleKeyword_none p _ _ g (by rw [kwMayExist_hs cs hs h3]; exact hk') hn]
        | false =>
          have hff : p.forbidKw = false := by
            cases hq : p.forbidKw with
            | false => rfl
            | true => have := hp.forbid hq; rw [hn] at this; cases this
          simp only [Bool.not_false, Bool.true_or, if_true, Bool.false_eq_true, if_false]
          obtain ⟨l, r⟩ := lr
          have hlit : LitOk { cs with hs := hs } lits := ⟨h.lit.pairs, h.lit.nodup⟩
          cases r with
          | none =>
            rw [handleKeyword_eq p { cs with hs := hs } lits none es g hlit (by simpa using h2) h.keys hp.nodup hn hff]
            rw [kwMayExist_hs cs hs h3]
            simp only [List.append_nil]; rfl
          | some m =>
            obtain ⟨kvs, rfl, hnd⟩ := hr l m hpo
            rw [handleKeyword_eq p { cs with hs := hs } lits (some (.hash kvs true)) (es ++ [kvs]) g hlit
              (by exact mapM_append_ok h2 rfl) (by
                intro m hm
                rcases List.mem_append.mp hm with hm | hm
                · exact h.keys m hm
                · rw [List.mem_singleton] at hm; rw [hm]; exact hnd) hp.nodup hn hff]
            rw [kwMayExist_hs cs hs h3]
            have : symPairs lits ++ (es ++ [kvs]).flatten = allPairs lits es ++ kvs := by
              unfold allPairs; simp
            rw [this]; rfl

end Verif.Args
