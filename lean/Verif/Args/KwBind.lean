import Verif.Args.Kw

/-! Helper lemmas: what `handle_keyword` computes. -/
namespace Verif.Args

/-- Writing the keyword slots: slot `i` becomes `φ i old`. -/
def kwOver (p : Params) (f : Frame) (φ : Name → Option Val → Option Val) : Frame := fun j =>
  if p.kwPos ≤ j then (match p.kwNames[j - p.kwPos]? with | some n => φ n (f j) | none => f j) else f j

theorem kwOver_kwOver (p : Params) (f : Frame) (φ ψ : Name → Option Val → Option Val) :
    kwOver p (kwOver p f φ) ψ = kwOver p f fun n o => ψ n (φ n o) := by
  funext j
  unfold kwOver
  split_ifs with h
  · cases p.kwNames[j - p.kwPos]? <;> simp
  · rfl

theorem storeRun_go (vs : List (Option Val)) : ∀ (f : Frame) (off k : Nat),
    (vs.zipIdx k).foldl (fun f e => Frame.set f (off + e.2) e.1) f
      = fun j => if off + k ≤ j then (match vs[j - (off + k)]? with | some v => v | none => f j) else f j := by
  induction vs with
  | nil => intro f off k; funext j; simp
  | cons v vs ih =>
    intro f off k
    rw [List.zipIdx_cons, List.foldl_cons, ih]
    funext j
    by_cases h1 : off + k ≤ j
    · rw [if_pos h1]
      by_cases h2 : off + (k + 1) ≤ j
      · rw [if_pos h2]
        have : j - (off + k) = (j - (off + (k + 1))) + 1 := by omega
        rw [this, List.getElem?_cons_succ]
        cases vs[j - (off + (k + 1))]?
        · simp only [Frame.set]; rw [if_neg (by omega)]
        · rfl
      · rw [if_neg h2]
        have hj : j = off + k := by omega
        subst hj
        simp [Frame.set]
    · rw [if_neg h1, if_neg (by omega)]
      simp only [Frame.set]; rw [if_neg (by omega)]

theorem storeRun_eq (f : Frame) (off : Nat) (vs : List (Option Val)) :
    storeRun f off vs = fun j => if off ≤ j then (match vs[j - off]? with | some v => v | none => f j) else f j := by
  unfold storeRun; rw [storeRun_go]; simp

theorem storeRun_kw (p : Params) (f : Frame) (φ : Name → Option Val) :
    storeRun f p.kwPos (p.kwNames.map φ) = kwOver p f fun n _ => φ n := by
  rw [storeRun_eq]; funext j; unfold kwOver
  split_ifs with h
  · rw [List.getElem?_map]; cases p.kwNames[j - p.kwPos]? <;> rfl
  · rfl

theorem mapM_ok {α β : Type} (g : α → Except Err β) (φ : α → β) : ∀ (l : List α), (∀ a ∈ l, g a = .ok (φ a)) →
    l.mapM g = .ok (l.map φ)
  | [], _ => rfl
  | a :: l, h => by
    rw [List.mapM_cons, h a (by simp), mapM_ok g φ l (fun b hb => h b (by simp [hb]))]
    rfl

theorem mapM_ok_length {α β : Type} {g : α → Except Err β} : ∀ {l : List α} {r : List β}, l.mapM g = .ok r →
    r.length = l.length
  | [], r, h => by
    have : r = [] := by
      have : (Except.ok [] : Except Err (List β)) = .ok r := h
      cases this; rfl
    subst this; rfl
  | a :: l, r, h => by
    rw [List.mapM_cons] at h
    simp only [bind, Except.bind, pure, Except.pure] at h
    cases ha : g a with
    | error e => rw [ha] at h; cases h
    | ok b =>
      rw [ha] at h
      cases hl : l.mapM g with
      | error e => simp only [hl] at h; cases h
      | ok bs =>
        simp only [hl] at h
        cases h
        simp [mapM_ok_length hl]

theorem mapM_cons_ok {α β : Type} {g : α → Except Err β} {a : α} {l : List α} {r : List β}
    (h : (a :: l).mapM g = .ok r) : ∃ b bs, r = b :: bs ∧ g a = .ok b ∧ l.mapM g = .ok bs := by
  rw [List.mapM_cons] at h
  simp only [bind, Except.bind, pure, Except.pure] at h
  cases ha : g a with
  | error e => rw [ha] at h; cases h
  | ok b =>
    rw [ha] at h
    cases hl : l.mapM g with
    | error e => simp only [hl] at h; cases h
    | ok bs =>
      simp only [hl] at h
      cases h
      exact ⟨b, bs, rfl, rfl, rfl⟩

theorem mapM_append_ok {α β : Type} {g : α → Except Err β} : ∀ {l l' : List α} {r r' : List β},
    l.mapM g = .ok r → l'.mapM g = .ok r' → (l ++ l').mapM g = .ok (r ++ r')
  | [], l', r, r', h, h' => by
    have : (Except.ok [] : Except Err (List β)) = .ok r := h
    cases this; exact h'
  | a :: l, l', r, r', h, h' => by
    obtain ⟨b, bs, rfl, ha, hl⟩ := mapM_cons_ok h
    rw [List.cons_append, List.mapM_cons, ha, mapM_append_ok hl h']
    rfl

/-- Literal keywords as hash entries. -/
def symPairs (l : List (Name × Val)) : List (Key × Val) := l.map fun e => (.sym e.1, e.2)

/-- The literal keywords of the site are `lits`, each name once. -/
structure LitOk (cs : CallSite) (lits : List (Name × Val)) : Prop where
  pairs : cs.kwPairs = .ok lits
  nodup : (cs.kw.map (·.1)).Nodup

theorem kwPairs_go (vals : List Val) : ∀ (kw : List (Name × Nat)) (lits : List (Name × Val)),
    (kw.mapM fun e => match vals[e.2]? with
      | some v => (Except.ok (e.1, v) : Except Err (Name × Val)) | none => .error .ub) = .ok lits →
    kw.map (·.1) = lits.map (·.1) ∧ ∀ n,
      (match (kw.find? fun e => e.1 == n).map (·.2) with
        | none => (Except.ok none : Except Err (Option Val))
        | some i => match vals[i]? with | some v => .ok (some v) | none => .error .ub)
      = .ok (mapGet (symPairs lits) (.sym n))
  | [], lits, h => by
    have : (Except.ok [] : Except Err (List (Name × Val))) = .ok lits := h
    cases this
    exact ⟨rfl, fun n => rfl⟩
  | a :: kw, lits, h => by
    obtain ⟨b, bs, rfl, ha, hl⟩ := mapM_cons_ok h
    obtain ⟨h1, h2⟩ := kwPairs_go vals kw bs hl
    cases hv : vals[a.2]? with
    | none => rw [hv] at ha; cases ha
    | some v =>
      rw [hv] at ha
      cases ha
      refine ⟨by rw [List.map_cons, List.map_cons, h1], fun n => ?_⟩
      have : mapGet (symPairs ((a.1, v) :: bs)) (.sym n) = if a.1 = n then some v else mapGet (symPairs bs) (.sym n) := by
        unfold symPairs; rw [List.map_cons, mapGet_cons]
        simp only [Key.sym.injEq]
      rw [this, List.find?_cons]
      by_cases hn : a.1 = n
      · have : (a.1 == n) = true := by simpa using hn
        rw [this, if_pos hn]
        simp [hv]
      · have : (a.1 == n) = false := by simpa using hn
        rw [this, if_neg hn]
        exact h2 n

theorem LitOk.get {cs : CallSite} {lits : List (Name × Val)} (h : LitOk cs lits) (n : Name) :
    cs.kwGet n = .ok (mapGet (symPairs lits) (.sym n)) := (kwPairs_go cs.kwVals cs.kw lits h.pairs).2 n

theorem LitOk.names {cs : CallSite} {lits : List (Name × Val)} (h : LitOk cs lits) :
    cs.kw.map (·.1) = lits.map (·.1) := (kwPairs_go cs.kwVals cs.kw lits h.pairs).1

theorem LitOk.keys {cs : CallSite} {lits : List (Name × Val)} (h : LitOk cs lits) : NodupKeys (symPairs lits) := by
  have hn := h.nodup
  rw [h.names] at hn
  unfold NodupKeys symPairs
  rw [List.map_map]
  have : ((fun e : Key × Val => e.1) ∘ fun e : Name × Val => (Key.sym e.1, e.2)) = Key.sym ∘ (·.1) := rfl
  rw [this, ← List.map_map]
  exact List.Nodup.map (fun a b h => by cases h; rfl) hn

/-- The entries no declared keyword takes. -/
def undeclared (p : Params) (es : List (Key × Val)) : List (Key × Val) := es.filter fun e => !declared p e.1

/-- How many declared names a map with distinct keys answers, against its size. -/
theorem used_lt (p : Params) (m : List (Key × Val)) (hm : NodupKeys m) (hp : p.kwNames.Nodup) :
    (p.kwNames.filter fun n => (mapGet m (.sym n)).isSome).length < m.length ↔ undeclared p m ≠ [] := by
  have hlen : (p.kwNames.filter fun n => (mapGet m (.sym n)).isSome).length
      = (m.filter fun e => declared p e.1).length := by
    have e1 : ((p.kwNames.filter fun n => (mapGet m (.sym n)).isSome).map Key.sym).Perm
        ((m.filter fun e => declared p e.1).map (·.1)) := by
      rw [List.perm_ext_iff_of_nodup]
      · intro k
        simp only [List.mem_map, List.mem_filter]
        constructor
        · rintro ⟨n, ⟨hn, hs⟩, rfl⟩
          have : mapGet m (.sym n) ≠ none := by intro h; rw [h] at hs; cases hs
          rw [ne_eq, mapGet_eq_none] at this
          simp only [not_forall, not_not] at this
          obtain ⟨e, he, hek⟩ := this
          exact ⟨e, ⟨he, by rw [hek]; simpa [declared] using hn⟩, hek⟩
        · rintro ⟨e, ⟨he, hd⟩, rfl⟩
          cases hk : e.1 with
          | other i => rw [hk] at hd; cases hd
          | sym n =>
            rw [hk] at hd
            refine ⟨n, ⟨by simpa [declared] using hd, ?_⟩, rfl⟩
            rw [Option.isSome_iff_ne_none, ne_eq, mapGet_eq_none]
            intro h; exact h e he hk
      · exact List.Nodup.map (fun a b h => by cases h; rfl) (hp.filter _)
      · exact List.Nodup.sublist (List.Sublist.map _ List.filter_sublist) hm
    have := e1.length_eq
    simpa using this
  rw [hlen]
  have hsum : (m.filter fun e => declared p e.1).length + (undeclared p m).length = m.length := by
    unfold undeclared
    exact (List.length_eq_length_filter_add (l := m) (fun e => declared p e.1)).symm
  constructor
  · intro h h0; rw [h0, List.length_nil] at hsum; omega
  · intro h
    have : 0 < (undeclared p m).length := List.length_pos_iff.mpr h
    omega

theorem undeclared_symPairs (p : Params) (cs : CallSite) (lits : List (Name × Val)) (h : LitOk cs lits) :
    ((cs.kw.filter fun e => !p.kwNames.contains e.1).map fun e => Key.sym e.1)
      = (undeclared p (symPairs lits)).map (·.1) := by
  have h1 : ((cs.kw.filter fun e => !p.kwNames.contains e.1).map fun e => Key.sym e.1)
      = (((cs.kw.map (·.1)).filter fun n => !p.kwNames.contains n).map Key.sym) := by
    rw [List.filter_map, List.map_map]; rfl
  have h2 : (undeclared p (symPairs lits)).map (·.1)
      = (((lits.map (·.1)).filter fun n => !p.kwNames.contains n).map Key.sym) := by
    unfold undeclared symPairs
    rw [List.filter_map, List.map_map, List.filter_map, List.map_map]; rfl
  rw [h1, h2, h.names]

/-- `ordinary_keyword`. -/
theorem ordinaryKeyword_eq (p : Params) (cs : CallSite) (lits : List (Name × Val)) (h : LitOk cs lits)
    (hp : p.kwNames.Nodup) (f : Frame) :
    ordinaryKeyword p cs f = .ok (kwOver p f fun n _ => mapGet (symPairs lits) (.sym n),
      if p.kwRest then [] else (undeclared p (symPairs lits)).map (·.1)) := by
  unfold ordinaryKeyword
  rw [mapM_ok cs.kwGet (fun n => mapGet (symPairs lits) (.sym n)) p.kwNames (fun n _ => h.get n)]
  simp only [bind, Except.bind, pure, Except.pure]
  have hs := storeRun_kw p f fun n => mapGet (symPairs lits) (.sym n)
  unfold storeRun at hs
  rw [hs]
  have hc : (List.filter (fun x => x.isSome) (List.map (fun n => mapGet (symPairs lits) (Key.sym n)) p.kwNames)).length
      = (p.kwNames.filter fun n => (mapGet (symPairs lits) (.sym n)).isSome).length := by
    rw [List.filter_map, List.length_map]; rfl
  have hl : cs.kw.length = (symPairs lits).length := by
    have := congrArg List.length h.names
    simpa [symPairs] using this
  rw [hc, hl]
  have hu := used_lt p (symPairs lits) h.keys hp
  cases p.kwRest with
  | true => simp
  | false =>
    by_cases hlt : (p.kwNames.filter fun n => (mapGet (symPairs lits) (.sym n)).isSome).length < (symPairs lits).length
    · rw [if_pos (by simpa using hlt), undeclared_symPairs p cs lits h]; simp
    · have : undeclared p (symPairs lits) = [] := by
        by_contra hne; exact hlt (hu.mpr hne)
      rw [if_neg (by simpa using hlt), this]; simp

theorem bindFromHash_go (p : Params) (m : List (Key × Val)) : ∀ (ns : List Name) (f : Frame) (k u : Nat),
    (ns.zipIdx k).foldl (fun (a : Frame × Nat) e => match mapGet m (.sym e.1) with
      | some v => (Frame.set a.1 (p.kwPos + e.2) (some v), a.2 + 1)
      | none => (a.1, a.2)) (f, u)
    = (fun j => if p.kwPos + k ≤ j then (match ns[j - (p.kwPos + k)]? with
        | some n => (mapGet m (.sym n)).or (f j) | none => f j) else f j,
       u + (ns.filter fun n => (mapGet m (.sym n)).isSome).length) := by
  intro ns
  induction ns with
  | nil => intro f k u; simp
  | cons n ns ih =>
    intro f k u
    rw [List.zipIdx_cons, List.foldl_cons]
    have fr : ∀ (g : Frame) (hg : ∀ j, j ≠ p.kwPos + k → g j = f j)
        (h0 : g (p.kwPos + k) = (mapGet m (.sym n)).or (f (p.kwPos + k))),
        (fun j => if p.kwPos + (k + 1) ≤ j then (match ns[j - (p.kwPos + (k + 1))]? with
          | some n => (mapGet m (.sym n)).or (g j) | none => g j) else g j)
        = (fun j => if p.kwPos + k ≤ j then (match (n :: ns)[j - (p.kwPos + k)]? with
          | some n => (mapGet m (.sym n)).or (f j) | none => f j) else f j) := by
      intro g hg h0
      funext j
      by_cases h1 : p.kwPos + k ≤ j
      · rw [if_pos h1]
        by_cases h2 : p.kwPos + (k + 1) ≤ j
        · rw [if_pos h2]
          have : j - (p.kwPos + k) = (j - (p.kwPos + (k + 1))) + 1 := by omega
          rw [this, List.getElem?_cons_succ, hg j (by omega)]
        · rw [if_neg h2]
          have hj : j = p.kwPos + k := by omega
          subst hj
          simp [h0]
      · rw [if_neg h1, if_neg (by omega), hg j (by omega)]
    cases hm : mapGet m (.sym n) with
    | none =>
      simp only
      rw [ih]
      rw [hm] at fr
      rw [fr f (fun _ _ => rfl) (by simp), List.filter_cons, hm]
      simp
    | some v =>
      simp only
      rw [ih]
      rw [hm] at fr
      rw [fr (Frame.set f (p.kwPos + k) (some v)) (fun j hj => by simp [Frame.set, hj]) (by simp [Frame.set]),
        List.filter_cons, hm]
      simp; omega

theorem bindFromHash_eq (p : Params) (m : List (Key × Val)) (f : Frame) :
    bindFromHash p m f = (kwOver p f fun n o => (mapGet m (.sym n)).or o,
      (p.kwNames.filter fun n => (mapGet m (.sym n)).isSome).length) := by
  have := bindFromHash_go p m p.kwNames f 0 0
  unfold bindFromHash
  refine Eq.trans (b := List.foldl (fun (a : Frame × Nat) (e : Name × Nat) => match mapGet m (.sym e.1) with
      | some v => (Frame.set a.1 (p.kwPos + e.2) (some v), a.2 + 1)
      | none => (a.1, a.2)) (f, 0) (p.kwNames.zipIdx 0)) rfl ?_
  rw [this]
  simp only [Nat.add_zero, Nat.zero_add]
  rfl

/-- A `**` operand with the entries `m`, keys distinct. -/
theorem bindSplat_eq (p : Params) (f : Frame) (h : Val) (m : List (Key × Val)) (he : entriesOf h = .ok m)
    (hm : NodupKeys m) (hp : p.kwNames.Nodup) :
    bindSplat p f h = .ok (kwOver p f fun n o => (lastVal m (.sym n)).or o,
      if p.kwRest then [] else (undeclared p m).map (·.1)) := by
  have hl : ∀ n, mapGet m (.sym n) = lastVal m (.sym n) := fun n => (lastVal_of_nodup hm _).symm
  cases h with
  | nil =>
    cases he
    unfold bindSplat kwOver
    have : ∀ j, (if p.kwPos ≤ j then (match p.kwNames[j - p.kwPos]? with
        | some n => (lastVal [] (.sym n)).or (f j) | none => f j) else f j) = f j := by
      intro j; split_ifs
      · cases p.kwNames[j - p.kwPos]? <;> simp [lastVal_nil]
      · rfl
    simp only [this, undeclared, List.filter_nil, List.map_nil, ite_self]
  | hash m' fl =>
    cases he
    unfold bindSplat
    simp only [bindFromHash_eq, hl]
    have hu := used_lt p m hm hp
    simp only [hl] at hu
    cases p.kwRest with
    | true => simp
    | false =>
      by_cases hlt : (p.kwNames.filter fun n => (lastVal m (.sym n)).isSome).length < m.length
      · rw [if_pos (by simp only [Bool.not_false, Bool.and_true, decide_eq_true_eq]; omega)]; rfl
      · have : undeclared p m = [] := by
          by_contra hne; exact hlt (hu.mpr hne)
        rw [if_neg (by simp only [Bool.not_false, Bool.and_true, decide_eq_true_eq]; omega), this]; simp
  | atom _ => cases he
  | obj _ => cases he
  | arr _ => cases he

theorem undeclared_append (p : Params) (a b : List (Key × Val)) :
    undeclared p (a ++ b) = undeclared p a ++ undeclared p b := by
  unfold undeclared; exact List.filter_append ..

theorem bindSplats_eq (p : Params) (hp : p.kwNames.Nodup) : ∀ (hs : List Val) (f : Frame)
    (es : List (List (Key × Val))), hs.mapM entriesOf = .ok es → (∀ m ∈ es, NodupKeys m) →
    bindSplats p f hs = .ok (kwOver p f fun n o => (lastVal es.flatten (.sym n)).or o,
      if p.kwRest then [] else (undeclared p es.flatten).map (·.1))
  | [], f, es, h, _ => by
    have : (Except.ok [] : Except Err (List (List (Key × Val)))) = .ok es := h
    cases this
    unfold bindSplats kwOver
    have : ∀ j, (if p.kwPos ≤ j then (match p.kwNames[j - p.kwPos]? with
        | some n => (lastVal [] (.sym n)).or (f j) | none => f j) else f j) = f j := by
      intro j; split_ifs
      · cases p.kwNames[j - p.kwPos]? <;> simp [lastVal_nil]
      · rfl
    simp only [this, undeclared, List.flatten_nil, List.filter_nil, List.map_nil, ite_self]
  | a :: hs, f, es, h, hn => by
    obtain ⟨m, es', rfl, ha, hl⟩ := mapM_cons_ok h
    unfold bindSplats
    rw [bindSplat_eq p f a m ha (hn m (by simp)) hp]
    simp only [bind, Except.bind, pure, Except.pure]
    rw [bindSplats_eq p hp hs _ es' hl (fun m hm => hn m (by simp [hm])), List.flatten_cons,
      kwOver_kwOver, undeclared_append]
    simp only [lastVal_append, Option.or_assoc]
    cases p.kwRest <;> simp

theorem removeNames (ns : List Name) : ∀ (m : List (Key × Val)),
    ns.foldl (fun m n => mapRemove m (.sym n)) m
      = m.filter fun e => !(match e.1 with | .sym n => ns.contains n | .other _ => false) := by
  induction ns with
  | nil =>
    intro m; symm; rw [List.foldl_nil, List.filter_eq_self]
    intro e _; cases e.1 <;> simp
  | cons n ns ih =>
    intro m
    rw [List.foldl_cons, ih, mapRemove, List.filter_filter]
    apply List.filter_congr
    intro e _
    cases hk : e.1 with
    | other i => simp
    | sym i =>
      have : (Key.sym i == Key.sym n) = (i == n) := by
        by_cases h : i = n
        · simp [h]
        · have : (i == n) = false := by simpa using h
          rw [this]; simpa using h
      rw [this]
      simp only [List.contains_cons]
      cases (i == n) <;> simp

theorem removeNames_eq (p : Params) (m : List (Key × Val)) :
    p.kwNames.foldl (fun m n => mapRemove m (.sym n)) m = undeclared p m := by
  rw [removeNames]; unfold undeclared declared
  apply List.filter_congr; intro e _; cases e.1 <;> rfl

theorem kwRestAdd_eq (p : Params) : ∀ (hs : List Val) (es : List (List (Key × Val))) (acc : List (Key × Val)),
    hs.mapM entriesOf = .ok es →
    hs.foldlM (kwRestAdd p) acc = .ok (mapInsertAll acc (undeclared p es.flatten))
  | [], es, acc, h => by
    have : (Except.ok [] : Except Err (List (List (Key × Val)))) = .ok es := h
    cases this; rfl
  | a :: hs, es, acc, h => by
    obtain ⟨m, es', rfl, ha, hl⟩ := mapM_cons_ok h
    rw [List.foldlM_cons]
    have : kwRestAdd p acc a = .ok (mapInsertAll acc (undeclared p m)) := by
      cases a with
      | nil => cases ha; rfl
      | hash m' fl => cases ha; unfold kwRestAdd; simp only [removeNames_eq]
      | atom _ => cases ha
      | obj _ => cases ha
      | arr _ => cases ha
    rw [this]
    simp only [bind, Except.bind]
    rw [kwRestAdd_eq p hs es' _ hl, List.flatten_cons, undeclared_append, mapInsertAll_append]

theorem symFold (p : Params) : ∀ (l : List (Name × Val)) (acc : List (Key × Val)),
    (l.filter fun e => !p.kwNames.contains e.1).foldl (fun m e => mapInsert m (.sym e.1) e.2) acc
      = mapInsertAll acc (undeclared p (symPairs l)) := by
  intro l acc
  unfold undeclared symPairs mapInsertAll
  rw [List.filter_map, List.foldl_map]; rfl

/-- The required keywords nothing was passed for. -/
def missingOf (p : Params) (all : List (Key × Val)) : List Name :=
  (p.kwNames.zipIdx.filter fun e => p.kwIsRequired e.2 && (lastVal all (.sym e.1)).isNone).map (·.1)

/-- The frame after keyword binding. -/
def kwFrame (p : Params) (f : Frame) (all : List (Key × Val)) (present : Bool) : Frame :=
  let g := kwOver p f fun n _ => lastVal all (.sym n)
  if p.kwRest then
    g.set p.kwRestPos (some (if present then .hash (mapInsertAll [] (undeclared p all)) false else .nil))
  else g

/-- The result of keyword binding. -/
def kwBind (p : Params) (f : Frame) (all : List (Key × Val)) (present : Bool) : Except Err Frame :=
  if missingOf p all ≠ [] then .error (.missing (missingOf p all))
  else if !p.kwRest && !(undeclared p all).isEmpty then .error (.unknown ((undeclared p all).map (·.1)))
  else .ok (kwFrame p f all present)

theorem missingNames_eq (p : Params) (g : Frame) (all : List (Key × Val))
    (h : ∀ i n, p.kwNames[i]? = some n → g (p.kwPos + i) = lastVal all (.sym n)) :
    missingNames p g = missingOf p all := by
  unfold missingNames missingOf
  congr 1
  apply List.filter_congr
  intro e he
  have := List.mem_zipIdx' he
  rw [h e.2 e.1 ((List.getElem?_eq_getElem this.1).trans (congrArg some this.2.symm))]

theorem kwOver_at (p : Params) (f : Frame) (φ : Name → Option Val → Option Val) (i : Nat) (n : Name)
    (h : p.kwNames[i]? = some n) : kwOver p f φ (p.kwPos + i) = φ n (f (p.kwPos + i)) := by
  unfold kwOver; rw [if_pos (by omega)]; simp [h]

theorem getElem?_lt {α : Type} {l : List α} {i : Nat} {a : α} (h : l[i]? = some a) : i < l.length := by
  by_contra hc
  rw [List.getElem?_eq_none (by omega)] at h; cases h

theorem checkMissing_eq (p : Params) (g : Frame) (all : List (Key × Val))
    (h : ∀ i n, p.kwNames[i]? = some n → g (p.kwPos + i) = lastVal all (.sym n)) :
    checkMissing p g = if missingOf p all ≠ [] then .error (.missing (missingOf p all)) else .ok () := by
  unfold checkMissing
  rw [missingNames_eq p g all h]
  cases missingOf p all <;> simp

/-- `handle_keyword` for a callee with keyword parameters. -/
theorem handleKeyword_eq (p : Params) (cs : CallSite) (lits : List (Name × Val)) (extra : Option Val)
    (es : List (List (Key × Val))) (f : Frame) (h : LitOk cs lits)
    (he : (cs.hs ++ extra.toList).mapM entriesOf = .ok es) (hes : ∀ m ∈ es, NodupKeys m)
    (hp : p.kwNames.Nodup) (hnk : p.noKeyword = false) (hf : p.forbidKw = false) :
    handleKeyword p cs extra f
      = kwBind p f (symPairs lits ++ es.flatten) (cs.kwMayExist || extra.isSome) := by
  unfold handleKeyword hashSplatAndKwRest
  rw [ordinaryKeyword_eq p cs lits h hp, hf, hnk]
  simp only [bind, Except.bind, pure, Except.pure, Bool.false_eq_true, if_false]
  rw [bindSplats_eq p hp _ _ es he hes, kwOver_kwOver]
  simp only [Option.or_none]
  have hφ : (fun n (_ : Option Val) => (lastVal es.flatten (.sym n)).or (mapGet (symPairs lits) (.sym n)))
      = fun n _ => lastVal (symPairs lits ++ es.flatten) (.sym n) := by
    funext n _; rw [lastVal_append, lastVal_of_nodup h.keys]
  rw [hφ]
  unfold kwBind kwFrame
  rw [undeclared_append]
  cases hk : p.kwRest with
  | false =>
    simp only [Bool.false_eq_true, if_false]
    rw [checkMissing_eq p _ (symPairs lits ++ es.flatten) (fun i n hi => kwOver_at p f _ i n hi)]
    by_cases hm : missingOf p (symPairs lits ++ es.flatten) = []
    · simp only [hm, ne_eq, not_true_eq_false, if_false]
      simp only [throw, throwThe, MonadExceptOf.throw, MonadExcept.throw]
      by_cases hu : undeclared p (symPairs lits) ++ undeclared p es.flatten = []
      · rw [hu]; simp only [List.append_eq_nil_iff] at hu; simp [hu.1, hu.2]
      · rw [if_neg, if_pos, List.map_append]
        · simp only [Bool.not_false, Bool.true_and, Bool.not_eq_true']
          exact List.isEmpty_eq_false_iff.mpr hu
        · rw [← List.map_append, List.isEmpty_iff, List.map_eq_nil_iff]; exact hu
    · simp only [ne_eq, hm, not_false_eq_true, if_true]
  | true =>
    have hslot : ∀ (v : Option Val) (i : Nat) (n : Name), p.kwNames[i]? = some n →
        (Frame.set (kwOver p f fun n _ => lastVal (symPairs lits ++ es.flatten) (.sym n)) p.kwRestPos v) (p.kwPos + i)
          = lastVal (symPairs lits ++ es.flatten) (.sym n) := by
      intro v i n hi
      have := getElem?_lt hi
      simp only [Frame.set]
      rw [if_neg (by unfold Params.kwPos Params.kwRestPos; omega)]
      exact kwOver_at p f _ i n hi
    by_cases hpres : (cs.kwMayExist || extra.isSome) = true
    · have hc : (!cs.kwMayExist && extra.isNone) = false := by
        cases h1 : cs.kwMayExist <;> cases extra <;> simp_all
      rw [hpres, hc]
      simp only [Bool.false_eq_true, if_false, if_true, h.pairs]
      rw [kwRestAdd_eq p _ es _ he]
      simp only [List.append_nil]
      rw [checkMissing_eq p _ (symPairs lits ++ es.flatten) (hslot _), symFold, ← mapInsertAll_append]
      by_cases hm : missingOf p (symPairs lits ++ es.flatten) = []
      · simp only [hm, ne_eq, not_true_eq_false, if_false]
        simp
      · simp only [ne_eq, hm, not_false_eq_true, if_true]
    · have hpres' : (cs.kwMayExist || extra.isSome) = false := by simpa using hpres
      have hc : (!cs.kwMayExist && extra.isNone) = true := by
        cases h1 : cs.kwMayExist <;> cases extra <;> simp_all
      rw [hpres', hc]
      simp only [Bool.false_eq_true, if_false, if_true]
      rw [checkMissing_eq p _ (symPairs lits ++ es.flatten) (hslot _)]
      by_cases hm : missingOf p (symPairs lits ++ es.flatten) = []
      · simp only [hm, ne_eq, not_true_eq_false, if_false]
        simp
      · simp only [ne_eq, hm, not_false_eq_true, if_true]

end Verif.Args
