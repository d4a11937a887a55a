import Verif.Args.Core

/-! Helper lemmas: distribution of a list over the positional parameters, and the keywords of a call as written. -/
namespace Verif.Args

/-- The list is distributed over the positional parameters: the required ones first, then the optional ones from the
left, then `*rest`, then the required ones behind it. -/
def Placed (p : Params) (g : Frame) (l : List Val) : Prop :=
  ∃ rq os rs ps, l = rq ++ (os ++ (rs ++ ps)) ∧ rq.length = p.req ∧ ps.length = p.post ∧ os.length ≤ p.opt ∧
    (os.length < p.opt → rs = []) ∧ (p.rest = .none → rs = []) ∧
    (∀ i, i < p.req → g i = rq[i]?) ∧
    (∀ i, i < p.opt → g (p.req + i) = os[i]?) ∧
    (p.rest ≠ .none → g (p.req + p.opt) = some (.arr rs)) ∧
    (∀ i, i < p.post → g (p.req + p.opt + (if p.rest = .none then 0 else 1) + i) = ps[i]?)

/-- The arguments of a block after padding with `nil` or, without `*rest`, dropping the surplus. -/
def blockArgs (p : Params) (l : List Val) : List Val :=
  let padded := l ++ List.replicate (p.req + p.post - l.length) .nil
  if p.rest = .none then padded.take (p.req + p.opt + p.post) else padded

theorem isRest_iff (p : Params) : p.isRest = true ↔ p.rest ≠ .none := by
  unfold Params.isRest; cases p.rest <;> simp

theorem placed_congr {p : Params} {g g' : Frame} {l : List Val} (h : ∀ i, i < p.total → g i = g' i) (hp : Placed p g' l) :
    Placed p g l := by
  obtain ⟨rq, os, rs, ps, h0, h1, h2, h3, h4, h5, h6, h7, h8, h9⟩ := hp
  have ht : p.total = p.req + p.opt + p.post + (if p.rest = .none then 0 else 1) := by
    unfold Params.total Params.max
    have := isRest_iff p
    by_cases hr : p.rest = .none
    · have : p.isRest = false := by rw [← Bool.not_eq_true, this]; simpa using hr
      simp [hr, this]
    · simp [hr, this.mpr hr]
  refine ⟨rq, os, rs, ps, h0, h1, h2, h3, h4, h5, ?_, ?_, ?_, ?_⟩
  · intro i hi; rw [h i (by omega)]; exact h6 i hi
  · intro i hi; rw [h _ (by omega)]; exact h7 i hi
  · intro hr; rw [h _ (by rw [if_neg hr] at ht; omega)]; exact h8 hr
  · intro i hi; rw [h _ (by omega)]; exact h9 i hi

theorem getElem?_getD (l : List Val) (i : Nat) (h : i < l.length) : some (l.getD i .nil) = l[i]? := by
  simp [List.getD, List.getElem?_eq_getElem h]

theorem placed_bound (p : Params) (f : Frame) (l : List Val) (h1 : p.min ≤ l.length)
    (h2 : l.length ≤ p.max ∨ p.isRest = true) :
    Placed p (bound p f (fun i => l.getD i .nil) l.length) l := by
  have hmin : p.min = p.req + p.post := rfl
  have hmax : p.max = p.req + p.opt + p.post := rfl
  have hro : p.reqopt = p.req + p.opt := rfl
  have ht : p.total = p.req + p.opt + p.post + (if p.rest = .none then 0 else 1) := by
    unfold Params.total Params.max
    have := isRest_iff p
    by_cases hr : p.rest = .none
    · have : p.isRest = false := by rw [← Bool.not_eq_true, this]; simpa using hr
      simp [hr, this]
    · simp [hr, this.mpr hr]
  have hpp : p.postPos = p.req + p.opt + (if p.rest = .none then 0 else 1) := by
    unfold Params.postPos Params.reqopt
    have := isRest_iff p
    by_cases hr : p.rest = .none
    · have : p.isRest = false := by rw [← Bool.not_eq_true, this]; simpa using hr
      simp [hr, this]
    · simp [hr, this.mpr hr]
  obtain ⟨k, hk⟩ : ∃ k, k = min (l.length - p.min) p.opt := ⟨_, rfl⟩
  have hrest0 : p.rest = .none → l.length - p.min - k = 0 := by
    intro hr
    rcases h2 with h2 | h2
    · omega
    · exact absurd hr ((isRest_iff p).mp h2)
  refine ⟨l.take p.req, (l.drop p.req).take k, (l.drop (p.req + k)).take (l.length - p.min - k),
    l.drop (l.length - p.post), ?_, ?_, ?_, ?_, ?_, ?_, ?_, ?_, ?_, ?_⟩
  · have e1 : l.drop (l.length - p.post) = (l.drop (p.req + k)).drop (l.length - p.min - k) := by
      rw [List.drop_drop]; congr 1; omega
    rw [e1, List.take_append_drop]
    have e2 : l.drop (p.req + k) = (l.drop p.req).drop k := by rw [List.drop_drop]
    rw [e2, List.take_append_drop, List.take_append_drop]
  · rw [List.length_take]; omega
  · rw [List.length_drop]; omega
  · rw [List.length_take, List.length_drop]; omega
  · intro h
    rw [List.length_take, List.length_drop] at h
    have : l.length - p.min - k = 0 := by omega
    rw [this, List.take_zero]
  · intro hr; rw [hrest0 hr, List.take_zero]
  · intro i hi
    simp only [bound, slotAt]
    rw [if_pos (by omega), if_pos hi, getElem?_getD l i (by omega), List.getElem?_take, if_pos hi]
  · intro i hi
    simp only [bound, slotAt, ← hk]
    rw [if_pos (by omega), if_neg (by omega), if_pos (by omega), List.getElem?_take]
    split_ifs with a b b
    · rw [getElem?_getD l _ (by omega), List.getElem?_drop]
    · omega
    · omega
    · rfl
  · intro hr
    have hR := (isRest_iff p).mpr hr
    rw [if_neg hr] at ht
    simp only [bound, slotAt, ← hk]
    rw [if_pos (by omega), if_neg (by omega), if_neg (by omega), if_pos ⟨hR, rfl⟩]
    congr 2
    apply List.ext_getElem
    · simp only [List.length_map, List.length_range, List.length_take, List.length_drop]; omega
    · intro i a b
      simp only [List.length_map, List.length_range] at a
      simp only [List.getElem_map, List.getElem_range, List.getElem_take, List.getElem_drop]
      rw [List.getD_eq_getElem?_getD, List.getElem?_eq_getElem (by omega)]; rfl
  · intro i hi
    simp only [bound, slotAt]
    rw [if_pos (by omega), if_neg (by omega), if_neg (by split_ifs <;> omega)]
    rw [if_neg (by
      rintro ⟨hR, he⟩
      rw [if_neg ((isRest_iff p).mp hR)] at he; omega)]
    rw [List.getElem?_drop, getElem?_getD l _ (by omega)]
    congr 1; omega

theorem slotAt_congr (p : Params) (g g' : Nat → Val) (n i : Nat) (h1 : p.min ≤ n) (h2 : n ≤ p.max ∨ p.isRest = true)
    (hi : i < p.total) (h : ∀ j, j < n → g j = g' j) : slotAt p g n i = slotAt p g' n i := by
  have hmin : p.min = p.req + p.post := rfl
  have hmax : p.max = p.req + p.opt + p.post := rfl
  have hro : p.reqopt = p.req + p.opt := rfl
  have hpp : p.postPos = p.req + p.opt + (if p.isRest then 1 else 0) := rfl
  have ht : p.total = p.max + (if p.isRest then 1 else 0) := rfl
  unfold slotAt
  simp only
  split_ifs with a b c d
  · rw [h i (by omega)]
  · rw [h i (by omega)]
  · rfl
  · congr 2
    apply List.map_congr_left
    intro j hj
    rw [List.mem_range] at hj
    exact h _ (by omega)
  · rw [h]
    by_cases hR : p.isRest = true
    · rw [if_pos hR] at hpp ht
      have : ¬ i = p.reqopt := fun he => d ⟨hR, he⟩
      omega
    · rw [if_neg hR] at hpp ht
      omega

theorem blockArgs_length (p : Params) (l : List Val) (hb : p.blockStyle = true) :
    (blockArgs p l).length = effN p l.length ∧ p.min ≤ effN p l.length ∧ (effN p l.length ≤ p.max ∨ p.isRest = true) := by
  have hmin : p.min = p.req + p.post := rfl
  have hmax : p.max = p.req + p.opt + p.post := rfl
  unfold blockArgs effN
  rw [if_pos hb]
  by_cases hr : p.rest = .none
  · have hR : p.isRest = false := by rw [← Bool.not_eq_true, isRest_iff]; simpa using hr
    rw [if_pos hr, hR]
    simp only [Bool.false_eq_true, if_false, List.length_take, List.length_append, List.length_replicate]
    split_ifs <;> omega
  · have hR := (isRest_iff p).mpr hr
    rw [if_neg hr, hR]
    simp only [if_true, List.length_append, List.length_replicate, or_true, and_true]
    split_ifs <;> omega

theorem blockArgs_getD (p : Params) (l : List Val) (hb : p.blockStyle = true) (j : Nat) (hj : j < effN p l.length) :
    (blockArgs p l).getD j .nil = l.getD j .nil := by
  have hl := (blockArgs_length p l hb).1
  have e : (blockArgs p l)[j]? = (l ++ List.replicate (p.req + p.post - l.length) Val.nil)[j]? := by
    unfold blockArgs at hl ⊢
    simp only at hl ⊢
    split_ifs with h
    · rw [if_pos h, List.length_take] at hl
      rw [List.getElem?_take, if_pos (by omega)]
    · rfl
  rw [List.getD_eq_getElem?_getD, e, List.getD_eq_getElem?_getD]
  by_cases h : j < l.length
  · rw [List.getElem?_append_left h]
  · rw [List.getElem?_append_right (by omega), List.getElem?_eq_none (l := l) (by omega)]
    rw [List.getElem?_replicate]
    split_ifs <;> rfl

/-- Binding succeeds with the list placed, or the count is wrong. -/
theorem bindL_method (p : Params) (f : Frame) (l : List Val) (hb : p.blockStyle = false) :
    ((l.length < p.req + p.post ∨ (p.req + p.opt + p.post < l.length ∧ p.rest ≠ .explicit)) →
      bindL p f l = .error (.arity l.length (p.req + p.post) (p.req + p.opt + p.post))) ∧
    (p.req + p.post ≤ l.length → (l.length ≤ p.req + p.opt + p.post ∨ p.rest = .explicit) →
      ∃ g, bindL p f l = .ok g ∧ Placed p g l ∧ ∀ i, p.total ≤ i → g i = f i) := by
  have hmin : p.min = p.req + p.post := rfl
  have hmax : p.max = p.req + p.opt + p.post := rfl
  have hex : p.isExplicitRest = true ↔ p.rest = .explicit := by
    unfold Params.isExplicitRest; cases p.rest <;> simp
  constructor
  · intro h
    unfold bindL badArity
    rw [if_pos]; · rfl
    rw [hb]
    simp only [Bool.not_false, Bool.true_and, Bool.or_eq_true, Bool.and_eq_true, decide_eq_true_eq, Bool.not_eq_true']
    rcases h with h | h
    · left; omega
    · right; exact ⟨by omega, by rw [← Bool.not_eq_true, hex]; exact h.2⟩
  · intro h1 h2
    have hE : effN p l.length = l.length := by unfold effN; rw [hb]; rfl
    refine ⟨boundL p f l, ?_, ?_, ?_⟩
    · unfold bindL badArity
      rw [if_neg]
      rw [hb]
      simp only [Bool.not_false, Bool.true_and, Bool.or_eq_true, Bool.and_eq_true, decide_eq_true_eq, Bool.not_eq_true']
      rintro (h | ⟨h, hx⟩)
      · omega
      · rcases h2 with h2 | h2
        · omega
        · rw [hex.mpr h2] at hx; cases hx
    · unfold boundL; rw [hE]
      apply placed_bound
      · omega
      · rcases h2 with h2 | h2
        · left; omega
        · right; rw [isRest_iff, h2]; simp
    · intro i hi
      unfold boundL bound; rw [if_neg (by omega)]

/-- Binding to a block always succeeds. -/
theorem bindL_block (p : Params) (f : Frame) (l : List Val) (hb : p.blockStyle = true) :
    ∃ g, bindL p f l = .ok g ∧ Placed p g (blockArgs p l) ∧ ∀ i, p.total ≤ i → g i = f i := by
  refine ⟨boundL p f l, ?_, ?_, ?_⟩
  · unfold bindL badArity; rw [hb]; rfl
  · obtain ⟨h1, h2, h3⟩ := blockArgs_length p l hb
    have := placed_bound p f (blockArgs p l) (by rw [h1]; exact h2) (by rw [h1]; exact h3)
    apply placed_congr _ this
    intro i hi
    unfold boundL bound
    rw [if_pos hi, if_pos hi, h1]
    exact slotAt_congr p _ _ _ i h2 h3 hi (fun j hj => (blockArgs_getD p l hb j hj).symm)
  · intro i hi
    unfold boundL bound; rw [if_neg (by omega)]

theorem expandArgs_nil (args : List Val) (splat : List Nat) (h : splat = []) (n : Nat) :
    ((args.zipIdx n).map fun e => expandArg splat e.2 e.1).flatten = args := by
  subst h
  induction args generalizing n with
  | nil => rfl
  | cons a args ih => rw [List.zipIdx_cons, List.map_cons, List.flatten_cons, ih]; rfl

theorem posOf_plain (W : World) (p : Params) (cs : CallSite) (ex : Option Val) (h1 : p.singleArgExpand = false)
    (h2 : cs.splat = []) : posOf W p cs ex = .ok (cs.args ++ ex.toList, none) := by
  unfold posOf toAryStep expandStep
  rw [h1, h2]
  simp only [bind, Except.bind, pure, Except.pure, Bool.false_and, Bool.false_eq_true, if_false, List.isEmpty_nil,
    Bool.true_and, Bool.not_true, Bool.and_false]
  cases ex with
  | none => simp
  | some v =>
    simp only [Option.isNone_some, Bool.false_eq_true, if_false]
    unfold expandArgs
    rw [expandArgs_nil cs.args cs.splat h2]

/-! ### Keywords as written -/

/-- The entries a `**` operand stands for. -/
inductive Entries (W : World) : Val → List (Key × Val) → Prop
  | nil : Entries W .nil []
  | hash (m fl) : Entries W (.hash m fl) m
  | conv (n m fl) : W.toHash n = .gives (.hash m fl) → Entries W (.obj n) m

/-- The keyword pairs of a call, in the order they are written. -/
inductive Written (W : World) : List KwItem → List (Key × Val) → Prop
  | nil : Written W [] []
  | lit (n v is ps) : Written W is ps → Written W (.lit n v :: is) ((.sym n, v) :: ps)
  | splat (h m is ps) : Entries W h m → (m.map (·.1)).Nodup → Written W is ps → Written W (.splat h :: is) (m ++ ps)

/-- No literal keyword comes after a `**` operand that has the same key. -/
def Orderly (W : World) : List KwItem → Prop
  | [] => True
  | .lit _ _ :: is => Orderly W is
  | .splat h :: is => (∀ n v, KwItem.lit n v ∈ is → ∀ m, Entries W h m → ∀ w, (Key.sym n, w) ∉ m) ∧ Orderly W is

/-- The value of the last pair for a key. -/
def IsLast (ps : List (Key × Val)) (k : Key) (v : Val) : Prop :=
  ∃ a b, ps = a ++ (k, v) :: b ∧ ∀ e ∈ b, e.1 ≠ k

theorem lastVal_iff (ps : List (Key × Val)) (k : Key) (v : Val) : lastVal ps k = some v ↔ IsLast ps k v := by
  induction ps with
  | nil => simp [lastVal_nil, IsLast]
  | cons e ps ih =>
    rw [lastVal_cons]
    constructor
    · intro h
      cases hl : lastVal ps k with
      | some w =>
        rw [hl] at h
        simp only [Option.some_or, Option.some.injEq] at h
        subst h
        obtain ⟨a, b, rfl, hb⟩ := ih.mp hl
        exact ⟨e :: a, b, rfl, hb⟩
      | none =>
        rw [hl] at h
        simp only [Option.none_or] at h
        split_ifs at h with hk
        · cases h
          exact ⟨[], ps, by rw [List.nil_append, ← hk], lastVal_eq_none.mp hl⟩
    · rintro ⟨a, b, hab, hb⟩
      cases a with
      | nil =>
        rw [List.nil_append, List.cons.injEq] at hab
        have : lastVal ps k = none := by rw [lastVal_eq_none, hab.2]; exact hb
        rw [this, hab.1]; simp
      | cons c a =>
        rw [List.cons_append, List.cons.injEq] at hab
        rw [ih.mpr ⟨a, b, hab.2, hb⟩]; rfl

def litItems (items : List KwItem) : List (Name × Val) :=
  items.filterMap fun | .lit n v => some (n, v) | .splat _ => none

def splatItems (items : List KwItem) : List Val :=
  items.filterMap fun | .lit _ _ => none | .splat v => some v

/-- Literal keyword table of a call site: the entries it stands for. -/
def resolve (vals : List Val) (m : List (Name × Nat)) : List (Key × Val) :=
  m.map fun e => (.sym e.1, vals.getD e.2 .nil)

theorem resolve_insert (vals : List Val) (m : List (Name × Nat)) (n : Name) (i : Nat) :
    resolve vals (kwInsert m n i) = mapInsert (resolve vals m) (.sym n) (vals.getD i .nil) := by
  unfold kwInsert mapInsert
  have ha : ((resolve vals m).any fun e => e.1 == Key.sym n) = (m.any fun e => e.1 == n) := by
    unfold resolve; rw [List.any_map]; congr 1; funext e
    simp only [Function.comp]
    by_cases h : e.1 = n
    · simp [h]
    · have : (e.1 == n) = false := by simpa using h
      rw [this]; simpa using h
  rw [ha]
  split_ifs
  · unfold resolve
    rw [List.map_map, List.map_map]
    apply List.map_congr_left
    intro e _
    simp only [Function.comp]
    by_cases h : e.1 = n
    · simp [h]
    · have h1 : (e.1 == n) = false := by simpa using h
      have h2 : (Key.sym e.1 == Key.sym n) = false := by simpa using h
      rw [h1, h2]; rfl
  · unfold resolve; rw [List.map_append]; rfl

theorem kwInsert_mem {m : List (Name × Nat)} {n : Name} {i : Nat} {e : Name × Nat} (h : e ∈ kwInsert m n i) :
    e.2 = i ∨ e ∈ m := by
  unfold kwInsert at h
  split_ifs at h
  · rw [List.mem_map] at h
    obtain ⟨a, ha, rfl⟩ := h
    split_ifs
    · left; rfl
    · right; exact ha
  · rw [List.mem_append, List.mem_singleton] at h
    rcases h with h | h
    · right; exact h
    · left; rw [h]

theorem compile_go : ∀ (lits : List (Name × Val)) (pre : List Val) (acc : List (Name × Nat)) (vals : List Val),
    vals = pre ++ lits.map (·.2) → (∀ e ∈ acc, e.2 < vals.length) →
    (∀ e ∈ (lits.zipIdx pre.length).foldl (fun m e => kwInsert m e.1.1 e.2) acc, e.2 < vals.length) ∧
    resolve vals ((lits.zipIdx pre.length).foldl (fun m e => kwInsert m e.1.1 e.2) acc)
      = mapInsertAll (resolve vals acc) (symPairs lits)
  | [], _, _, _, _, h => ⟨h, rfl⟩
  | a :: lits, pre, acc, vals, hv, h => by
    have hl : vals.length = pre.length + (lits.length + 1) := by rw [hv]; simp
    have hacc : ∀ e ∈ kwInsert acc a.1 pre.length, e.2 < vals.length := by
      intro e he
      rcases kwInsert_mem he with h' | h'
      · omega
      · exact h e h'
    have := compile_go lits (pre ++ [a.2]) (kwInsert acc a.1 pre.length) vals (by rw [hv]; simp) hacc
    rw [List.length_append, List.length_singleton] at this
    rw [List.zipIdx_cons, List.foldl_cons]
    refine ⟨this.1, ?_⟩
    rw [this.2, resolve_insert]
    have hg : vals.getD pre.length .nil = a.2 := by rw [hv]; simp [List.getD]
    rw [hg]; rfl

/-- The literal keywords of a compiled site. -/
theorem ofSource_lit (args : List Val) (splat : List Nat) (items : List KwItem) :
    ∃ lits, LitOk (CallSite.ofSource args splat items) lits ∧
      symPairs lits = mapInsertAll [] (symPairs (litItems items)) := by
  have hc := compile_go (litItems items) [] [] ((litItems items).map (·.2)) (by simp) (by simp)
  obtain ⟨h1, h2⟩ := hc
  have hkw : (CallSite.ofSource args splat items).kw
      = ((litItems items).zipIdx 0).foldl (fun m e => kwInsert m e.1.1 e.2) [] := rfl
  have hvals : (CallSite.ofSource args splat items).kwVals = (litItems items).map (·.2) := rfl
  rw [List.length_nil, ← hkw] at h1 h2
  rw [← hvals] at h1 h2
  generalize CallSite.ofSource args splat items = cs at *
  refine ⟨cs.kw.map fun e => (e.1, cs.kwVals.getD e.2 .nil), ⟨?_, ?_⟩, ?_⟩
  · unfold CallSite.kwPairs
    apply mapM_ok
    intro e he
    have := h1 e he
    rw [List.getElem?_eq_getElem this, List.getD_eq_getElem?_getD, List.getElem?_eq_getElem this]
    rfl
  · have hn : NodupKeys (resolve cs.kwVals cs.kw) := by
      rw [h2]; exact NodupKeys.insertAll _ nodupKeys_nil
    unfold NodupKeys resolve at hn
    rw [List.map_map] at hn
    have : ((fun e : Key × Val => e.1) ∘ fun e : Name × Nat => (Key.sym e.1, cs.kwVals.getD e.2 .nil))
        = Key.sym ∘ (·.1) := rfl
    rw [this, ← List.map_map] at hn
    exact List.Nodup.of_map _ hn
  · rw [← show resolve cs.kwVals [] = [] from rfl, ← h2]
    unfold symPairs resolve; rw [List.map_map]; rfl

theorem entries_model {W : World} {h : Val} {m : List (Key × Val)} (he : Entries W h m) :
    ∃ v, coerceHashSplat W h = .ok v ∧ entriesOf v = .ok m := by
  cases he with
  | nil => exact ⟨.nil, rfl, rfl⟩
  | hash _ fl => exact ⟨.hash m fl, rfl, rfl⟩
  | conv n _ fl hc => exact ⟨.hash m fl, by simp [coerceHashSplat, hc], rfl⟩

theorem written_splats {W : World} {items : List KwItem} {ps : List (Key × Val)} (h : Written W items ps) :
    ∃ hs es, (splatItems items).mapM (coerceHashSplat W) = .ok hs ∧ hs.mapM entriesOf = .ok es ∧
      (∀ m ∈ es, NodupKeys m) ∧
      (∀ e, e ∈ ps ↔ e ∈ symPairs (litItems items) ++ es.flatten) ∧
      (Orderly W items → ∀ k, lastVal (symPairs (litItems items) ++ es.flatten) k = lastVal ps k) := by
  induction h with
  | nil => exact ⟨[], [], rfl, rfl, by simp, by simp [litItems, symPairs], fun _ k => rfl⟩
  | lit n v is ps _ ih =>
    obtain ⟨hs, es, h1, h2, h3, h4, h5⟩ := ih
    refine ⟨hs, es, h1, h2, h3, ?_, ?_⟩
    · intro e
      rw [List.mem_cons, h4 e]
      have : symPairs (litItems (.lit n v :: is)) = (.sym n, v) :: symPairs (litItems is) := rfl
      rw [this, List.cons_append, List.mem_cons]
    · intro ho k
      have : symPairs (litItems (.lit n v :: is)) = (.sym n, v) :: symPairs (litItems is) := rfl
      rw [this, List.cons_append, lastVal_cons, lastVal_cons, h5 ho k]
  | splat h m is ps he hm _ ih =>
    obtain ⟨hs, es, h1, h2, h3, h4, h5⟩ := ih
    obtain ⟨v, hv, hv'⟩ := entries_model he
    have hl : litItems (.splat h :: is) = litItems is := rfl
    refine ⟨v :: hs, m :: es, ?_, ?_, ?_, ?_, ?_⟩
    · have : splatItems (.splat h :: is) = h :: splatItems is := rfl
      rw [this, List.mapM_cons, hv, h1]; rfl
    · rw [List.mapM_cons, hv', h2]; rfl
    · intro x hx
      rcases List.mem_cons.mp hx with hx | hx
      · rw [hx]; exact hm
      · exact h3 x hx
    · intro e
      rw [hl, List.flatten_cons, List.mem_append, h4 e]
      simp only [List.mem_append]
      tauto
    · intro ho k
      rw [hl, List.flatten_cons, lastVal_append, lastVal_append, lastVal_append, ← h5 ho.2 k, lastVal_append]
      cases hA : lastVal es.flatten k with
      | some w => simp
      | none =>
        simp only [Option.none_or]
        cases hB : lastVal (symPairs (litItems is)) k with
        | none => simp
        | some w =>
          have hC : lastVal m k = none := by
            obtain ⟨a, b, hab, _⟩ := (lastVal_iff _ _ _).mp hB
            have hmem : (k, w) ∈ symPairs (litItems is) := by rw [hab]; simp
            unfold symPairs at hmem
            rw [List.mem_map] at hmem
            obtain ⟨⟨n, u⟩, hnu, hk⟩ := hmem
            cases hk
            have hlit : KwItem.lit n u ∈ is := by
              unfold litItems at hnu
              rw [List.mem_filterMap] at hnu
              obtain ⟨it, hit, hh⟩ := hnu
              cases it with
              | lit n' v' => cases hh; exact hit
              | splat _ => cases hh
            rw [lastVal_eq_none]
            rintro ⟨k', u2⟩ he' hk'
            cases hk'
            exact ho.1 n u hlit m he _ he'
          rw [hC]; simp

/-- A call as written is a well-formed site. -/
theorem written_site {W : World} {args : List Val} {splat : List Nat} {items : List KwItem} {ps : List (Key × Val)}
    (h : Written W items ps) : ∃ lits es, SiteOk W (CallSite.ofSource args splat items) lits es ∧
      (∀ k, (∃ e ∈ allPairs lits es, e.1 = k) ↔ ∃ e ∈ ps, e.1 = k) ∧
      (Orderly W items → ∀ k, lastVal (allPairs lits es) k = lastVal ps k) := by
  obtain ⟨lits, hl, hs⟩ := ofSource_lit args splat items
  obtain ⟨hs', es, h1, h2, h3, h4, h5⟩ := written_splats h
  have hlast : ∀ k, lastVal (allPairs lits es) k = lastVal (symPairs (litItems items) ++ es.flatten) k := by
    intro k
    unfold allPairs
    rw [lastVal_append, lastVal_append, lastVal_of_nodup hl.keys, hs, mapGet_insertAll, mapGet_nil, Option.or_none]
  refine ⟨lits, es, ⟨hl, ⟨hs', h1, h2⟩, h3⟩, ?_, ?_⟩
  · intro k
    have e1 : ∀ (qs : List (Key × Val)), (∃ e ∈ qs, e.1 = k) ↔ lastVal qs k ≠ none := by
      intro qs; rw [ne_eq, lastVal_eq_none]; simp
    have e2 : (∃ e ∈ ps, e.1 = k) ↔ ∃ e ∈ symPairs (litItems items) ++ es.flatten, e.1 = k := by
      simp only [h4]
    rw [e2, e1, e1, hlast]
  · intro ho k; rw [hlast]; exact h5 ho k

end Verif.Args
