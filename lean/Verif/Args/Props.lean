import Verif.Args.Place

/-!
Argument binding: the properties.

`setCallee` is the route every interpreted call takes (`set_callee_frame_arguments`); the other routes are compared
with it in `Routes.lean`.
-/
namespace Verif.Args

/-! ## C65: positional parameters -/

/-- A distribution of the arguments over the positional parameters is unique: two frames that both satisfy the
specification agree on every positional slot. -/
theorem C65_placement_unique (p : Params) (g g' : Frame) (l : List Val) (h : Placed p g l) (h' : Placed p g' l) :
    ∀ i, i < p.req + p.opt + p.post + (if p.rest = .none then 0 else 1) → g i = g' i := by
  obtain ⟨rq, os, rs, ps, h0, h1, h2, h3, h4, h5, h6, h7, h8, h9⟩ := h
  obtain ⟨rq', os', rs', ps', h0', h1', h2', h3', h4', h5', h6', h7', h8', h9'⟩ := h'
  have hl := congrArg List.length h0
  have hl' := congrArg List.length h0'
  simp only [List.length_append] at hl hl'
  have e0 : rq ++ (os ++ (rs ++ ps)) = rq' ++ (os' ++ (rs' ++ ps')) := h0.symm.trans h0'
  obtain ⟨e1, e2⟩ := List.append_inj e0 (by omega)
  have hos : os.length = os'.length := by
    by_cases c : os.length < p.opt
    · have := h4 c; rw [this, List.length_nil] at hl
      by_cases c' : os'.length < p.opt
      · have := h4' c'; rw [this, List.length_nil] at hl'; omega
      · omega
    · by_cases c' : os'.length < p.opt
      · have := h4' c'; rw [this, List.length_nil] at hl'; omega
      · omega
  obtain ⟨e3, e4⟩ := List.append_inj e2 hos
  obtain ⟨e5, e6⟩ := List.append_inj' e4 (by omega)
  intro i hi
  by_cases a : i < p.req
  · rw [h6 i a, h6' i a, e1]
  · by_cases b : i < p.req + p.opt
    · obtain ⟨j, rfl⟩ : ∃ j, i = p.req + j := ⟨i - p.req, by omega⟩
      rw [h7 j (by omega), h7' j (by omega), e3]
    · by_cases hr : p.rest = .none
      · rw [if_pos hr] at hi
        obtain ⟨j, rfl⟩ : ∃ j, i = p.req + p.opt + j := ⟨i - (p.req + p.opt), by omega⟩
        have := h9 j (by omega)
        have := h9' j (by omega)
        simp only [hr, if_true, Nat.add_zero] at *
        simp_all
      · rw [if_neg hr] at hi
        by_cases c : i = p.req + p.opt
        · rw [c, h8 hr, h8' hr, e5]
        · obtain ⟨j, rfl⟩ : ∃ j, i = p.req + p.opt + 1 + j := ⟨i - (p.req + p.opt + 1), by omega⟩
          have := h9 j (by omega)
          have := h9' j (by omega)
          simp only [hr, if_false] at *
          simp_all

theorem plainSite (W : World) (args : List Val) (splat : List Nat) :
    SiteOk W { args := args, splat := splat } [] [] :=
  ⟨⟨rfl, List.nodup_nil⟩, ⟨[], rfl, rfl⟩, by simp⟩

theorem noKeyword_ok {p : Params} (h : p.noKeyword = true) : ParamsOk p := by
  constructor
  · have : p.kwNames = [] := by
      unfold Params.noKeyword at h; simp at h; exact h.1
    rw [this]; exact List.nodup_nil
  · intro _; exact h

theorem setCallee_noKeyword (W : World) (p : Params) (cs : CallSite) (f : Frame) (hk : p.noKeyword = true)
    (hs : SiteOk W cs [] []) (l : List Val) (hpos : posOf W p cs none = .ok (l, none)) :
    setCallee W p cs f = bindL p f l := by
  have hex : (if p.noKeyword = true then (trailing p (allPairs [] [])).head? else none) = none := by
    rw [if_pos hk]; rfl
  have := setCallee_eq W p cs [] [] f (noKeyword_ok hk) hs (by
    rw [hex, hpos]; intro l' m h; cases h)
  rw [this, hex, hpos, if_neg (by rintro ⟨_, h⟩; exact h rfl)]
  simp only [Except.bind]
  unfold specCall; rw [if_pos hk]

theorem posOf_many (W : World) (p : Params) (args : List Val) (h : args.length ≠ 1) :
    posOf W p { args := args } none = .ok (args, none) := by
  unfold posOf toAryStep expandStep checkSingleArgExpand
  cases args with
  | nil => cases p.singleArgExpand <;> rfl
  | cons a args =>
    cases args with
    | nil => simp at h
    | cons b args =>
      cases p.singleArgExpand <;> simp [bind, Except.bind, pure, Except.pure]

theorem posOf_obj (W : World) (p : Params) (n : Nat) (h : p.singleArgExpand = true) :
    posOf W p { args := [.obj n] } none = (blockArgToAry W (.obj n)).bind fun c =>
      match c with | some l => .ok (l, none) | none => .ok ([.obj n], none) := by
  have h1 : toAryStep W p [.obj n] [] none = blockArgToAry W (.obj n) := by
    unfold toAryStep; rw [h]; rfl
  have h2 : expandStep p [.obj n] [] none = none := by
    unfold expandStep; rw [h]; rfl
  unfold posOf
  simp only [h1, h2]
  cases blockArgToAry W (.obj n) with
  | error e => rfl
  | ok c => cases c <;> rfl

/-- C65: a method without keyword parameters called with `n` plain arguments raises ArgumentError, naming the counts,
exactly when `n` is less than the required parameters or more than all of them and there is no `*rest`; otherwise its
parameters receive the arguments in order — required, optional from the left, the surplus in `*rest`, the trailing
required ones from the end — unsupplied optional parameters are left for their defaults, and no other slot of the
frame is touched. -/
theorem C65_method (W : World) (p : Params) (args : List Val) (f : Frame) (hb : p.blockStyle = false)
    (hk : p.noKeyword = true) :
    ((args.length < p.req + p.post ∨ (p.req + p.opt + p.post < args.length ∧ p.rest ≠ .explicit)) →
      setCallee W p { args := args } f
        = .error (.arity args.length (p.req + p.post) (p.req + p.opt + p.post))) ∧
    (p.req + p.post ≤ args.length → (args.length ≤ p.req + p.opt + p.post ∨ p.rest = .explicit) →
      ∃ g, setCallee W p { args := args } f = .ok g ∧ Placed p g args ∧ ∀ i, p.total ≤ i → g i = f i) := by
  have hs : p.singleArgExpand = false := by unfold Params.singleArgExpand; rw [hb]; rfl
  have : setCallee W p { args := args } f = bindL p f args :=
    setCallee_noKeyword W p _ f hk (plainSite W args []) args (by
      rw [posOf_plain W p _ none hs rfl]; simp)
  rw [this]
  exact bindL_method p f args hb

/-- `def m(a, b = …, c = …, *r, z)`. -/
def demoMethod : Params := { req := 1, opt := 2, rest := .explicit, post := 1 }

example : ∃ g, setCallee ⟨fun _ => .missing, fun _ => .missing⟩ demoMethod
      { args := [.atom 1, .atom 2, .atom 3, .atom 4, .atom 5, .atom 6] } (fun _ => some (.atom 99)) = .ok g ∧
    (List.range 6).map g = [some (.atom 1), some (.atom 2), some (.atom 3), some (.arr [.atom 4, .atom 5]),
      some (.atom 6), some (.atom 99)] := ⟨_, rfl, rfl⟩

example : ∃ g, setCallee ⟨fun _ => .missing, fun _ => .missing⟩ demoMethod
      { args := [.atom 1, .atom 2, .atom 3] } (fun _ => some (.atom 99)) = .ok g ∧
    (List.range 6).map g = [some (.atom 1), some (.atom 2), none, some (.arr []),
      some (.atom 3), some (.atom 99)] := ⟨_, rfl, rfl⟩

example : setCallee ⟨fun _ => .missing, fun _ => .missing⟩ demoMethod { args := [.atom 1] } (fun _ => none)
    = .error (.arity 1 2 4) := rfl

/-- C65: a block without keyword parameters never rejects a count: missing required arguments are `nil`, surplus ones
are dropped unless there is a `*rest`, and the result is distributed as for a method. -/
theorem C65_block (W : World) (p : Params) (args : List Val) (f : Frame) (hb : p.blockStyle = true)
    (hk : p.noKeyword = true) (h1 : args.length ≠ 1) :
    ∃ g, setCallee W p { args := args } f = .ok g ∧ Placed p g (blockArgs p args) ∧ ∀ i, p.total ≤ i → g i = f i := by
  rw [setCallee_noKeyword W p _ f hk (plainSite W args []) args (posOf_many W p args h1)]
  exact bindL_block p f args hb

/-- `|a, b = …, c|`. -/
def demoBlock : Params := { req := 1, opt := 1, post := 1, blockStyle := true }

example : ∃ g, setCallee ⟨fun _ => .missing, fun _ => .missing⟩ demoBlock
      { args := [.atom 1, .atom 2, .atom 3, .atom 4] } (fun _ => some (.atom 99)) = .ok g ∧
    (List.range 4).map g = [some (.atom 1), some (.atom 2), some (.atom 3), some (.atom 99)] := ⟨_, rfl, rfl⟩

example : ∃ g, setCallee ⟨fun _ => .missing, fun _ => .missing⟩ demoBlock
      { args := [] } (fun _ => some (.atom 99)) = .ok g ∧
    (List.range 4).map g = [some .nil, none, some .nil, some (.atom 99)] := ⟨_, rfl, rfl⟩

/-- C65: binding reads nothing but the arguments: whatever else lies in the memory behind the argument pointer, in
either direction, and whatever the slots held before, the outcome is the one above. -/
theorem C65_reads_only_arguments (W : World) (p : Params) (args : List Val) (f : Frame) (src : Src)
    (hk : p.noKeyword = true) (h1 : p.singleArgExpand = false)
    (hr : ∀ i v, args[i]? = some v → src.rd i = v) :
    fillPositional p f src args.length = setCallee W p { args := args } f := by
  rw [setCallee_noKeyword W p _ f hk (plainSite W args []) args (by
      rw [posOf_plain W p _ none h1 rfl]; simp)]
  refine fillPositional_eq p f src args.length (fun i => args.getD i .nil) ?_ (fun i h => getD_ge args i h)
  intro i hi
  rw [hr i args[i] (List.getElem?_eq_getElem hi), List.getD_eq_getElem?_getD, List.getElem?_eq_getElem hi]
  rfl

example : ∃ src : Src, src.up = false ∧ (∀ i v, [Val.atom 1, .atom 2, .atom 3][i]? = some v → src.rd i = v) ∧
    src.rd 3 = .atom 77 := by
  refine ⟨{ mem := fun a => [Val.atom 1, .atom 2, .atom 3, .atom 77].getD (100 - a).toNat .nil, ptr := 100, up := false },
    rfl, ?_, rfl⟩
  intro i v h
  match i, h with
  | 0, h => cases h; rfl
  | 1, h => cases h; rfl
  | 2, h => cases h; rfl
  | n + 3, h => simp at h

/-! ## C68: a single array passed to a block -/

/-- C68: a block with more than one positional parameter (or `|a,|`) that is passed one Array, or one object whose
`to_ary` gives an Array, receives the elements instead. -/
theorem C68_spread (W : World) (p : Params) (v : Val) (l : List Val) (f : Frame) (hb : p.blockStyle = true)
    (hk : p.noKeyword = true) (ht : 1 < p.req + p.opt + p.post + (if p.rest = .none then 0 else 1))
    (hv : v = .arr l ∨ ∃ n, v = .obj n ∧ W.toAry n = .gives (.arr l)) :
    ∃ g, setCallee W p { args := [v] } f = .ok g ∧ Placed p g (blockArgs p l) ∧ ∀ i, p.total ≤ i → g i = f i := by
  have hs : p.singleArgExpand = true := by
    unfold Params.singleArgExpand Params.total Params.max; rw [hb]
    have := isRest_iff p
    by_cases hr : p.rest = .none
    · have h0 : p.isRest = false := by rw [← Bool.not_eq_true, this]; simpa using hr
      rw [if_pos hr] at ht; rw [h0]; simpa using ht
    · rw [if_neg hr] at ht; rw [this.mpr hr]; simpa using ht
  have hpos : posOf W p { args := [v] } none = .ok (l, none) := by
    rcases hv with rfl | ⟨n, rfl, hn⟩
    · unfold posOf toAryStep expandStep; rw [hs]; rfl
    · rw [posOf_obj W p n hs]; simp [blockArgToAry, hn, Except.bind]
  rw [setCallee_noKeyword W p _ f hk (plainSite W [v] []) l hpos]
  exact bindL_block p f l hb

/-- C68: otherwise the single argument is passed as it is: to a block with one parameter or none, and for a value that
is not an Array and has no `to_ary` (or whose `to_ary` gives `nil`). -/
theorem C68_kept (W : World) (p : Params) (v : Val) (f : Frame) (hb : p.blockStyle = true) (hk : p.noKeyword = true)
    (h : p.req + p.opt + p.post + (if p.rest = .none then 0 else 1) ≤ 1 ∨
      ((∀ l, v ≠ .arr l) ∧ ∀ n, v = .obj n → W.toAry n = .missing ∨ W.toAry n = .gives .nil)) :
    ∃ g, setCallee W p { args := [v] } f = .ok g ∧ Placed p g (blockArgs p [v]) ∧ ∀ i, p.total ≤ i → g i = f i := by
  have hpos : posOf W p { args := [v] } none = .ok ([v], none) := by
    rcases h with h | ⟨h1, h2⟩
    · have hs : p.singleArgExpand = false := by
        unfold Params.singleArgExpand Params.total Params.max; rw [hb]
        have := isRest_iff p
        by_cases hr : p.rest = .none
        · have h0 : p.isRest = false := by rw [← Bool.not_eq_true, this]; simpa using hr
          rw [if_pos hr] at h; rw [h0]; simpa using h
        · rw [if_neg hr] at h; rw [this.mpr hr]; simpa using h
      exact posOf_plain W p _ none hs rfl
    · unfold posOf toAryStep expandStep
      cases v with
      | arr l => exact absurd rfl (h1 l)
      | obj n =>
        rcases h2 n rfl with h | h <;> cases p.singleArgExpand <;> simp [blockArgToAry, h, checkSingleArgExpand, bind, Except.bind, pure, Except.pure]
      | nil => cases p.singleArgExpand <;> rfl
      | atom n => cases p.singleArgExpand <;> rfl
      | hash m fl => cases p.singleArgExpand <;> rfl
  rw [setCallee_noKeyword W p _ f hk (plainSite W [v] []) [v] hpos]
  exact bindL_block p f [v] hb

/-- C68: an exception in `to_ary`, or a `to_ary` that gives something else, reaches the caller. -/
theorem C68_raises (W : World) (p : Params) (n : Nat) (f : Frame) (hb : p.blockStyle = true) (hk : p.noKeyword = true)
    (ht : 1 < p.total) :
    (W.toAry n = .raises → setCallee W p { args := [.obj n] } f = .error .raised) ∧
    (∀ v, W.toAry n = .gives v → v ≠ .nil → (∀ l, v ≠ .arr l) →
      setCallee W p { args := [.obj n] } f = .error .typeErr) := by
  have hs : p.singleArgExpand = true := by unfold Params.singleArgExpand; rw [hb]; simpa using ht
  have key : ∀ e, posOf W p { args := [.obj n] } none = .error e → setCallee W p { args := [.obj n] } f = .error e := by
    intro e he
    have hex : (if p.noKeyword = true then (trailing p (allPairs [] [])).head? else none) = none := by
      rw [if_pos hk]; rfl
    rw [setCallee_eq W p _ [] [] f (noKeyword_ok hk) (plainSite W _ []) (by
      rw [hex, he]; intro l' m h; cases h), hex, he, if_neg (by rintro ⟨_, h⟩; exact h rfl)]
    rfl
  constructor
  · intro h
    apply key
    rw [posOf_obj W p n hs]; simp [blockArgToAry, h, Except.bind]
  · intro v h h1 h2
    apply key
    rw [posOf_obj W p n hs]
    cases v with
    | arr l => exact absurd rfl (h2 l)
    | nil => exact absurd rfl h1
    | _ => simp [blockArgToAry, h, Except.bind]

/-- Object 5 converts to `[7, 8]`, object 6 to `nil`. -/
def demoWorld : World :=
  { toAry := fun n => if n = 5 then .gives (.arr [.atom 7, .atom 8]) else if n = 6 then .gives .nil else .missing,
    toHash := fun _ => .missing }

example : ∃ g, setCallee demoWorld demoBlock { args := [.obj 5] } (fun _ => none) = .ok g ∧
    (List.range 3).map g = [some (.atom 7), none, some (.atom 8)] := ⟨_, rfl, rfl⟩
example : ∃ g, setCallee demoWorld demoBlock { args := [.arr [.atom 7, .arr [.atom 8], .atom 9]] } (fun _ => none) = .ok g ∧
    (List.range 3).map g = [some (.atom 7), some (.arr [.atom 8]), some (.atom 9)] := ⟨_, rfl, rfl⟩
example : ∃ g, setCallee demoWorld demoBlock { args := [.obj 6] } (fun _ => none) = .ok g ∧
    (List.range 3).map g = [some (.obj 6), none, some .nil] := ⟨_, rfl, rfl⟩

/-! ## C71: arity -/

/-- Whether a call with these plain arguments gets past binding. -/
def Accepts (W : World) (p : Params) (args : List Val) : Prop :=
  ∀ f, ∃ g, setCallee W p { args := args } f = .ok g

theorem accepts_iff (W : World) (p : Params) (args : List Val) (hb : p.blockStyle = false) (hk : p.noKeyword = true) :
    Accepts W p args ↔ p.req + p.post ≤ args.length ∧ (args.length ≤ p.req + p.opt + p.post ∨ p.rest = .explicit) := by
  have hm := fun f => C65_method W p args f hb hk
  constructor
  · intro h
    obtain ⟨g, hg⟩ := h fun _ => none
    by_contra hc
    have := (hm fun _ => none).1 (by
      by_cases a : args.length < p.req + p.post
      · left; exact a
      · right
        by_cases b : p.rest = .explicit
        · exact absurd ⟨by omega, Or.inr b⟩ hc
        · refine ⟨?_, b⟩
          by_contra hcc
          exact hc ⟨by omega, Or.inl (by omega)⟩)
    rw [this] at hg; cases hg
  · rintro ⟨h1, h2⟩ f
    obtain ⟨g, hg, _⟩ := (hm f).2 h1 h2
    exact ⟨g, hg⟩

/-- C71: for a method without keyword parameters, a non-negative `arity` is the one number of arguments it accepts. -/
theorem C71_exact (W : World) (p : Params) (hb : p.blockStyle = false) (hk : p.noKeyword = true)
    (hkr : p.kwRequired = []) (h : 0 ≤ p.arity) (args : List Val) :
    Accepts W p args ↔ (args.length : Int) = p.arity := by
  rw [accepts_iff W p args hb hk]
  have hn : p.kwNames = [] ∧ p.kwRest = false := by
    unfold Params.noKeyword at hk; simpa using hk
  have ha : p.arity = if (0 < p.opt ∨ p.rest = .explicit) then -((p.req + p.post : Nat) + 1 : Int) else (p.req + p.post : Nat) := by
    unfold Params.arity Params.isExplicitRest Params.min
    rw [hkr, hn.1, hn.2, hb]
    simp
  rw [ha] at h ⊢
  by_cases c : 0 < p.opt ∨ p.rest = .explicit
  · rw [if_pos c] at h; omega
  · rw [if_neg c]
    have c1 : p.opt = 0 := by
      by_contra hc; exact c (Or.inl (by omega))
    have c2 : p.rest ≠ .explicit := fun h => c (Or.inr h)
    constructor
    · rintro ⟨h1, h2 | h2⟩
      · omega
      · exact absurd h2 c2
    · intro h; exact ⟨by omega, Or.inl (by omega)⟩

/-- C71: a negative `arity` of `-(m + 1)` means that `m` is the least number of arguments accepted, and that `m` is not
the only one. -/
theorem C71_at_least (W : World) (p : Params) (hb : p.blockStyle = false) (hk : p.noKeyword = true)
    (hkr : p.kwRequired = []) (m : Nat) (h : p.arity = -((m : Int) + 1)) :
    (∀ args, Accepts W p args → m ≤ args.length) ∧
    (∀ args, args.length = m → Accepts W p args) ∧ (∀ args, args.length = m + 1 → Accepts W p args) := by
  have hn : p.kwNames = [] ∧ p.kwRest = false := by
    unfold Params.noKeyword at hk; simpa using hk
  have ha : p.arity = if (0 < p.opt ∨ p.rest = .explicit) then -((p.req + p.post : Nat) + 1 : Int) else (p.req + p.post : Nat) := by
    unfold Params.arity Params.isExplicitRest Params.min
    rw [hkr, hn.1, hn.2, hb]
    simp
  rw [ha] at h
  by_cases c : 0 < p.opt ∨ p.rest = .explicit
  · rw [if_pos c] at h
    simp only [accepts_iff W p _ hb hk]
    refine ⟨fun args ha => by omega, fun args ha => ⟨by omega, Or.inl (by omega)⟩, fun args ha => ⟨by omega, ?_⟩⟩
    rcases c with c | c
    · left; omega
    · right; exact c
  · rw [if_neg c] at h; omega

example : ({ req := 2, post := 1 } : Params).arity = 3 := rfl
example : demoMethod.arity = -3 := rfl

end Verif.Args
