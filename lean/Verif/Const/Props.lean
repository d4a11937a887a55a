import Verif.Const.Fold
import Verif.Const.Load

/-! # Properties C85-C88: constants -/

namespace Verif.Const

/-- The class `c` has the constant `n` with the value `v` (private or not), not deprecated. -/
def Has (w : World) (c n : Nat) (v : Val) : Prop := ∃ p, w.tab c n = some ⟨.loaded v, p, false⟩

/-- `v` is the value in the first class of the list that has the constant. -/
def FirstIn (w : World) (n : Nat) (cs : List Nat) (v : Val) : Prop :=
  ∃ a c z, cs = a ++ c :: z ∧ (∀ x ∈ a, w.tab x n = none) ∧ Has w c n v

theorem skip_absent (E : Env) (w : World) (n : Nat) (a cs : List Nat)
    (h : ∀ x ∈ a, w.tab x n = none) : getFirst E w n (a ++ cs) = getFirst E w n cs := by
  induction a with
  | nil => rfl
  | cons c a ih =>
    simp only [List.cons_append, getFirst]
    have : getConst E w c n = (.ok none, w) := getConst_pure E w c n none (by rw [h c (by simp)]; rfl)
    rw [this]
    exact ih fun x hx => h x (by simp [hx])

theorem pskip_absent (w : World) (n : Nat) (a cs : List Nat)
    (h : ∀ x ∈ a, w.tab x n = none) : pfirst w n (a ++ cs) = pfirst w n cs := by
  induction a with
  | nil => rfl
  | cons c a ih =>
    simp only [List.cons_append, pfirst]
    rw [h c (by simp)]
    exact ih fun x hx => h x (by simp [hx])

theorem FirstIn.pfirst {w : World} {n : Nat} {cs : List Nat} {v : Val} (h : FirstIn w n cs v) :
    pfirst w n cs = some (some v) := by
  obtain ⟨a, c, z, rfl, ha, p, hc⟩ := h
  rw [pskip_absent w n a _ ha]
  unfold Verif.Const.pfirst
  rw [hc]; rfl

theorem absent_pfirst {w : World} {n : Nat} {cs : List Nat} (h : ∀ x ∈ cs, w.tab x n = none) :
    pfirst w n cs = some none := by
  have := pskip_absent w n cs [] h
  simpa [pfirst] using this

/-! ## C85: which constant a reference means -/

/-- C85: an unqualified reference gives the value of the innermost enclosing class or module that
has the constant itself, otherwise of the first ancestor of the innermost one that has it (in
`class BasicObject`, Object at last).  Being private does not matter, and nothing is changed. -/
theorem C85_bare (E : Env) (w : World) (i n : Nat) (b v : Val)
    (h : FirstIn w n (w.lex i ++ (w.chain ((w.lex i).headD 0) ++
      if (w.lex i).headD 0 = 1 then [0] else [])) v) :
    find E w { code := i, name := n } b = (.ok v, w) :=
  find_of_pfind E w _ b v (Or.inl ⟨rfl, rfl, rfl⟩) (by
    show valOf (pfirst w n (scopes w i)) = some v
    have : scopes w i = w.lex i ++ (w.chain ((w.lex i).headD 0) ++
      if (w.lex i).headD 0 = 1 then [0] else []) := rfl
    rw [this, h.pfirst]; rfl)

/-- C85: if no enclosing class and no ancestor of the innermost one has the constant, its
`const_missing` is called, once, and decides. -/
theorem C85_bare_missing (E : Env) (w : World) (i n : Nat) (b : Val)
    (h : ∀ x ∈ w.lex i ++ (w.chain ((w.lex i).headD 0) ++
      if (w.lex i).headD 0 = 1 then [0] else []), w.tab x n = none) :
    find E w { code := i, name := n } b =
      (match E.hook w.log ((w.lex i).headD 0) n with
        | some v => .ok v
        | none => .error .name, w.say (.hook ((w.lex i).headD 0) n)) := by
  have hs : search E w i n = (.ok none, w) := search_pure E w i n none (absent_pfirst h)
  unfold find searchChecked
  simp only [Bool.false_eq_true, if_false]
  rw [hs]
  simp only
  unfold missing lexClass OBJECT
  split <;> rename_i heq <;> rw [heq]

/-- The classes searched by `c::X`. -/
def qualScopes (w : World) (c : Nat) : List Nat :=
  if c = 0 then w.chain c else (w.chain c).filter (· ≠ 0)

/-- What `A::B::…::X` means from the class `c` on, if no constant on the way is private. -/
inductive Path (w : World) : Nat → List Nat → Nat → Val → Prop where
  | last {c n v} : (∀ x ∈ w.chain c, isPriv w x n = false) → FirstIn w n (qualScopes w c) v →
      Path w c [] n v
  | more {c m d pre n v} : (∀ x ∈ w.chain c, isPriv w x m = false) →
      FirstIn w m (qualScopes w c) (.mod d) → Path w d pre n v → Path w c (m :: pre) n v

theorem privateAt_chain {w : World} {c n : Nat} (h : ∀ x ∈ w.chain c, isPriv w x n = false) :
    privateAt w c n = false := by
  unfold privateAt
  split
  · rename_i d hd
    exact h d (List.mem_of_find?_eq_some hd)
  · rfl

theorem Path.run {E : Env} {w : World} {c : Nat} {pre : List Nat} {n : Nat} {v : Val}
    (h : Path w c pre n v) : path E w c pre n = (.ok v, w) := by
  induction h with
  | @last c n v hp hf =>
    unfold path finalPart
    rw [privateAt_chain hp]
    simp only [Bool.false_eq_true, if_false]
    unfold qualified
    have : qualChain w c = qualScopes w c := rfl
    rw [this, getFirst_pure E w n _ _ hf.pfirst]
  | @more c m d pre n v hp hf _ ih =>
    unfold path midPart
    rw [privateAt_chain hp]
    simp only [Bool.false_eq_true, if_false]
    unfold qualified
    have : qualChain w c = qualScopes w c := rfl
    rw [this, getFirst_pure E w m _ _ hf.pfirst]
    simp only [asMod]
    exact ih

/-- C85: `A::B::…::X` goes from class to class, each time to the first ancestor that has the
constant; Object's constants are seen only through Object. -/
theorem C85_path (E : Env) (w : World) (i m d : Nat) (pre : List Nat) (n : Nat) (b v : Val)
    (hm : FirstIn w m (w.lex i ++ (w.chain ((w.lex i).headD 0) ++
      if (w.lex i).headD 0 = 1 then [0] else [])) (.mod d))
    (h : Path w d pre n v) :
    find E w { code := i, pre := m :: pre, name := n } b = (.ok v, w) := by
  unfold find searchChecked
  simp only [Bool.false_eq_true, if_false]
  have hs : search E w i m = (.ok (some (.mod d)), w) := search_pure E w i m _ hm.pfirst
  rw [hs]
  simp only [asMod]
  exact h.run

/-- C85: the same after an expression and after a leading `::`. -/
theorem C85_path_from (E : Env) (w : World) (i c : Nat) (pre : List Nat) (n : Nat) (b v : Val)
    (h : Path w c pre n v) :
    find E w { code := i, dyn := true, pre := pre, name := n } (.mod c) = (.ok v, w) ∧
    (c = 0 → find E w { code := i, top := true, pre := pre, name := n } b = (.ok v, w)) := by
  refine ⟨h.run, ?_⟩
  rintro rfl
  exact h.run

/-- C85: `c::X` raises if the first ancestor of `c` that has `X` has it private, unless
`const_missing` answers. -/
theorem C85_private (E : Env) (w : World) (i c n d : Nat) (a z : List Nat) (v : Val) (dep : Bool)
    (hc : w.chain c = a ++ d :: z) (ha : ∀ x ∈ a, w.tab x n = none)
    (hd : w.tab d n = some ⟨.loaded v, true, dep⟩) :
    find E w { code := i, dyn := true, name := n } (.mod c) =
      (match E.hook w.log c n with
        | some v => .ok v
        | none => .error .priv, w.say (.hook c n)) := by
  have hp : privateAt w c n = true := by
    unfold privateAt
    have : (w.chain c).find? (probeAt w · n) = some d := by
      rw [hc, List.find?_append]
      have h1 : a.find? (probeAt w · n) = none := by
        rw [List.find?_eq_none]
        intro x hx
        unfold probeAt
        rw [ha x hx]
        simp
      have h2 : probeAt w d n = true := by unfold probeAt; rw [hd]
      rw [h1]
      simp [List.find?_cons, h2]
    rw [this]
    simp only
    unfold isPriv
    rw [hd]
  unfold find path finalPart
  simp only [if_true, asMod]
  rw [if_pos hp]
  unfold missing
  split <;> rename_i heq <;> split at heq <;> rename_i hk <;> rw [hk] <;> simp at heq <;>
    simp [heq]

/-- C85: `c.const_get(:X)` finds the first ancestor of `c` that has `X`.
Missing: paths, for which see `C85_const_get_fails`. -/
theorem C85_const_get_partial (E : Env) (w : World) (c n : Nat) (v : Val)
    (h : FirstIn w n (w.chain c) v) : constGet E w c [n] = (.ok v, w) := by
  have hp : constPath E w c [n] = (some v, w) := by
    show swallow (getFirst E w n (w.chain c)) = _
    rw [getFirst_pure E w n _ _ h.pfirst]
    rfl
  unfold constGet
  rw [hp]

/-! ### A world -/

/-- Object (0) is the last but one of each chain, BasicObject (1) the last.  Class 2 inherits from
class 3.  Names: 10 is defined in 0 and 2, 11 in 0 and 3, 12 (the class 2) and 13 (the class 3) in
0, 14 is private in 3. -/
def w0 : World where
  tab := fun c n =>
    if c = 0 ∧ n = 10 then some ⟨.loaded (.obj 1), false, false⟩
    else if c = 2 ∧ n = 10 then some ⟨.loaded (.obj 2), false, false⟩
    else if c = 0 ∧ n = 11 then some ⟨.loaded (.obj 3), false, false⟩
    else if c = 3 ∧ n = 11 then some ⟨.loaded (.obj 4), false, false⟩
    else if c = 0 ∧ n = 12 then some ⟨.loaded (.mod 2), false, false⟩
    else if c = 0 ∧ n = 13 then some ⟨.loaded (.mod 3), false, false⟩
    else if c = 3 ∧ n = 14 then some ⟨.loaded (.obj 5), true, false⟩
    else none
  chain := fun c => if c = 2 then [2, 3, 0, 1] else if c = 1 then [1] else if c = 0 then [0, 1]
    else [c, 0, 1]
  lex := fun i => if i = 0 then [2] else if i = 1 then [4, 2] else []

/-- Nothing to load, no `const_missing`. -/
def E0 : Env := ⟨fun _ => ([], true), fun _ _ _ => none⟩

/-- In a module 4 within class 2: `X10` is the enclosing class's, `X11` is not its ancestor's. -/
example : FirstIn w0 10 (w0.lex 1 ++ (w0.chain 4 ++ [])) (.obj 2) :=
  ⟨[4], 2, [4, 0, 1], rfl, by simp [w0], false, rfl⟩

example : (find E0 w0 { code := 1, name := 10 } (.obj 0)).1 = .ok (.obj 2) := rfl

example : (find E0 w0 { code := 0, name := 11 } (.obj 0)).1 = .ok (.obj 4) := rfl

example : (find E0 w0 { code := 1, name := 11 } (.obj 0)).1 = .ok (.obj 3) := rfl

example : (find E0 w0 { code := 1, name := 15 } (.obj 0)).1 = .error .name := rfl

example : Path w0 0 [12] 11 (.obj 4) :=
  .more (by simp [w0, isPriv]) ⟨[], 0, [1], rfl, by simp, false, rfl⟩
    (.last (by simp [w0, isPriv]) ⟨[2], 3, [1], rfl, by simp [w0], false, rfl⟩)

example : (find E0 w0 { code := 7, pre := [12], name := 14 } (.obj 0)).1 = .error .priv := rfl

example : (find E0 w0 { code := 0, name := 14 } (.obj 0)).1 = .ok (.obj 5) := rfl

/-- C85 fails for `const_get` of a path: `Object.const_get("A::X")` raises `NameError` where
`A::X` gives the value inherited from A's superclass. -/
theorem C85_const_get_fails :
    (find E0 w0 { code := 7, top := true, pre := [12], name := 11 } (.obj 0)).1 = .ok (.obj 4) ∧
    (constGet E0 w0 0 [12, 11]).1 = .error .name := ⟨rfl, rfl⟩

/-! ## C86: a reference that was executed before -/

/-- C86: after any history of plain operations from empty caches, executing a reference gives the
value a new lookup gives, with the effects a new lookup has.
Missing: the operations excluded by `Plain` (see the counterexamples), a redefined `const_missing`,
and qualified references where constants are made private. -/
theorem C86_fresh_partial (home : Nat → Option Nat) (Q : Bool) (E : Env) (hE : EnvOk home E)
    (hH : ∀ l c n, E.hook l c n = none) (P : Nat → Site) (w : World) (hw : WF home Q w)
    (os : List Op) (ho : ∀ o ∈ os, Plain home Q w.lex o) (k : Nat) (b : Val)
    (hk : Bare (P k) ∨ Q = false) :
    (reference E P (run E P ⟨w, fun _ => none⟩ os) k b).1 =
      (find E (run E P ⟨w, fun _ => none⟩ os).w (P k) b).1 ∧
    (reference E P (run E P ⟨w, fun _ => none⟩ os) k b).2.w =
      (find E (run E P ⟨w, fun _ => none⟩ os).w (P k) b).2 := by
  have hI := run_inv E hE hH os (start_inv (P := P) hw) ho
  generalize run E P ⟨w, fun _ => none⟩ os = σ at *
  unfold reference
  rcases hh : hit σ (P k) k b with _ | v
  · rcases find E σ.w (P k) b with ⟨r, w1⟩
    cases r <;> exact ⟨rfl, rfl⟩
  · unfold hit at hh
    rcases hc : σ.cache k with _ | c
    · rw [hc] at hh; cases hh
    · rw [hc] at hh
      simp only at hh
      split_ifs at hh with hv
      injection hh with hh
      have hp := hI.good k c hc hv.1 b hv.2
      have hs : Bare (P k) ∨ NoPriv σ.w := by
        rcases hk with hk | hk
        · exact Or.inl hk
        · subst hk; exact Or.inr hI.wf.noPriv
      rw [find_of_pfind E σ.w (P k) b c.val hs hp, ← hh]
      exact ⟨rfl, rfl⟩

/-- A history: `X10` in class 2, `A::X11`, then `X10` is assigned, an autoload for the name 20 is
registered in class 2 and triggered; the file defines 20 with `class`, and 10. -/
def E1 : Env := ⟨fun f => if f = 1 then ([.klass 2 20 (.mod 9), .assign 2 10 (.obj 8)], true)
  else ([], true), fun _ _ _ => none⟩

def home1 : Nat → Option Nat := fun n => if n = 20 then some 2 else none

def P1 : Nat → Site := fun k =>
  if k = 0 then { code := 0, name := 10 }
  else if k = 1 then { code := 0, pre := [12], name := 11 }
  else { code := 0, name := 20 }

def w1 : World := { w0 with tab := fun c n => if c = 3 ∧ n = 14 then none else w0.tab c n }

def h1 : List Op := [.ref 0 (.obj 0), .ref 1 (.obj 0), .def_ (.assign 2 10 (.obj 7)),
  .ref 0 (.obj 0), .auto 2 20 1, .ref 1 (.obj 0), .ref 2 (.obj 0)]

theorem w1_entry (c n : Nat) (s : CState) (h : w1.tab c n = some s) :
    s.depr = false ∧ s.priv = false ∧ (∃ v, s.kind = .loaded v) ∧ n ≠ 20 := by
  unfold w1 w0 at h
  simp only at h
  split_ifs at h <;> (injection h with h; subst h; refine ⟨rfl, rfl, ⟨_, rfl⟩, ?_⟩; omega)

theorem w1_wf : WF home1 false w1 where
  depr := fun c n s h => (w1_entry c n s h).1
  priv := fun _ c n s h => (w1_entry c n s h).2.1
  auto := by
    intro c n f st p d h
    obtain ⟨_, _, ⟨v, hv⟩, _⟩ := w1_entry c n _ h
    cases hv
  homeOk := by
    intro c n h hh ht
    rcases hs : w1.tab c n with _ | s
    · exact absurd hs ht
    · have := (w1_entry c n s hs).2.2.2
      unfold home1 at hh
      rw [if_neg this] at hh
      cases hh

example : ∀ o ∈ h1, Plain home1 false w1.lex o := by
  simp [h1, Plain, Disc, AllowedAt, home1]

example : EnvOk home1 E1 := by
  intro f d hd
  unfold E1 at hd
  by_cases hf : f = 1
  · simp only [hf, if_true] at hd
    rcases List.mem_cons.1 hd with rfl | hd
    · rfl
    · rcases List.mem_cons.1 hd with rfl | hd
      · exact Or.inl rfl
      · cases hd
  · simp [hf] at hd

/-- The caches are used in this history, and refilled. -/
example : hit (run E1 P1 ⟨w1, fun _ => none⟩ (h1.take 5)) (P1 0) 0 (.obj 0) = some (.obj 7) := rfl

example : (reference E1 P1 (run E1 P1 ⟨w1, fun _ => none⟩ h1) 0 (.obj 0)).1 = .ok (.obj 8) := rfl

example : (reference E1 P1 (run E1 P1 ⟨w1, fun _ => none⟩ h1) 2 (.obj 0)).1 = .ok (.mod 9) := rfl

/-- One site, `X11` in class 2's body. -/
def Pbare (n : Nat) : Nat → Site := fun _ => { code := 0, name := n }

/-- C86 fails for `class` and `module`: a site that has read the outer `X` goes on reading it after
`class X` defined another one in the enclosing class; a new lookup finds the new one. -/
theorem C86_class_keyword_fails :
    let σ := run E0 (Pbare 12) ⟨w0, fun _ => none⟩ [.ref 0 (.obj 0), .def_ (.klass 2 12 (.mod 9))]
    (reference E0 (Pbare 12) σ 0 (.obj 0)).1 = .ok (.mod 2) ∧
    (find E0 σ.w (Pbare 12 0) (.obj 0)).1 = .ok (.mod 9) := ⟨rfl, rfl⟩

/-- C86 fails for `autoload`: the same site goes on reading the outer `X` after `autoload :X` in
the enclosing class; a new lookup loads the file. -/
theorem C86_autoload_fails :
    let E : Env := ⟨fun _ => ([.assign 2 12 (.mod 9)], true), fun _ _ _ => none⟩
    let σ := run E (Pbare 12) ⟨w0, fun _ => none⟩ [.ref 0 (.obj 0), .auto 2 12 1]
    (reference E (Pbare 12) σ 0 (.obj 0)).1 = .ok (.mod 2) ∧
    (find E σ.w (Pbare 12 0) (.obj 0)).1 = .ok (.mod 9) := ⟨rfl, rfl⟩

/-- C86 fails for `const_missing`: its answer is cached; it is not asked again. -/
theorem C86_const_missing_fails :
    let E : Env := ⟨fun _ => ([], true), fun l _ _ => some (.obj l.length)⟩
    let σ := run E (Pbare 30) ⟨w0, fun _ => none⟩ [.ref 0 (.obj 0)]
    (reference E (Pbare 30) σ 0 (.obj 0)).1 = .ok (.obj 0) ∧
    (find E σ.w (Pbare 30 0) (.obj 0)).1 = .ok (.obj 1) := ⟨rfl, rfl⟩

/-- C86 fails for `private_constant`: a site `A::X` that was executed goes on giving the value; a
new lookup raises. -/
theorem C86_private_fails :
    let P : Nat → Site := fun _ => { code := 7, pre := [12], name := 10 }
    let σ := run E0 P ⟨w0, fun _ => none⟩ [.ref 0 (.obj 0), .priv 2 10 true]
    (reference E0 P σ 0 (.obj 0)).1 = .ok (.obj 2) ∧
    (find E0 σ.w (P 0) (.obj 0)).1 = .error .priv := ⟨rfl, rfl⟩

/-- C86 fails for `deprecate_constant`: a site that was executed does not warn; a new lookup
does. -/
theorem C86_deprecate_fails :
    let σ := run E0 (Pbare 10) ⟨w0, fun _ => none⟩ [.ref 0 (.obj 0), .depr 2 10]
    (reference E0 (Pbare 10) σ 0 (.obj 0)).2.w.log = [] ∧
    (find E0 σ.w (Pbare 10 0) (.obj 0)).2.log = [.warn 2 10] := ⟨rfl, rfl⟩

/-- C86 fails for a class body that is run for two classes: the reference in it gives the first
class's constant. -/
theorem C86_two_classes_fails :
    let σ := run E0 (Pbare 10) ⟨w0, fun _ => none⟩ [.ref 0 (.obj 0), .stamp 0 [3]]
    (reference E0 (Pbare 10) σ 0 (.obj 0)).1 = .ok (.obj 2) ∧
    (find E0 σ.w (Pbare 10 0) (.obj 0)).1 = .ok (.obj 1) := ⟨rfl, rfl⟩

/-! ## C87: constants folded into compiled code -/

/-- C87: code compiled with constants folded in: whenever its guards pass, after any further plain
operations and salvages, each folded value is what a lookup gives now, and that lookup would have
had no effect.
Missing: as in `C86_fresh_partial`. -/
theorem C87_fold_partial (home : Nat → Option Nat) (Q : Bool) (E : Env) (hE : EnvOk home E)
    (hH : ∀ l c n, E.hook l c n = none) (P : Nat → Site) (w : World) (hw : WF home Q w)
    (os : List Op) (ho : ∀ o ∈ os, Plain home Q w.lex o) (ks : List Nat) (u : Unit_)
    (hu : compileUnit P (run E P ⟨w, fun _ => none⟩ os) ks = some u)
    (js : List JOp) (hj : ∀ j ∈ js, JPlain home Q w.lex j)
    (f : Fold) (hf : f ∈ (jrun E P (run E P ⟨w, fun _ => none⟩ os) u js).2.folds) (b : Val)
    (hg : guardOk P (jrun E P (run E P ⟨w, fun _ => none⟩ os) u js).1.w
      (jrun E P (run E P ⟨w, fun _ => none⟩ os) u js).2 f b)
    (hk : Bare (P f.site) ∨ Q = false) :
    find E (jrun E P (run E P ⟨w, fun _ => none⟩ os) u js).1.w (P f.site) b =
      (.ok f.val, (jrun E P (run E P ⟨w, fun _ => none⟩ os) u js).1.w) := by
  have hI := run_inv E hE hH os (start_inv (P := P) hw) ho
  generalize run E P ⟨w, fun _ => none⟩ os = σ at *
  obtain ⟨hI', hU⟩ := jrun_inv E hE hH js hI (compileUnit_inv hI hu) hj
  generalize jrun E P σ u js = r at *
  have hp := hU.cur hg.1 f hf b hg.2
  have hs : Bare (P f.site) ∨ NoPriv r.1.w := by
    rcases hk with hk | hk
    · exact Or.inl hk
    · subst hk; exact Or.inr hI'.wf.noPriv
  exact find_of_pfind E r.1.w (P f.site) b f.val hs hp

/-- C87: every site asked for is folded, with the value a lookup gave at that time. -/
theorem C87_compiled (P : Nat → Site) (σ : St) (ks : List Nat) (u : Unit_)
    (hu : compileUnit P σ ks = some u) :
    u.folds.map (·.site) = ks ∧ u.word = σ.w.ver ∧
    ∀ f ∈ u.folds, ∃ c, σ.cache f.site = some c ∧ c.ver = σ.w.ver ∧ c.val = f.val ∧
      c.base = f.base := by
  unfold compileUnit at hu
  rcases hm : ks.mapM (foldSite P σ) with _ | fs
  · rw [hm] at hu; cases hu
  · rw [hm] at hu
    injection hu with hu
    subst hu
    refine ⟨?_, rfl, ?_⟩
    · simp only
      induction ks generalizing fs with
      | nil => simp at hm; subst hm; rfl
      | cons k ks ih =>
        rw [List.mapM_cons] at hm
        rcases hx : foldSite P σ k with _ | z
        · rw [hx] at hm; cases hm
        · rw [hx] at hm
          rcases hr : ks.mapM (foldSite P σ) with _ | zs
          · rw [hr] at hm; cases hm
          · rw [hr] at hm
            have : z :: zs = fs := by injection hm
            subst this
            have hz : z.site = k := by
              unfold foldSite at hx
              rcases hc : σ.cache k with _ | c
              · rw [hc] at hx; cases hx
              · rw [hc] at hx
                simp only at hx
                split_ifs at hx
                injection hx with hx
                rw [← hx]
            simp [hz, ih zs hr]
    · intro f hf
      obtain ⟨k, _, hk⟩ := mapM_mem hm f hf
      unfold foldSite at hk
      rcases hc : σ.cache k with _ | c
      · rw [hc] at hk; cases hk
      · rw [hc] at hk
        simp only at hk
        split_ifs at hk with hv
        injection hk with hk
        subst hk
        exact ⟨c, hc, hv, rfl, rfl⟩

/-- A unit folding `X10` is salvaged after another name was assigned, and used again. -/
example :
    let σ := run E1 P1 ⟨w1, fun _ => none⟩ [.ref 0 (.obj 0), .ref 1 (.obj 0)]
    ∃ u, compileUnit P1 σ [0, 1] = some u ∧ u.folds.length = 2 ∧
      (jrun E1 P1 σ u [.op (.def_ (.assign 0 40 (.obj 6)))]).2.word ≠
        (jrun E1 P1 σ u [.op (.def_ (.assign 0 40 (.obj 6)))]).1.w.ver ∧
      (jrun E1 P1 σ u [.op (.def_ (.assign 0 40 (.obj 6))), .salvage]).2.word =
        (jrun E1 P1 σ u [.op (.def_ (.assign 0 40 (.obj 6))), .salvage]).1.w.ver ∧
      -- not after an assignment to the name, until the site was executed again and agrees
      (salvage (run E1 P1 σ [.def_ (.assign 0 10 (.obj 6))]) u).isNone ∧
      (salvage (run E1 P1 σ [.def_ (.assign 0 10 (.obj 6)), .ref 0 (.obj 0)]) u).isSome ∧
      (salvage (run E1 P1 σ [.def_ (.assign 2 10 (.obj 6)), .ref 0 (.obj 0)]) u).isNone :=
  ⟨_, rfl, rfl, by decide, rfl, rfl, rfl, rfl⟩

/-- C87 fails for `class` and `module`: compiled code goes on with the outer `X`. -/
theorem C87_class_keyword_fails :
    let σ := run E0 (Pbare 12) ⟨w0, fun _ => none⟩ [.ref 0 (.obj 0)]
    ∃ u f, compileUnit (Pbare 12) σ [0] = some u ∧ f ∈ u.folds ∧ f.val = .mod 2 ∧
      guardOk (Pbare 12) (run E0 (Pbare 12) σ [.def_ (.klass 2 12 (.mod 9))]).w u f (.obj 0) ∧
      (find E0 (run E0 (Pbare 12) σ [.def_ (.klass 2 12 (.mod 9))]).w (Pbare 12 0) (.obj 0)).1 =
        .ok (.mod 9) :=
  ⟨_, _, rfl, List.mem_cons_self, rfl, ⟨rfl, rfl⟩, rfl⟩

/-! ## C88: autoload -/

theorem runDefs_append (ds es : List Def) : ∀ w : World,
    runDefs w (ds ++ es) = runDefs (runDefs w ds) es := by
  induction ds with
  | nil => exact fun w => rfl
  | cons d ds ih => exact fun w => ih (runDef w d)

/-- The unqualified reference `X` where the autoload of `X` is the first thing found. -/
structure AtAutoload (w : World) (i n c f : Nat) (z : List Nat) : Prop where
  split : ∃ a, w.lex i = a ++ c :: z ∧ ∀ x ∈ a, w.tab x n = none
  entry : ∃ p d, w.tab c n = some ⟨.auto f .idle, p, d⟩
  fresh : f ∉ w.loaded

theorem AtAutoload.first (E : Env) {w : World} {i n c f : Nat} {z : List Nat}
    (h : AtAutoload w i n c f z) :
    getFirst E w n (w.lex i) = match (require E w f) with
      | (true, w') =>
        match afterLoad w' c n with
        | (.ok none, w'') => getFirst E w'' n z
        | r => r
      | (false, w') => (.error (.load f), w') := by
  obtain ⟨a, ha, hn⟩ := h.split
  obtain ⟨p, d, he⟩ := h.entry
  rw [ha, skip_absent E w n a _ hn]
  have hg : getConst E w c n = autoload E w c n f := by unfold getConst; rw [he]
  rw [autoload_eq E w c n f p d he, if_neg h.fresh] at hg
  conv => lhs; unfold getFirst
  rw [hg]
  rcases require E w f with ⟨b, w'⟩
  cases b <;> rfl

/-- C88: a reference to a constant registered with `autoload` runs the file, once, and gives the
value the file left in the constant. -/
theorem C88_defines (E : Env) (w : World) (i n c f : Nat) (z : List Nat) (b v : Val) (p d : Bool)
    (h : AtAutoload w i n c f z) (hok : (E.body f).2 = true)
    (hv : (runDefs (startLoad w f) (E.body f).1).tab c n = some ⟨.loaded v, p, d⟩) :
    ∃ w', find E w { code := i, name := n } b = (.ok v, w') ∧
      w'.log = w.log ++ [.run f true] ∧ f ∈ w'.loaded ∧
      w'.tab c n = some ⟨.loaded v, p, d⟩ := by
  obtain ⟨h1, h2, h3⟩ := require_log E w f h.fresh
  have ht : (require E w f).2.tab c n = some ⟨.loaded v, p, d⟩ := by
    unfold require endLoad
    rw [if_neg h.fresh, if_pos hok]
    show (if autosOf w f c n = true then markState .consumed ((runDefs _ _).tab c n)
      else (runDefs _ _).tab c n) = _
    rw [hv]
    split_ifs <;> rfl
  refine ⟨(require E w f).2, ?_, by rw [h1, hok], by rw [h3, hok]; simp, ht⟩
  unfold find searchChecked search
  simp only [Bool.false_eq_true, if_false]
  rw [h.first]
  rcases hr : require E w f with ⟨r, w'⟩
  rw [hr] at h2 ht
  simp only at h2 ht
  rw [h2, hok]
  simp only
  unfold afterLoad
  rw [ht]

/-- C88: in particular the value assigned by the last statement of the file, or the class it
defines. -/
theorem C88_defines_last (E : Env) (w : World) (i n c f : Nat) (z : List Nat) (b v : Val)
    (ds : List Def) (h : AtAutoload w i n c f z)
    (hb : E.body f = (ds ++ [.assign c n v], true) ∨
      (E.body f = (ds ++ [.klass c n v], true) ∧
        ∀ u p d, (runDefs (startLoad w f) ds).tab c n ≠ some ⟨.loaded u, p, d⟩)) :
    ∃ w', find E w { code := i, name := n } b = (.ok v, w') ∧
      w'.log = w.log ++ [.run f true] ∧ f ∈ w'.loaded := by
  have key : ∀ u : World, ∃ p d, (storeConst u c n v).tab c n = some ⟨.loaded v, p, d⟩ := by
    intro u
    rw [storeConst_tab, if_pos ⟨rfl, rfl⟩]
    exact ⟨_, _, rfl⟩
  rcases hb with hb | ⟨hb, hn⟩
  · obtain ⟨p, d, hk⟩ := key ({ runDefs (startLoad w f) ds with
      ver := (runDefs (startLoad w f) ds).ver + 1 }.bump n)
    obtain ⟨w', r1, r2, r3, _⟩ := C88_defines E w i n c f z b v p d h (by rw [hb]) (by
      rw [hb]
      simp only
      rw [runDefs_append]
      exact hk)
    exact ⟨w', r1, r2, r3⟩
  · obtain ⟨p, d, hk⟩ := key (runDefs (startLoad w f) ds)
    obtain ⟨w', r1, r2, r3, _⟩ := C88_defines E w i n c f z b v p d h (by rw [hb]) (by
      rw [hb]
      simp only
      rw [runDefs_append]
      show (if isLoaded ((runDefs (startLoad w f) ds).tab c n) = true then
        runDefs (startLoad w f) ds else storeConst (runDefs (startLoad w f) ds) c n v).tab c n = _
      have : isLoaded ((runDefs (startLoad w f) ds).tab c n) = false := by
        rcases ht : (runDefs (startLoad w f) ds).tab c n with _ | ⟨k, p', d'⟩
        · rfl
        · cases k with
          | loaded u => exact absurd ht (hn u p' d')
          | auto g s => rfl
      rw [this]
      exact hk)
    exact ⟨w', r1, r2, r3⟩

/-- The definition is about a constant of this name. -/
def names (n : Nat) : Def → Prop
  | .assign _ m _ => m = n
  | .klass _ m _ => m = n
  | .remove _ m => m = n
  | .incl _ => False

theorem runDefs_other (n : Nat) (ds : List Def) : ∀ (w : World), (∀ d ∈ ds, ¬ names n d) →
    ∀ c, (runDefs w ds).tab c n = w.tab c n := by
  induction ds with
  | nil => exact fun w _ c => rfl
  | cons d ds ih =>
    intro w h c
    show (runDefs (runDef w d) ds).tab c n = _
    rw [ih (runDef w d) (fun x hx => h x (by simp [hx])) c]
    have hd := h d (by simp)
    cases d with
    | assign c' m v =>
      have hm : ¬ m = n := hd
      show (storeConst _ c' m v).tab c n = _
      rw [storeConst_tab, if_neg (fun h => hm h.2.symm)]
      rfl
    | klass c' m v =>
      have hm : ¬ m = n := hd
      show (if isLoaded (w.tab c' m) = true then w else storeConst w c' m v).tab c n = _
      split_ifs
      · rfl
      · rw [storeConst_tab, if_neg (fun h => hm h.2.symm)]
    | remove c' m =>
      have hm : ¬ m = n := hd
      show (if c = c' ∧ n = m then none else w.tab c n) = _
      rw [if_neg (fun h => hm h.2.symm)]
    | incl ch => rfl

/-- C88: if the file raises, so does the reference; the registration stays, the file does not count
as loaded, and so the next reference runs it again. -/
theorem C88_raises (E : Env) (w : World) (i n c f : Nat) (z : List Nat) (b : Val)
    (h : AtAutoload w i n c f z) (hr : (E.body f).2 = false)
    (hn : ∀ d ∈ (E.body f).1, ¬ names n d) :
    ∃ w', find E w { code := i, name := n } b = (.error (.load f), w') ∧
      w'.log = w.log ++ [.run f false] ∧ (∀ x, w'.tab x n = w.tab x n ∨
        ∃ p d, w.tab x n = some ⟨.auto f .loading, p, d⟩ ∨
          w.tab x n = some ⟨.auto f .consumed, p, d⟩) ∧ AtAutoload w' i n c f z ∧
      ∃ w'', find E w' { code := i, name := n } b = (.error (.load f), w'') ∧
        w''.log = w.log ++ [.run f false, .run f false] := by
  have once : ∀ u : World, AtAutoload u i n c f z →
      ∃ u', find E u { code := i, name := n } b = (.error (.load f), u') ∧
      u'.log = u.log ++ [.run f false] ∧ (∀ x, u'.tab x n = u.tab x n ∨
        ∃ p d, u.tab x n = some ⟨.auto f .loading, p, d⟩ ∨
          u.tab x n = some ⟨.auto f .consumed, p, d⟩) ∧ AtAutoload u' i n c f z := by
    intro u hu
    obtain ⟨h1, h2, h3⟩ := require_log E u f hu.fresh
    have hlex : (require E u f).2.lex = u.lex := by
      have hl : ∀ (ds : List Def) (x : World), (runDefs x ds).lex = x.lex := by
        intro ds
        induction ds with
        | nil => exact fun x => rfl
        | cons d ds ih =>
          intro x
          show (runDefs (runDef x d) ds).lex = _
          rw [ih]
          cases d with
          | assign c' m v =>
            show (storeConst _ c' m v).lex = _
            rw [storeConst_rest]; rfl
          | klass c' m v =>
            show (if isLoaded (x.tab c' m) = true then x else storeConst x c' m v).lex = _
            split_ifs
            · rfl
            · rw [storeConst_rest]
          | remove c' m => rfl
          | incl ch => rfl
      unfold require endLoad
      rw [if_neg hu.fresh, hr]
      exact hl _ _
    have htab : ∀ x, (require E u f).2.tab x n =
        if isAuto f (u.tab x n) = true then markState .idle (u.tab x n) else u.tab x n := by
      intro x
      unfold require endLoad
      rw [if_neg hu.fresh, hr]
      show (if autosOf u f x n = true then markState .idle ((runDefs _ _).tab x n)
        else (runDefs _ _).tab x n) = _
      rw [runDefs_other n _ _ hn]
      show (if isAuto f (u.tab x n) = true then markState .idle
        (if isAuto f (u.tab x n) = true then markState .loading (u.tab x n) else u.tab x n)
        else if isAuto f (u.tab x n) = true then markState .loading (u.tab x n) else u.tab x n) = _
      split_ifs
      · rcases u.tab x n with _ | ⟨k, p, d⟩
        · rfl
        · cases k <;> rfl
      · rfl
    refine ⟨(require E u f).2, ?_, by rw [h1, hr], ?_, ?_⟩
    · unfold find searchChecked search
      simp only [Bool.false_eq_true, if_false]
      rw [hu.first]
      rcases hq : require E u f with ⟨r, w'⟩
      rw [hq] at h2
      simp only at h2
      rw [h2, hr]
    · intro x
      rw [htab]
      split_ifs with ha
      · rcases ht : u.tab x n with _ | ⟨k, p, d⟩
        · exact Or.inl rfl
        · cases k with
          | loaded v => exact Or.inl rfl
          | auto g s =>
            rw [ht] at ha
            simp only [isAuto, beq_iff_eq] at ha
            subst ha
            cases s with
            | idle => exact Or.inl rfl
            | loading => exact Or.inr ⟨p, d, Or.inl rfl⟩
            | consumed => exact Or.inr ⟨p, d, Or.inr rfl⟩
      · exact Or.inl rfl
    · refine ⟨?_, ?_, by rw [h3, hr]; exact hu.fresh⟩
      · obtain ⟨a, ha, hx⟩ := hu.split
        refine ⟨a, by rw [hlex]; exact ha, fun x hxa => ?_⟩
        rw [htab, hx x hxa]
        rfl
      · obtain ⟨p, d, he⟩ := hu.entry
        refine ⟨p, d, ?_⟩
        rw [htab, he]
        simp [isAuto, markState]
  obtain ⟨w', r1, r2, r3, r4⟩ := once w h
  obtain ⟨w'', q1, q2, _, _⟩ := once w' r4
  exact ⟨w', r1, r2, r3, r4, w'', q1, by rw [q2, r2, List.append_assoc]; rfl⟩

/-- C88: if the file does not define the constant, the registration is gone and the reference goes
on to the outer scopes. -/
theorem C88_silent (E : Env) (w : World) (i n c f : Nat) (y z : List Nat) (e : Nat) (b v : Val)
    (h : AtAutoload w i n c f (y ++ e :: z)) (hok : (E.body f).2 = true)
    (hn : ∀ d ∈ (E.body f).1, ¬ names n d)
    (hy : ∀ x ∈ y, w.tab x n = none) (he : Has w e n v) :
    ∃ w', find E w { code := i, name := n } b = (.ok v, w') ∧
      w'.log = w.log ++ [.run f true] ∧ f ∈ w'.loaded ∧ w'.tab c n = none := by
  obtain ⟨h1, h2, h3⟩ := require_log E w f h.fresh
  obtain ⟨p, d, hc⟩ := h.entry
  have htab : ∀ x, (require E w f).2.tab x n =
      if isAuto f (w.tab x n) = true then markState .consumed (w.tab x n) else w.tab x n := by
    intro x
    unfold require endLoad
    rw [if_neg h.fresh, hok]
    show (if autosOf w f x n = true then markState .consumed ((runDefs _ _).tab x n)
      else (runDefs _ _).tab x n) = _
    rw [runDefs_other n _ _ hn]
    show (if isAuto f (w.tab x n) = true then markState .consumed
      (if isAuto f (w.tab x n) = true then markState .loading (w.tab x n) else w.tab x n)
      else if isAuto f (w.tab x n) = true then markState .loading (w.tab x n) else w.tab x n) = _
    split_ifs
    · rcases w.tab x n with _ | ⟨k, p, d⟩
      · rfl
      · cases k <;> rfl
    · rfl
  rcases hq : require E w f with ⟨r, w'⟩
  rw [hq] at h1 h2 h3 htab
  simp only at h1 h2 h3 htab
  have hal : afterLoad w' c n = (.ok none, removeConst w' c n) := by
    unfold afterLoad
    rw [htab c, hc]
    simp [isAuto, markState]
  have hrt : ∀ x, x ≠ c → (removeConst w' c n).tab x n = w'.tab x n := by
    intro x hx
    show (if x = c ∧ n = n then none else w'.tab x n) = _
    rw [if_neg (fun h => hx h.1)]
  have hec : e ≠ c := by
    rintro rfl
    obtain ⟨q, hq⟩ := he
    rw [hc] at hq
    cases hq
  refine ⟨removeConst w' c n, ?_, ?_, ?_, ?_⟩
  · unfold find searchChecked search
    simp only [Bool.false_eq_true, if_false]
    rw [h.first, hq, h2, hok]
    simp only
    rw [hal]
    simp only
    rw [skip_absent E (removeConst w' c n) n y _ (fun x hx => by
      have hxc : x ≠ c := by
        rintro rfl
        have := hy x hx
        rw [hc] at this
        cases this
      rw [hrt x hxc, htab, hy x hx]
      rfl)]
    obtain ⟨q, hev⟩ := he
    have : getConst E (removeConst w' c n) e n = (.ok (some v), removeConst w' c n) := by
      apply getConst_pure
      rw [hrt e hec, htab, hev]
      rfl
    unfold getFirst
    rw [this]
  · show w'.log = _
    rw [h1, hok]
  · show f ∈ w'.loaded
    rw [h3, hok]; simp
  · show (if c = c ∧ n = n then none else _) = none
    rw [if_pos ⟨rfl, rfl⟩]

/-- C88: whatever happens, a file is run to its end at most once. -/
theorem C88_once (E : Env) (P : Nat → Site) (w : World) (hw : w.log = []) (os : List Op) (f : Nat) :
    (run E P ⟨w, fun _ => none⟩ os).w.log.count (.run f true) ≤ 1 := by
  have h0 : Once w := by
    intro g
    unfold runs
    rw [hw]
    simp
  have := run_once E P os (σ := ⟨w, fun _ => none⟩) h0 f
  unfold runs at this
  split_ifs at this <;> omega

/-- Class 2 with an autoload of the name 12. -/
def w2 : World := register w0 2 12 1

example : AtAutoload w2 1 12 2 1 [] :=
  ⟨⟨[4], rfl, by simp [w2, register, w0, World.put]⟩, ⟨false, false, rfl⟩, by simp [w2, register, w0, World.put]⟩

/-- C88 fails for `const_get`: an exception of the file becomes a `NameError`. -/
theorem C88_const_get_fails :
    let E : Env := ⟨fun _ => ([], false), fun _ _ _ => none⟩
    (find E w2 { code := 7, dyn := true, name := 12 } (.mod 2)).1 = .error (.load 1) ∧
    (constGet E w2 2 [12]).1 = .error .name := ⟨rfl, rfl⟩

end Verif.Const
