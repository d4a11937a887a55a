import Verif.Marshal.Ranges

/-! # What survives a round trip

The part of the language for which `load (dump v)` is a copy of `v`.  The limits are those the
counterexamples of `Props.lean` call for, or simplify the proof (marked "simplification"). -/

namespace Verif.Marshal

/-- A Float whose text is parsed as the same Float. -/
def GoodFloat (E : Env) (b : UInt64) : Prop := 0 ∉ E.txt b ∧ E.num (E.txt b) = some b

/-- A value, not looking into objects. -/
def GoodVal (E : Env) : Val → Prop
  | .fix k => -0x40000000 ≤ k ∧ k ≤ 0x3fffffff
  | .flo b => E.isFlo b = true ∧ GoodFloat E b
  | .sym s => GoodSym s
  -- ASCII names only: simplification
  | .cls name => E.kind name ≠ none ∧ ascii name = true
  | _ => True

/-- The modules and the class of an instance of a subclass of a built-in class. -/
def GoodHead (E : Env) (o : Obj) : Prop :=
  o.ext.Nodup ∧ (∀ m ∈ o.ext, GoodSym m ∧ E.kind m.bytes = some .module) ∧
  ∀ c, o.cls = some c → GoodSym c ∧ E.top c.bytes = true ∧ c.bytes ≠ nHash

/-- Instance variables have distinct names, and not those of an encoding. -/
def GoodIvars (o : Obj) : Prop :=
  (o.ivars.map (·.1)).Nodup ∧
  ∀ p ∈ o.ivars, GoodSym p.1 ∧ p.1.bytes ≠ nE ∧ p.1.bytes ≠ nEncoding

/-- A plain instance of a built-in class. -/
def Plain (o : Obj) : Prop := o.cls = none ∧ o.ext = [] ∧ o.ivars = []

/-- An object, not looking into the objects it holds. -/
def GoodObj (E : Env) (H : List Obj) (o : Obj) : Prop :=
  match o.body with
  | .str _ e => o.ivars = [] ∧
      (e = .binary ∧ GoodHead E o ∨ (e = .utf8 ∨ e = .usAscii) ∧ o.cls = none ∧ o.ext = [])
  | .arr _ => GoodHead E o ∧ GoodIvars o
  | .hash ps d byId => GoodHead E o ∧ GoodIvars o ∧ (∀ p ∈ ps, KeyOk H p.1) ∧
      (ps.Pairwise fun p q => keyEq H p.1 q.1 = false) ∧ d ≠ some .nil ∧ (byId = true → E.top nHash = true)
  | .big n => Plain o ∧ ¬(-(2 ^ 62) ≤ n ∧ n < 2 ^ 62)
  | .float b => Plain o ∧ E.isFlo b = false ∧ GoodFloat E b
  | .obj => ∃ c, o.cls = some c ∧ GoodSym c ∧ E.kind c.bytes = some .plain ∧ c.bytes ≠ nRange ∧
      o.ext.Nodup ∧ (∀ m ∈ o.ext, GoodSym m ∧ E.kind m.bytes = some .module) ∧
      (o.ivars.map (·.1)).Nodup ∧ ∀ p ∈ o.ivars, GoodSym p.1
  | .struct ms => ∃ c, o.cls = some c ∧ GoodSym c ∧ E.kind c.bytes = some (.struct (ms.map (·.1))) ∧
      (∀ p ∈ ms, GoodSym p.1) ∧
      o.ext.Nodup ∧ (∀ m ∈ o.ext, GoodSym m ∧ E.kind m.bytes = some .module) ∧ GoodIvars o
  | .range b e _ => Plain o ∧ (∀ a, b ≠ .ref a) ∧ (∀ a, e ≠ .ref a) ∧ E.kind nRange ≠ none
  | .regexp .. => False

/-- Everything reachable is good. -/
def Fine (E : Env) (H : List Obj) (v : Val) : Prop :=
  GoodVal E v ∧ ∀ a, Reach H v a → ∃ o, H[a]? = some o ∧ GoodObj E H o ∧ ∀ u ∈ o.vals, GoodVal E u

theorem Fine.sub {E : Env} {H : List Obj} {a : Nat} (h : Fine E H (.ref a)) :
    ∃ o, H[a]? = some o ∧ GoodObj E H o ∧ ∀ u ∈ o.vals, Fine E H u := by
  obtain ⟨o, h1, h2, h3⟩ := h.2 a (.here a)
  exact ⟨o, h1, h2, fun u hu => ⟨h3 u hu, fun b hb => h.2 b (.step h1 hu hb)⟩⟩

end Verif.Marshal
