import Verif.Ensure.Model

/-!
# What Ruby promises

The meaning of the statements by the language alone, without code, tables or labels: which outcome
a statement has and which state it leaves.  Nothing here mentions the generator or the machine.
-/

namespace Verif.Ensure

/-- How a statement ends. -/
inductive Outc where
  | norm
  | brk
  | nxt
  | retry
  | ret (v : Nat)
  | exc (x : Nat)
  | unw (u : Unw)
deriving DecidableEq, Repr

/-- How a primitive that is a statement ends. -/
def Res.out : Res → Outc
  | .ok _ => .norm
  | .exc x => .exc x
  | .unw u => .unw u

/-- The outcome of a region with an ensure clause: that of the protected part, unless the ensure
clause itself ends otherwise than normally. -/
def after (o e : Outc) : Outc := if e = .norm then o else e

/-- `return` with an operand. -/
def retOut {σ} (I : Interp σ) (s : σ) : RetK → Outc × σ
  | .val a | .asg a =>
    match I.act a s with
    | (.ok v, s') => (.ret v, s')
    | (r, s') => (r.out, s')
  | .loc x => (.ret (I.loc x s), s)

mutual
/-- `Ev I s σ o σ'`: the statement, begun in `σ`, ends with outcome `o` in `σ'`. -/
inductive Ev {σ : Type} (I : Interp σ) : Stmt → σ → Outc → σ → Prop where
  | skip (s) : Ev I .skip s .norm s
  | act (a s) : Ev I (.act a) s (I.act a s).1.out (I.act a s).2
  | seq (a b s s1 o s2) : Ev I a s .norm s1 → Ev I b s1 o s2 → Ev I (.seq a b) s o s2
  | seqOut (a b s o s1) : Ev I a s o s1 → o ≠ .norm → Ev I (.seq a b) s o s1
  | iteT (c a b s s1 o s2) : I.cond c s = (true, s1) → Ev I a s1 o s2 → Ev I (.ite c a b) s o s2
  | iteF (c a b s s1 o s2) : I.cond c s = (false, s1) → Ev I b s1 o s2 → Ev I (.ite c a b) s o s2
  | loopEnd (c a s s1) : I.cond c s = (false, s1) → Ev I (.loop c a) s .norm s1
  | loopMore (c a s s1 o s2 o' s3) : I.cond c s = (true, s1) → Ev I a s1 o s2 →
      (o = .norm ∨ o = .nxt) → Ev I (.loop c a) s2 o' s3 → Ev I (.loop c a) s o' s3
  | loopBrk (c a s s1 s2) : I.cond c s = (true, s1) → Ev I a s1 .brk s2 →
      Ev I (.loop c a) s .norm s2
  | loopOut (c a s s1 o s2) : I.cond c s = (true, s1) → Ev I a s1 o s2 →
      o ≠ .norm → o ≠ .nxt → o ≠ .brk → Ev I (.loop c a) s o s2
  | brk (s) : Ev I .brk s .brk s
  | nxt (s) : Ev I .nxt s .nxt s
  | retry (s) : Ev I .retry s .retry s
  | ret (k s) : Ev I (.ret k) s (retOut I s k).1 (retOut I s k).2
  | ens (b n s o s1 e s2) : Ev I b s o s1 → Ev I n s1 e s2 → Ev I (.ens b n) s (after o e) s2
  | beg (b cl el n s o s1) : EvR I b cl el s o s1 → Ev I (.beg false b cl el n) s o s1
  | begEns (b cl el n s o s1 e s2) : EvR I b cl el s o s1 → Ev I n s1 e s2 →
      Ev I (.beg true b cl el n) s (after o e) s2

/-- `begin b rescue cl else el end`. -/
inductive EvR {σ : Type} (I : Interp σ) : Stmt → Clauses → Stmt → σ → Outc → σ → Prop where
  | els (b cl el s s1 o s2) : Ev I b s .norm s1 → Ev I el s1 o s2 → EvR I b cl el s o s2
  | caught (b cl el s x s1 o s2) : Ev I b s (.exc x) s1 → EvC I cl x s1 (some o) s2 →
      o ≠ .retry → EvR I b cl el s o s2
  | again (b cl el s x s1 s2 o s3) : Ev I b s (.exc x) s1 → EvC I cl x s1 (some .retry) s2 →
      EvR I b cl el s2 o s3 → EvR I b cl el s o s3
  | uncaught (b cl el s x s1 s2) : Ev I b s (.exc x) s1 → EvC I cl x s1 none s2 →
      EvR I b cl el s (.exc x) s2
  | out (b cl el s o s1) : Ev I b s o s1 → o ≠ .norm → (∀ x, o ≠ .exc x) → EvR I b cl el s o s1

/-- The rescue clauses, for the exception `x`: the outcome of the first that matches, or `none`.
Only a clause that matches assigns its variable. -/
inductive EvC {σ : Type} (I : Interp σ) : Clauses → Nat → σ → Option Outc → σ → Prop where
  | nil (x s) : EvC I .nil x s none s
  | hit (m body rest x s s1 o s2) : I.test m x s = (.ok true, s1) → Ev I body s1 o s2 →
      EvC I (.cons m none body rest) x s (some o) s2
  | hitBind (m v body rest x s s1 o s2) : I.test m x s = (.ok true, s1) →
      Ev I body (I.bind v x s1) o s2 → EvC I (.cons m (some v) body rest) x s (some o) s2
  | miss (m b body rest x s s1 o s2) : I.test m x s = (.ok false, s1) → EvC I rest x s1 o s2 →
      EvC I (.cons m b body rest) x s o s2
  | err (m b body rest x s y s1) : I.test m x s = (.error y, s1) →
      EvC I (.cons m b body rest) x s (some (.exc y)) s1
end

/-- How a method whose body has this outcome ends, if the outcome is one a method body can have;
a body that runs to its end returns `nil`. -/
def Outc.fin : Outc → Option Fin
  | .norm => some (.ret 0)
  | .ret w => some (.ret w)
  | .exc x => some (.exc x)
  | .unw (.mret w) => some (.ret w)
  | .unw (.thr t) => some (.thr t)
  | _ => none

/-! ## The fragment

The places where the generated code is right.  Each restriction is a claim about the source
program; Props.lean shows for each that without it the code is wrong. -/

mutual
/-- A `retry` in `s` that belongs to a rescue clause around `s`. -/
def freeRetry : Stmt → Bool
  | .retry => true
  | .seq a b | .ite _ a b => freeRetry a || freeRetry b
  | .loop _ a => freeRetry a
  | .ens b n => freeRetry b || freeRetry n
  | .beg h b _ e n => freeRetry b || freeRetry e || (h && freeRetry n)
  | _ => false

/-- `s` contains an ensure clause. -/
def hasEns : Stmt → Bool
  | .seq a b | .ite _ a b => hasEns a || hasEns b
  | .loop _ a => hasEns a
  | .ens _ _ => true
  | .beg h b cl e _ => h || hasEns b || hasEnsC cl || hasEns e
  | _ => false

def hasEnsC : Clauses → Bool
  | .nil => false
  | .cons _ _ b r => hasEns b || hasEnsC r
end

/-- Whatever the state, `n` runs to its end: it does not raise, return, break, … -/
def Finishes {σ} (I : Interp σ) (n : Stmt) : Prop := ∀ s o s', Ev I n s o s' → o = .norm

/-- Whatever the state, `b` does not end by an unwinding. -/
def NoUnw {σ} (I : Interp σ) (b : Stmt) : Prop := ∀ s u s', ¬ Ev I b s (.unw u) s'

/-- Whatever the state, `b` does not raise. -/
def NoExc {σ} (I : Interp σ) (b : Stmt) : Prop := ∀ s x s', ¬ Ev I b s (.exc x) s'

mutual
/-- The fragment; `u` says that an ensure clause is around. -/
def Ok {σ} (I : Interp σ) (u : Bool) : Stmt → Prop
  | .seq a b | .ite _ a b => Ok I u a ∧ Ok I u b
  | .loop _ a => Ok I u a
  -- `return x` and `return @v = …` are not inside a region with an ensure clause
  | .ret (.loc _) | .ret (.asg _) => u = false
  | .ens b n =>
    Ok I true b ∧ Ok I true n ∧ hasEns n = false ∧ Finishes I n ∧ freeRetry b = false
  | .beg false b cl e _ =>
    Ok I u b ∧ OkC I u cl ∧ Ok I u e ∧ (u = true → NoUnw I b)
  | .beg true b cl e n =>
    Ok I true b ∧ OkC I true cl ∧ Ok I true e ∧ Ok I true n ∧ hasEns n = false ∧ Finishes I n ∧
      freeRetry b = false ∧ freeRetry e = false ∧ NoExc I e ∧ NoUnw I e
  | _ => True

def OkC {σ} (I : Interp σ) (u : Bool) : Clauses → Prop
  | .nil => True
  -- a clause with a variable matches whatever reaches it, and matching does not depend on the
  -- variable
  | .cons m b body rest =>
    (∀ v, b = some v → ∀ x s, I.test m x (I.bind v x s) = (.ok true, I.bind v x s) ∧
      I.test m x s = (.ok true, s)) ∧
    Ok I u body ∧ OkC I u rest
end

end Verif.Ensure
