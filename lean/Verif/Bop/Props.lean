import Verif.Bop.Lemmas
import Verif.Bop.JitLemmas
import Verif.Bop.CaseLemmas

/-!
# Operators and their redefinition: properties C106 – C109
-/

namespace Verif.Bop

/-- Values that can exist: an immediate belongs to its core class, a heap value
to that class or a class below it. -/
def Wf (w : World) (v : Val) : Prop :=
  match v.tag with
  | .fixnum | .bignum | .float | .symbol | .nil | .true_ | .false_ => v.cls = coreClass v.tag
  | t => coreClass t ∈ w.anc v.cls

instance (w : World) (v : Val) : Decidable (Wf w v) := by
  unfold Wf; split <;> infer_instance

/-! ## C106: an operator runs the method a lookup finds -/

/-- **C106.**  Whatever the program has done to the classes, `a op b` runs the
method that an ordinary lookup of `op` finds for `a`. -/
def C106 : Prop :=
  ∀ (l : List Act) (fcall : Bool) (v r : Val) (fits : Bool) (o : Op),
    o ≠ .ne → Wf (acts boot l) v →
    evalOp (acts boot l) fcall v r fits o = rubyOp (acts boot l) fcall v o

/-- **C106, partial.**  It holds for receivers that are instances of a core class
itself, as long as operators are redefined, undefined or removed where the
redefinition table can see it (in that class, not in an ancestor it inherits the
operator from and not in a module prepended to it), and no operator is made
private.  Missing: the cases of the counterexamples below. -/
theorem C106_operator_dispatch_partial (l : List Act) (hl : BenignRun boot l)
    (fcall : Bool) (v r : Val) (fits : Bool) (o : Op) (ho : o ≠ .ne) (hx : Exact v)
    (hm : o = .index → v.cls ≠ METHOD) :
    evalOp (acts boot l) fcall v r fits o = rubyOp (acts boot l) fcall v o :=
  evalOp_ok (inv_acts boot l inv_boot hl) fcall v r fits o ho hx hm

/-- `def +` in Integer is seen. -/
theorem seen_integer_add (w : World) (h : ∀ c, c = FLOAT ∨ c = COMPLEX → INTEGER ∉ w.anc c) :
    Seen w INTEGER .add := by
  intro c hc
  have : c = INTEGER ∨ c = FLOAT ∨ c = COMPLEX := by
    simp [tracked] at hc
    exact hc
  rcases this with rfl | hc'
  · exact Or.inl rfl
  · exact Or.inr (Or.inl (h c hc'))

/-- The hypotheses are met by a program that redefines `Integer#+`; the operator
then runs the new method, in the fixnum case and in the others. -/
example : BenignRun boot [.define INTEGER .add 7, .undef INTEGER .add] ∧
    evalOp (acts boot [.define INTEGER .add 7]) false ⟨.fixnum, INTEGER⟩ ⟨.fixnum, INTEGER⟩ true .add
      = .impl (.user 7) ∧
    evalOp (acts boot [.define INTEGER .add 7]) false ⟨.bignum, INTEGER⟩ ⟨.float, FLOAT⟩ true .add
      = .impl (.user 7) ∧
    evalOp (acts boot [.define INTEGER .add 7, .undef INTEGER .add]) false ⟨.fixnum, INTEGER⟩
      ⟨.fixnum, INTEGER⟩ true .add = .noMethod ∧
    evalOp boot false ⟨.fixnum, INTEGER⟩ ⟨.fixnum, INTEGER⟩ true .add
      = .impl (.builtin INTEGER .add) := by
  refine ⟨⟨seen_integer_add _ ?_, seen_integer_add _ ?_, trivial⟩, by decide, by decide, by decide,
    by decide⟩
  · rintro c (rfl | rfl) <;> decide
  · rintro c (rfl | rfl) <;> decide

/-- Redefining one operator marks that pair only: every other tracked pair is
answered natively as before. -/
theorem C106_only_the_named_pair (l : List Act) (c : Mod) (o : Op)
    (h : (c, o) ∈ (acts boot l).redef) :
    (c, o) ∈ tracked ∧ ∃ a ∈ l, (∃ n, a = .define c o n) ∨ a = .undef c o ∨ a = .remove c o ∨
      ∃ p, a = .visibility c o p := by
  have key : ∀ (l : List Act) (w : World), (c, o) ∈ (acts w l).redef →
      (c, o) ∈ w.redef ∨ ((c, o) ∈ tracked ∧ ∃ a ∈ l, (∃ n, a = .define c o n) ∨ a = .undef c o ∨
        a = .remove c o ∨ ∃ p, a = .visibility c o p) := by
    intro l
    induction l with
    | nil => intro w h; exact Or.inl h
    | cons a rest ih =>
      intro w h
      rcases ih (act w a) h with h' | ⟨ht, b, hb, hb'⟩
      · have hmark : ∀ (w' : World) (m : Mod) (o' : Op), (c, o) ∈ (mark w' m o').redef →
            (c, o) ∈ w'.redef ∨ ((c, o) ∈ tracked ∧ m = c ∧ o' = o) := by
          intro w' m o' hm
          unfold mark at hm
          split at hm
          · rename_i htr
            simp only [List.mem_cons, Prod.mk.injEq] at hm
            rcases hm with ⟨rfl, rfl⟩ | hm
            · exact Or.inr ⟨htr, rfl, rfl⟩
            · exact Or.inl hm
          · exact Or.inl hm
        cases a with
        | define m o' n =>
          rcases hmark _ _ _ h' with h'' | ⟨ht, rfl, rfl⟩
          · exact Or.inl h''
          · exact Or.inr ⟨ht, _, List.mem_cons_self, Or.inl ⟨n, rfl⟩⟩
        | undef m o' =>
          rcases hmark _ _ _ h' with h'' | ⟨ht, rfl, rfl⟩
          · exact Or.inl h''
          · exact Or.inr ⟨ht, _, List.mem_cons_self, Or.inr (Or.inl rfl)⟩
        | remove m o' =>
          rcases hmark _ _ _ h' with h'' | ⟨ht, rfl, rfl⟩
          · exact Or.inl h''
          · exact Or.inr ⟨ht, _, List.mem_cons_self, Or.inr (Or.inr (Or.inl rfl))⟩
        | visibility m o' p =>
          simp only [act] at h'
          split at h'
          · exact Or.inl h'
          · split at h'
            · split at h'
              · exact Or.inl h'
              · rcases hmark _ _ _ h' with h'' | ⟨ht, rfl, rfl⟩
                · exact Or.inl h''
                · exact Or.inr ⟨ht, _, List.mem_cons_self, Or.inr (Or.inr (Or.inr ⟨p, rfl⟩))⟩
            · exact Or.inl h'
        | incl m m' => exact Or.inl h'
        | prep m m' => exact Or.inl h'
        | derive m m' => exact Or.inl h'
      · exact Or.inr ⟨ht, b, List.mem_cons_of_mem _ hb, hb'⟩
  rcases key l boot h with h' | h'
  · cases h'
  · exact h'

example : (INTEGER, Op.add) ∈ (acts boot [.define INTEGER .add 7]).redef ∧
    (INTEGER, Op.sub) ∉ (acts boot [.define INTEGER .add 7]).redef ∧
    (FLOAT, Op.add) ∉ (acts boot [.define INTEGER .add 7]).redef := by decide

/-- **C106 fails (1).**  A module prepended to Integer: `1 + 2` still runs the
builtin. -/
theorem C106_prepend_fails : ¬ C106 := by
  intro h
  have := h [.define 20 .add 7, .prep INTEGER 20] false ⟨.fixnum, INTEGER⟩ ⟨.fixnum, INTEGER⟩ true
    .add (by decide) (by decide)
  exact absurd this (by decide)

/-- **C106 fails (2).**  An operator the class inherits, redefined in the
ancestor: `!5` after `class Object; def ! …`, `nil === x` after
`class Object; def === …`. -/
theorem C106_inherited_fails :
    (∃ l v r, Wf (acts boot l) v ∧
      evalOp (acts boot l) false v r true .not ≠ rubyOp (acts boot l) false v .not) ∧
    (∃ l v r, Wf (acts boot l) v ∧
      evalOp (acts boot l) false v r true .teq ≠ rubyOp (acts boot l) false v .teq) :=
  ⟨⟨[.define OBJECT .not 7], ⟨.fixnum, INTEGER⟩, ⟨.nil, NIL⟩, by decide, by decide⟩,
   ⟨[.define OBJECT .teq 7], ⟨.nil, NIL⟩, ⟨.fixnum, INTEGER⟩, by decide, by decide⟩⟩

/-- **C106 fails (3).**  A subclass of String (or the singleton class of one
string) that defines `==`: the override is not called. -/
theorem C106_subclass_fails :
    ∃ l v r, Wf (acts boot l) v ∧ rubyOp (acts boot l) false v .eq = .impl (.user 7) ∧
      evalOp (acts boot l) false v r true .eq = .impl (.builtin STRING .eq) :=
  ⟨[.derive 20 STRING, .define 20 .eq 7], ⟨.string, 20⟩, ⟨.string, STRING⟩, by decide, by decide,
    by decide⟩

/-- **C106 fails (4).**  `private :+` in Integer does not stop `1 + 2`. -/
theorem C106_private_fails :
    ∃ l v r, Wf (acts boot l) v ∧ rubyOp (acts boot l) false v .add = .noMethod ∧
      evalOp (acts boot l) false v r true .add = .impl (.builtin INTEGER .add) :=
  ⟨[.visibility INTEGER .add true], ⟨.fixnum, INTEGER⟩, ⟨.fixnum, INTEGER⟩, by decide, by decide,
    by decide⟩

/-- **C106 fails (5).**  `Method#[]` is answered inline but not tracked. -/
theorem C106_method_index_fails :
    ∃ l v r, Wf (acts boot l) v ∧ rubyOp (acts boot l) false v .index = .impl (.user 7) ∧
      evalOp (acts boot l) false v r true .index = .impl (.builtin METHOD .index) :=
  ⟨[.define METHOD .index 7], ⟨.other, METHOD⟩, ⟨.fixnum, INTEGER⟩, by decide, by decide, by decide⟩

/-! ## C107: `!=` -/

/-- **C107.**  Unless the program defines `!=`, `a != b` is the opposite of what
`a == b` answers, whatever `==` the program has defined. -/
def C107 : Prop :=
  ∀ (l : List Act) (fcall : Bool) (v r : Val) (fits : Bool), Wf (acts boot l) v →
    evalOp (acts boot l) fcall v r fits .ne = rubyOp (acts boot l) fcall v .ne

/-- **C107, partial.**  It holds (in the setting of C106) for receivers whose
`!=` is the program's own or the builtin one of Integer, Float, String or
BasicObject, except that two fixnums are compared without asking a redefined
`Integer#==`.  Missing: those cases, shown below to fail. -/
theorem C107_not_equal_partial (l : List Act) (hl : BenignRun boot l)
    (fcall : Bool) (v r : Val) (fits : Bool) (hx : Exact v)
    (hfound : lookup (acts boot l) v.cls .ne ≠ none)
    (howner : ∀ m o p, lookup (acts boot l) v.cls .ne = some ⟨some (.builtin m o), p⟩ →
      m = INTEGER ∨ m = FLOAT ∨ m = STRING ∨ m = BASIC_OBJECT)
    (hfix : v.tag = .fixnum → r.tag = .fixnum →
      lookup (acts boot l) INTEGER .eq = lookup boot INTEGER .eq) :
    evalOp (acts boot l) fcall v r fits .ne = rubyOp (acts boot l) fcall v .ne := by
  have hi := inv_acts boot l inv_boot hl
  generalize hw : acts boot l = w at *
  unfold evalOp
  split
  · rename_i hh
    obtain ⟨h1, h2, h3, h4⟩ := asmHit_iff _ _ _ _ _ hh
    have hr : r.tag = .fixnum := by
      rcases h3 with h3 | h3
      · exact absurd h3 (by decide)
      · exact h3
    have hc : v.cls = INTEGER := by
      rcases hx with h' | h' | h' | h'
      · rw [h2] at h'; cases h'
      · rw [h2] at h'; cases h'
      · rw [h2] at h'; cases h'
      · rw [h', h2]; rfl
    have hnr : (INTEGER, Op.ne) ∉ w.redef := fun h => h4 (hi.bit _ h1 h)
    have hk := (hi.keep INTEGER .ne (by decide)).resolve_left hnr
    have he := hfix h2 hr
    unfold rubyOp
    rw [hc, hk, he]
    cases fcall <;> decide
  · show neValues w fcall v = _
    unfold neValues rubyOp
    cases hlk : lookup w v.cls .ne with
    | none => exact absurd hlk hfound
    | some e =>
      obtain ⟨i, p⟩ := e
      obtain ⟨m, -, hm⟩ := search_found _ _ _ _ hlk
      have hp : p = false := hi.pub _ _ _ hm
      subst hp
      cases i with
      | none => rfl
      | some i =>
        cases i with
        | user n => simp [defaultNeq, resolve, runImpl]
        | builtin k o' =>
          obtain ⟨rfl, rfl⟩ := hi.own _ _ _ _ _ hm
          have hd : defaultNeq (some ⟨some (.builtin k .ne), false⟩) = true := by
            rcases howner _ _ _ hlk with rfl | rfl | rfl | rfl <;> decide
          rw [if_pos hd, guarded_ok hi fcall true v .eq hx]
          simp [resolve]

/-- Nothing has to be assumed about `!=` at start-up for the core classes. -/
example : ∀ c ∈ [INTEGER, FLOAT, STRING, NIL, TRUE, FALSE, ARRAY, HASH, OBJECT],
    ∃ m, lookup boot c .ne = some ⟨some (.builtin m .ne), false⟩ ∧
      (m = INTEGER ∨ m = FLOAT ∨ m = STRING ∨ m = BASIC_OBJECT) := by
  intro c hc
  simp only [List.mem_cons, List.not_mem_nil, or_false] at hc
  rcases hc with rfl | rfl | rfl | rfl | rfl | rfl | rfl | rfl | rfl
  · exact ⟨INTEGER, by decide, by decide⟩
  · exact ⟨FLOAT, by decide, by decide⟩
  · exact ⟨STRING, by decide, by decide⟩
  all_goals exact ⟨BASIC_OBJECT, by decide, by decide⟩

/-- A redefined `String#==` decides `!=`; so does `Integer#==` for a Bignum. -/
example : evalOp (acts boot [.define STRING .eq 7]) false ⟨.string, STRING⟩ ⟨.string, STRING⟩ true .ne
      = .negated (.impl (.user 7)) ∧
    evalOp (acts boot [.define INTEGER .eq 7]) false ⟨.bignum, INTEGER⟩ ⟨.fixnum, INTEGER⟩ true .ne
      = .negated (.impl (.user 7)) := by decide

/-- **C107 fails (1).**  With `Integer#==` redefined, `1 != 2` does not ask it. -/
theorem C107_fixnum_fails : ¬ C107 := by
  intro h
  have := h [.define INTEGER .eq 7] false ⟨.fixnum, INTEGER⟩ ⟨.fixnum, INTEGER⟩ true (by decide)
  exact absurd this (by decide)

/-- **C107 fails (2).**  With `Symbol#==` redefined, `:a != :b` does not ask it. -/
theorem C107_symbol_fails :
    ∃ l v r, Wf (acts boot l) v ∧
      rubyOp (acts boot l) false v .ne = .negated (.impl (.user 7)) ∧
      evalOp (acts boot l) false v r true .ne = .negated (.impl (.builtin SYMBOL .eq)) :=
  ⟨[.define SYMBOL .eq 7], ⟨.symbol, SYMBOL⟩, ⟨.symbol, SYMBOL⟩, by decide, by decide, by decide⟩

/-- **C107 fails (3).**  A class that includes Comparable and defines `==`:
`a != b` runs `Comparable#!=`, which asks `<=>` (and raises when that is nil)
instead of negating `==`. -/
theorem C107_comparable_fails :
    ∃ l v r, Wf (acts boot l) v ∧
      rubyOp (acts boot l) false v .ne = .negated (.impl (.user 7)) ∧
      evalOp (acts boot l) false v r true .ne = .impl (.builtin COMPARABLE .ne) :=
  ⟨[.derive 20 OBJECT, .incl 20 COMPARABLE, .define 20 .eq 7], ⟨.other, 20⟩, ⟨.nil, NIL⟩,
    by decide, by decide, by decide⟩

/-! ## C108: compiled code after a redefinition -/

/-- **C108.**  Once an operator is redefined, no compiled code that is running
still computes the builtin operator: at every moment, the innermost frame
inlines no redefined operator. -/
def C108 (arch : Arch) : Prop := ∀ l, stale (jrun arch jinit l) = []

/-- **C108, partial.**  It holds when definitions find no frame relying on the
operator suspended in another fiber, removals find none at all, and (on x86-64)
direct calls go where ordinary calls go.  Missing: those cases, shown below to
fail. -/
theorem C108_no_stale_operator_partial (arch : Arch) (l : List JAct)
    (hl : CoveredRun arch jinit l) : stale (jrun arch jinit l) = [] := by
  have hi := jinv_run arch l jinit (jinv_init arch) hl
  unfold stale
  split
  · rename_i b rest h
    rw [List.filter_eq_nil_iff]
    intro p hp
    simp only [decide_eq_true_eq]
    exact hi.stackOk (jrun arch jinit l).cur b (by rw [h]; simp) p hp
  · rfl

/-- A method compiled with `Integer#+` inlined, running twice over (recursively)
when a callee redefines `+`: its frames continue interpreted, and the next call
is interpreted. -/
example : CoveredRun .x86_64 jinit
      [.compile 0 [(INTEGER, .add)], .call 0, .call 0, .call 1, .redefine (INTEGER, .add) .byDef,
        .ret, .call 0] ∧
    (jrun .x86_64 jinit [.compile 0 [(INTEGER, .add)], .call 0, .call 0]).stack 0
      = [.jit ⟨[(INTEGER, .add)]⟩, .jit ⟨[(INTEGER, .add)]⟩] ∧
    (jrun .x86_64 jinit
      [.compile 0 [(INTEGER, .add)], .call 0, .call 0, .call 1, .redefine (INTEGER, .add) .byDef,
        .ret, .call 0]).stack 0 = [.vm, .vm, .vm] := by
  refine ⟨⟨trivial, trivial, trivial, trivial, ?_, trivial, trivial, trivial⟩, by decide, by decide⟩
  intro f hf b hb
  have : f ≠ 0 := hf
  simp [jact, jinit, setAt, this] at hb

/-- Redefining a pair leaves the compiled code of units that do not rely on it. -/
theorem C108_others_stay_compiled (arch : Arch) (s : JState) (p : Pair) (how : How) (u : Unit')
    (h : p ∉ s.deps u) :
    (jact arch s (.redefine p how)).entry u = s.entry u ∧
    (jact arch s (.redefine p how)).loop u = s.loop u ∧
    (jact arch s (.redefine p how)).slot u = s.slot u := by
  simp only [jact]
  split
  · cases how
    · simp [checkBop, chainDeopt, evict, h]
    · simp [evict, h]
  · exact ⟨rfl, rfl, rfl⟩

/-- A unit compiled for `Float#+` when `Integer#+` is redefined. -/
example : ((INTEGER, Op.add) ∉ (jrun .x86_64 jinit [.compile 3 [(FLOAT, .add)]]).deps 3) ∧
    (jrun .x86_64 jinit [.compile 3 [(FLOAT, .add)], .redefine (INTEGER, .add) .byDef]).entry 3
      = some ⟨[(FLOAT, .add)]⟩ := by decide

/-- What is compiled afterwards never inlines a redefined operator. -/
theorem C108_never_reassumed (arch : Arch) (s : JState) (u : Unit') (inl : List Pair) (b : Body)
    (h : (jact arch s (.compile u inl)).entry u = some b) :
    ∀ p ∈ b.inl, p ∉ s.redef := by
  simp only [jact, setAt, if_true, Option.some.injEq] at h
  subst h
  intro p hp
  exact mem_assumable hp

example : (jrun .aarch64 jinit [.redefine (INTEGER, .add) .byDef,
    .compile 0 [(INTEGER, .add), (INTEGER, .sub)]]).entry 0 = some ⟨[(INTEGER, .sub)]⟩ := by decide

/-- **C108 fails (1), x86-64.**  A compiled caller enters its compiled callee
directly; the redefinition unlinks the callee only for ordinary calls. -/
theorem C108_direct_call_fails : ¬ C108 .x86_64 := by
  intro h
  have := h [.compile 0 [(INTEGER, .add)], .compile 1 [], .redefine (INTEGER, .add) .byDef,
    .call 1, .callDirect 0]
  exact absurd this (by decide)

/-- **C108 fails (2), both.**  `remove_method` (or `undef`) called from a compiled
method: the frame goes on with the inlined operator. -/
theorem C108_removal_fails (arch : Arch) : ¬ C108 arch := by
  intro h
  have := h [.compile 0 [(INTEGER, .add)], .call 0, .redefine (INTEGER, .add) .byRemoval]
  cases arch <;> exact absurd this (by decide)

/-- **C108 fails (3), both.**  A frame suspended in another fiber keeps the
inlined operator across a `def`. -/
theorem C108_fiber_fails (arch : Arch) :
    ∃ l, (∀ a ∈ l, (∀ p, a ≠ .redefine p .byRemoval) ∧ ∀ u, a ≠ .callDirect u) ∧
      stale (jrun arch jinit l) ≠ [] := by
  refine ⟨[.compile 0 [(INTEGER, .add)], .call 0, .resume 1, .redefine (INTEGER, .add) .byDef,
    .resume 0], ?_, ?_⟩
  · intro a ha
    simp only [List.mem_cons, List.not_mem_nil, or_false] at ha
    rcases ha with rfl | rfl | rfl | rfl | rfl <;> simp
  · cases arch <;> decide

/-! ## C109: `case` over integer literals -/

/-- **C109.**  A `case` runs the first branch one of whose literals accepts the
subject (`literal === subject`), and `else` if there is none, also when it is
compiled to a jump table. -/
def C109 : Prop := ∀ (ws : Whens) (s : Subj), checkOpt ws = true → optCase ws s = firstMatch s 0 ws

/-- **C109, partial.**  It holds for every Integer subject, of any size, when no
literal is repeated in two branches.  Missing: repeated literals and subjects
that are not Integers, shown below to fail. -/
theorem C109_jump_table_partial (ws : Whens) (h : checkOpt ws = true)
    (hd : ∀ (a b : Nat) (w w' : List Int) (i : Int), ws[a]? = some w → ws[b]? = some w' →
      i ∈ w → i ∈ w' → a = b) (k : Int) :
    optCase ws (.int k) = firstMatch (.int k) 0 ws := by
  have hmin := minLit_nonneg h
  have hmax := maxLit_lt h
  have hout : ¬(minLit ws ≤ k ∧ k ≤ maxLit ws) → firstMatch (.int k) 0 ws = none := by
    intro hn
    cases hf : firstMatch (.int k) 0 ws with
    | none => rfl
    | some b =>
      have hm := firstMatch_mem k 0 ws b hf
      exact absurd ⟨minLit_le hm, le_maxLit hm⟩ hn
  simp only [optCase]
  split
  · split
    · rename_i hk
      exact table_ok ws hd k hk
    · rename_i hk
      exact (hout hk).symm
  · rename_i hk
    exact (hout (by omega)).symm

/-- A table with a gap, two literals in one branch, and subjects inside, between
and far outside. -/
example : checkOpt [[3], [1, 2], [10], [11], [12], [13], [14]] = true ∧
    (∀ (a b : Nat) (w w' : List Int) (i : Int),
      ([[3], [1, 2], [10], [11], [12], [13], [14]] : Whens)[a]? = some w →
      ([[3], [1, 2], [10], [11], [12], [13], [14]] : Whens)[b]? = some w' →
      i ∈ w → i ∈ w' → a = b) ∧
    optCase [[3], [1, 2], [10], [11], [12], [13], [14]] (.int 2) = some 1 ∧
    optCase [[3], [1, 2], [10], [11], [12], [13], [14]] (.int 5) = none ∧
    optCase [[3], [1, 2], [10], [11], [12], [13], [14]] (.int (-1)) = none ∧
    optCase [[3], [1, 2], [10], [11], [12], [13], [14]] (.int (2 ^ 70)) = none := by
  refine ⟨by decide, ?_, by decide, by decide, by decide, by decide⟩
  intro a b w w' i ha hb hi hi'
  have ha' : a < 7 := (List.getElem?_eq_some_iff.1 ha).1
  have hb' : b < 7 := (List.getElem?_eq_some_iff.1 hb).1
  match a, b with
  | 0, 0 | 1, 1 | 2, 2 | 3, 3 | 4, 4 | 5, 5 | 6, 6 => rfl
  | 0, 1 | 0, 2 | 0, 3 | 0, 4 | 0, 5 | 0, 6 | 1, 0 | 1, 2 | 1, 3 | 1, 4 | 1, 5 | 1, 6
  | 2, 0 | 2, 1 | 2, 3 | 2, 4 | 2, 5 | 2, 6 | 3, 0 | 3, 1 | 3, 2 | 3, 4 | 3, 5 | 3, 6
  | 4, 0 | 4, 1 | 4, 2 | 4, 3 | 4, 5 | 4, 6 | 5, 0 | 5, 1 | 5, 2 | 5, 3 | 5, 4 | 5, 6
  | 6, 0 | 6, 1 | 6, 2 | 6, 3 | 6, 4 | 6, 5 =>
    simp at ha hb; subst ha; subst hb; simp at hi hi'; omega

/-- Compiled code picks the same branch as the interpreter. -/
theorem C109_compiled_agrees (ws : Whens) (h : checkOpt ws = true) (k : Int) :
    optCaseJit ws k = optCase ws (.int k) := by
  have hmin := minLit_nonneg h
  have hmax := maxLit_lt h
  simp only [optCase, optCaseJit]
  by_cases h1 : k > maxLit ws
  · rw [if_pos h1]
    split
    · rw [if_neg (by omega)]
    · rfl
  · rw [if_neg h1]
    by_cases h2 : k - minLit ws < 0
    · rw [if_pos h2]
      split
      · rw [if_neg (by omega)]
      · rfl
    · rw [if_neg h2, if_pos (by omega), if_pos (by omega)]

/-- **C109 fails (1).**  A literal written in two branches: the later branch
runs. -/
theorem C109_repeated_literal_fails : ¬ C109 := by
  intro h
  have := h [[1], [2], [3], [4], [5], [6], [7], [1]] (.int 1) (by decide)
  exact absurd this (by decide)

/-- **C109 fails (2).**  A Float equal to a literal (`1 === 1.0` is true): `else`
runs. -/
theorem C109_float_subject_fails :
    ∃ ws, checkOpt ws = true ∧ optCase ws (.other fun i => i == 1) = none ∧
      firstMatch (.other fun i => i == 1) 0 ws = some 0 :=
  ⟨[[1], [2], [3], [4], [5], [6], [7], [8]], by decide, by decide, by decide⟩

end Verif.Bop
