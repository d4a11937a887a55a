/-!
# Constants: lookup, autoload, inline caches, folding into compiled code

Models, at the pinned commit (paths under `monoruby/src`),

* `executor/constants.rs` 25-141 (`get_constant`), 170-190, 233-262 (walks over the ancestors),
  264-340, 355-427, 792-838 (unqualified lookup), 443-460, 519-545 (probes),
* `executor.rs` 2129-2247 (`find_constant`), 1022-1150 (`require` and autoload entries),
* `globals.rs` 1490-1509, 1527-1551 (versions and epochs),
* `globals/store/class/constants.rs` 160-216, 348-377 (constant tables),
* `globals/store/class.rs` 1695-1697, 1983-2002 (the `class` and `module` keywords), 796-806,
* `codegen/runtime.rs` 1373-1406 (`vm_get_constant`), 450-487 (`enter_classdef`),
* `codegen/jitgen/compile/variables.rs` 73-141, `codegen/jitgen.rs` 716-733,
  `globals/store/class.rs` 2660-2764 (folding and salvage),
* `builtins/module.rs` 714-765, 1131-1175, 1280-1336, 2826-2850, 2865-2893.

Not modelled: methods nested in `class << obj` (their lookup goes through the receiver's class),
string `eval`, constant locations, names of classes, frozen modules, the `const_added` hook, threads.
A class is a number; the chain of its `superclass` links is a list of class numbers, itself first
(an include class has the number of its module).  The chain is read when a walk starts; in the
code the links are followed one by one.
-/

namespace Verif.Const

/-- A value; modules and classes are told apart (`is_class_or_module`). -/
inductive Val where
  | obj (n : Nat)
  | mod (c : Nat)
deriving DecidableEq, Repr

/-- `AutoloadState`, class/constants.rs 72-77. -/
inductive AState where
  | idle
  | loading
  | consumed
deriving DecidableEq, Repr

/-- `ConstStateKind`, class/constants.rs 37-51; a feature is a number. -/
inductive Kind where
  | loaded (v : Val)
  | auto (f : Nat) (s : AState)
deriving DecidableEq, Repr

/-- `ConstState`, class/constants.rs 25-36. -/
structure CState where
  kind : Kind
  priv : Bool := false
  depr : Bool := false
deriving DecidableEq, Repr

/-- What can be seen from outside besides values: a file was run (to its end or not),
`const_missing` was called, a deprecation warning was printed. -/
inductive Event where
  | run (f : Nat) (ok : Bool)
  | hook (c n : Nat)
  | warn (c n : Nat)
deriving DecidableEq, Repr

def OBJECT : Nat := 0
def BASIC : Nat := 1

/-- The state that lookup reads and changes.  `lex i` is the `lexical_context` of the code `i`,
innermost first; `ver`, `epoch`, `wild` are the global constant version, the epoch of a name and
the wildcard epoch; `loaded` is `$LOADED_FEATURES`. -/
structure World where
  tab : Nat → Nat → Option CState
  chain : Nat → List Nat
  lex : Nat → List Nat
  ver : Nat := 0
  epoch : Nat → Nat := fun _ => 0
  wild : Nat := 0
  loaded : List Nat := []
  log : List Event := []

def World.put (w : World) (c n : Nat) (s : Option CState) : World :=
  { w with tab := fun c' n' => if c' = c ∧ n' = n then s else w.tab c' n' }

def World.say (w : World) (e : Event) : World := { w with log := w.log ++ [e] }

/-- `const_epoch::bump_name` and `const_version_inc`, as in `Globals::set_constant`. -/
def World.bump (w : World) (n : Nat) : World :=
  { w with ver := w.ver + 1, epoch := fun m => if m = n then w.epoch n + 1 else w.epoch m }

/-- `ClassInfoTable::set_constant`, class/constants.rs 348-377: an existing entry's flags stay. -/
def storeConst (w : World) (c n : Nat) (v : Val) : World :=
  match w.tab c n with
  | some s => w.put c n (some ⟨.loaded v, s.priv, s.depr⟩)
  | none => w.put c n (some ⟨.loaded v, false, false⟩)

/-- `Globals::set_constant`, globals.rs 1499-1503. -/
def setConst (w : World) (c n : Nat) (v : Val) : World := storeConst (w.bump n) c n v

/-- `Globals::remove_constant`, globals.rs 1505-1509. -/
def removeConst (w : World) (c n : Nat) : World := (w.bump n).put c n none

/-- `Globals::const_version_inc` after `include` or `prepend` (globals.rs 1490-1493,
value/rvalue/module.rs 55-59); what the chains become is left open. -/
def includeMod (w : World) (ch : Nat → List Nat) : World :=
  { w with chain := ch, ver := w.ver + 1, wild := w.wild + 1 }

/-- What the body of a file does. -/
inductive Def where
  /-- `X = v`: the VM bumps the version, then `Globals::set_constant` does
  (x86_64/vmgen/variables.rs 74). -/
  | assign (c n : Nat) (v : Val)
  /-- `class X` or `module X`: opens it if it is there, otherwise `generate_class_obj` calls
  `ClassInfoTable::set_constant`, class.rs 1695-1697; `v` is the new class. -/
  | klass (c n : Nat) (v : Val)
  | remove (c n : Nat)
  | incl (ch : Nat → List Nat)

def isLoaded : Option CState → Bool
  | some ⟨.loaded _, _, _⟩ => true
  | _ => false

def runDef (w : World) : Def → World
  | .assign c n v => setConst { w with ver := w.ver + 1 } c n v
  | .klass c n v => if isLoaded (w.tab c n) then w else storeConst w c n v
  | .remove c n => removeConst w c n
  | .incl ch => includeMod w ch

def runDefs (w : World) : List Def → World
  | [] => w
  | d :: ds => runDefs (runDef w d) ds

/-- The rest of the program: what each file does and whether it ends without raising, and what
`const_missing` answers (`none`: `NameError`), which may depend on what happened before. -/
structure Env where
  body : Nat → List Def × Bool
  hook : List Event → Nat → Nat → Option Val

inductive Err where
  | name
  | priv
  | load (f : Nat)
  | type
deriving DecidableEq, Repr

abbrev Res (α : Type) := Except Err α × World

/-- Is the entry an autoload of `f`?  (`find_autoload_entries_for_paths`, class/constants.rs
219-237; a feature is its path.) -/
def isAuto (f : Nat) : Option CState → Bool
  | some ⟨.auto g _, _, _⟩ => f == g
  | _ => false

def markState (a : AState) : Option CState → Option CState
  | some ⟨.auto g _, p, d⟩ => some ⟨.auto g a, p, d⟩
  | s => s

/-- `set_autoload_state` on the entries that satisfy `m`, class/constants.rs 198-209. -/
def markAll (m : Nat → Nat → Bool) (a : AState) (w : World) : World :=
  { w with tab := fun c n => if m c n then markState a (w.tab c n) else w.tab c n }

/-- The entries of the feature. -/
def autosOf (w : World) (f c n : Nat) : Bool := isAuto f (w.tab c n)

/-- Before the file runs: the feature is registered, its entries are marked, executor.rs
1022-1038, 1084-1106. -/
def startLoad (w : World) (f : Nat) : World :=
  { markAll (autosOf w f) .loading w with loaded := f :: w.loaded }

/-- After the file ran: the entries still there are consumed, or idle again if it raised,
executor.rs 1112-1150. -/
def endLoad (f : Nat) (m : Nat → Nat → Bool) (old : List Nat) (ok : Bool) (w : World) :
    Bool × World :=
  if ok then (true, (markAll m .consumed w).say (.run f true))
  else (false, { (markAll m .idle w).say (.run f false) with loaded := old })

/-- `Executor::require`, executor.rs 1022-1150: nothing for a feature that is loaded. -/
def require (E : Env) (w : World) (f : Nat) : Bool × World :=
  if f ∈ w.loaded then (true, w)
  else endLoad f (autosOf w f) w.loaded (E.body f).2 (runDefs (startLoad w f) (E.body f).1)

/-- `get_constant` after the `require` returned, constants.rs 112-139. -/
def afterLoad (w : World) (c n : Nat) : Res (Option Val) :=
  match w.tab c n with
  | none => (.ok none, w)
  | some ⟨.loaded v, _, _⟩ => (.ok (some v), w)
  | some ⟨.auto _ _, _, _⟩ => (.ok none, removeConst w c n)

/-- The autoload branch of `get_constant`, constants.rs 63-139. -/
def autoload (E : Env) (w : World) (c n f : Nat) : Res (Option Val) :=
  match require E (w.put c n (markState .loading (w.tab c n))) f with
  | (true, w') => afterLoad w' c n
  | (false, w') => (.error (.load f), w'.put c n (markState .idle (w'.tab c n)))

/-- `Executor::get_constant`, constants.rs 25-141. -/
def getConst (E : Env) (w : World) (c n : Nat) : Res (Option Val) :=
  match w.tab c n with
  | none => (.ok none, w)
  | some ⟨.loaded v, _, false⟩ => (.ok (some v), w)
  | some ⟨.loaded v, _, true⟩ => (.ok (some v), w.say (.warn c n))
  | some ⟨.auto _ .loading, _, _⟩ => (.ok none, w)
  | some ⟨.auto _ .consumed, _, _⟩ => (.ok none, w)
  | some ⟨.auto f .idle, _, _⟩ => autoload E w c n f

/-- `get_constant_superclass`, `get_constant_superclass_qualified`, and the loop of
`search_lexical_slice`: the first of a list of classes that has the constant. -/
def getFirst (E : Env) (w : World) (n : Nat) : List Nat → Res (Option Val)
  | [] => (.ok none, w)
  | c :: cs =>
    match getConst E w c n with
    | (.ok none, w') => getFirst E w' n cs
    | r => r

/-- The ancestors a qualified reference searches: without Object's own constants, unless the
qualifier is Object (constants.rs 233-262). -/
def qualChain (w : World) (c : Nat) : List Nat :=
  if c = OBJECT then w.chain c else (w.chain c).filter (· ≠ OBJECT)

/-- `FuncId::lexical_class`, globals/store/function.rs 38-53. -/
def lexClass (w : World) (i : Nat) : Nat := (w.lex i).headD OBJECT

/-- Fallback of `search_constant_no_missing`, constants.rs 413-426. -/
def viaAncestors (E : Env) (w : World) (c n : Nat) : Res (Option Val) :=
  match getFirst E w n (w.chain c) with
  | (.ok none, w') => if c = BASIC then getConst E w' OBJECT n else (.ok none, w')
  | r => r

/-- `search_constant_no_missing`, constants.rs 355-427, for code `i`. -/
def search (E : Env) (w : World) (i n : Nat) : Res (Option Val) :=
  match getFirst E w n (w.lex i) with
  | (.ok none, w') => viaAncestors E w' (lexClass w' i) n
  | r => r

/-- `invoke_const_missing`, constants.rs 279-307. -/
def missing (E : Env) (w : World) (c n : Nat) : Res Val :=
  match E.hook w.log c n with
  | some v => (.ok v, w.say (.hook c n))
  | none => (.error .name, w.say (.hook c n))

/-- `search_constant_checked`, constants.rs 309-340. -/
def searchChecked (E : Env) (w : World) (i n : Nat) : Res Val :=
  match search E w i n with
  | (.ok (some v), w') => (.ok v, w')
  | (.ok none, w') => missing E w' (lexClass w' i) n
  | (.error e, w') => (.error e, w')

/-- `probe_constant_at`, constants.rs 443-460. -/
def probeAt (w : World) (c n : Nat) : Bool :=
  match w.tab c n with
  | some ⟨.loaded _, _, _⟩ => true
  | some ⟨.auto _ .idle, _, _⟩ => true
  | _ => false

/-- `is_constant_private`, class.rs 719-723. -/
def isPriv (w : World) (c n : Nat) : Bool :=
  match w.tab c n with
  | some s => s.priv
  | none => false

/-- The class `probe_constant_superclass_with_class` finds (constants.rs 519-545), and whether
the constant is private there. -/
def privateAt (w : World) (c n : Nat) : Bool :=
  match (w.chain c).find? (probeAt w · n) with
  | some d => isPriv w d n
  | none => false

/-- `get_qualified_constant_with_missing`, constants.rs 264-278. -/
def qualified (E : Env) (w : World) (c n : Nat) : Res Val :=
  match getFirst E w n (qualChain w c) with
  | (.ok (some v), w') => (.ok v, w')
  | (.ok none, w') => missing E w' c n
  | (.error e, w') => (.error e, w')

/-- `expect_class_or_module`. -/
def asMod : Val → Except Err Nat
  | .mod c => .ok c
  | .obj _ => .error .type

/-- The last part of `find_constant_impl`, executor.rs 2216-2246. -/
def finalPart (E : Env) (w : World) (c n : Nat) : Res Val :=
  if privateAt w c n then
    match missing E w c n with
    | (.ok v, w') => (.ok v, w')
    | (.error _, w') => (.error .priv, w')
  else qualified E w c n

/-- One turn of the loop over `prefix`, executor.rs 2184-2202; `check_constant_visibility`. -/
def midPart (E : Env) (w : World) (c n : Nat) : Res Nat :=
  if privateAt w c n then (.error .priv, w)
  else
    match qualified E w c n with
    | (.ok v, w') => (asMod v, w')
    | (.error e, w') => (.error e, w')

/-- The rest of a path, executor.rs 2184-2246. -/
def path (E : Env) (w : World) (c : Nat) (pre : List Nat) (n : Nat) : Res Val :=
  match pre with
  | [] => finalPart E w c n
  | m :: pre =>
    match midPart E w c m with
    | (.ok d, w') => path E w' d pre n
    | (.error e, w') => (.error e, w')

/-- `ConstSiteInfo`: `expr::A::B` (`dyn`), `::A::B` (`top`), or `A::B`, in the code `code`. -/
structure Site where
  code : Nat
  dyn : Bool := false
  top : Bool := false
  pre : List Nat := []
  name : Nat
deriving DecidableEq, Repr

/-- `find_constant`, executor.rs 2129-2247; `base` is the value of `expr` (used if `dyn`). -/
def find (E : Env) (w : World) (s : Site) (base : Val) : Res Val :=
  if s.dyn then
    match asMod base with
    | .ok c => path E w c s.pre s.name
    | .error e => (.error e, w)
  else if s.top then path E w OBJECT s.pre s.name
  else
    match s.pre with
    | [] => searchChecked E w s.code s.name
    | m :: pre =>
      match searchChecked E w s.code m with
      | (.ok v, w') =>
        match asMod v with
        | .ok c => path E w' c pre s.name
        | .error e => (.error e, w')
      | (.error e, w') => (.error e, w')

/-! ## Inline caches -/

/-- `ConstCache`; `self_class` is `None` outside `class << obj`. -/
structure Cache where
  ver : Nat
  base : Option Val
  val : Val
deriving DecidableEq, Repr

/-- The world and the caches of the sites. -/
structure St where
  w : World
  cache : Nat → Option Cache

/-- The value in the base slot, for a site that has one. -/
def baseOf (s : Site) (b : Val) : Option Val := if s.dyn then some b else none

/-- The cache test of `vm_get_constant`, codegen/runtime.rs 1380-1390. -/
def hit (σ : St) (s : Site) (k : Nat) (b : Val) : Option Val :=
  match σ.cache k with
  | some c => if c.ver = σ.w.ver ∧ c.base = baseOf s b then some c.val else none
  | none => none

/-- `vm_get_constant`, codegen/runtime.rs 1373-1406.  `const_version` is read before the lookup
(x86_64/vmgen/variables.rs 17). -/
def reference (E : Env) (P : Nat → Site) (σ : St) (k : Nat) (b : Val) : Except Err Val × St :=
  match hit σ (P k) k b with
  | some v => (.ok v, σ)
  | none =>
    match find E σ.w (P k) b with
    | (.ok v, w') =>
      (.ok v, ⟨w', fun j => if j = k then some ⟨σ.w.ver, baseOf (P k) b, v⟩ else σ.cache j⟩)
    | (.error e, w') => (.error e, ⟨w', σ.cache⟩)

/-! ## Operations on modules -/

/-- `set_constants_visibility`, builtins/module.rs 2826-2850, for one name. -/
def setPriv (w : World) (c n : Nat) (p : Bool) : World :=
  match w.tab c n with
  | some s => w.put c n (some { s with priv := p })
  | none => w

/-- `deprecate_constant`, builtins/module.rs 2865-2893, for one name. -/
def deprecate (w : World) (c n : Nat) : World :=
  match w.tab c n with
  | some s => w.put c n (some { s with depr := true })
  | none => w

/-- `autoload_on`, builtins/module.rs 714-765, and `set_constant_autoload`, class/constants.rs
160-190. -/
def register (w : World) (c n f : Nat) : World :=
  if f ∈ w.loaded then w
  else
    match w.tab c n with
    | none => w.put c n (some ⟨.auto f .idle, false, false⟩)
    | some ⟨.loaded _, _, _⟩ => w
    | some ⟨.auto _ .consumed, p, d⟩ => w.put c n (some ⟨.auto f .idle, p, d⟩)
    | some ⟨.auto _ s, p, d⟩ => w.put c n (some ⟨.auto f s, p, d⟩)

/-- `enter_classdef`, codegen/runtime.rs 450-487: running the body `i` of a class gives it, and the
methods defined in it, a lexical context. -/
def stamp (w : World) (i : Nat) (l : List Nat) : World :=
  { w with lex := fun j => if j = i then l else w.lex j }

/-- `const_set`, builtins/module.rs 1404-1441, is `setConst`. -/
inductive Op where
  | def_ (d : Def)
  | constSet (c n : Nat) (v : Val)
  | require (f : Nat)
  | priv (c n : Nat) (p : Bool)
  | depr (c n : Nat)
  | auto (c n f : Nat)
  | stamp (i : Nat) (l : List Nat)
  | ref (k : Nat) (b : Val)

def step (E : Env) (P : Nat → Site) (σ : St) : Op → St
  | .def_ d => { σ with w := runDef σ.w d }
  | .constSet c n v => { σ with w := setConst σ.w c n v }
  | .require f => { σ with w := (require E σ.w f).2 }
  | .priv c n p => { σ with w := setPriv σ.w c n p }
  | .depr c n => { σ with w := deprecate σ.w c n }
  | .auto c n f => { σ with w := register σ.w c n f }
  | .stamp i l => { σ with w := stamp σ.w i l }
  | .ref k b => (reference E P σ k b).2

def run (E : Env) (P : Nat → Site) (σ : St) : List Op → St
  | [] => σ
  | o :: os => run E P (step E P σ o) os

/-! ## `const_get` -/

/-- Errors of a segment count as a missing constant, builtins/module.rs 1306-1318. -/
def swallow : Res (Option Val) → Option Val × World
  | (.ok r, w) => (r, w)
  | (.error _, w) => (none, w)

/-- The segments after the first, or all without `inherit`: only the class itself
(builtins/module.rs 1310-1321). -/
def getDirect (E : Env) (w : World) (c : Nat) : List Nat → Option Val × World
  | [] => (none, w)
  | [n] => swallow (getConst E w c n)
  | n :: ns =>
    match swallow (getConst E w c n) with
    | (some (.mod d), w') => getDirect E w' d ns
    | (_, w') => (none, w')

/-- `lookup_constant_path` with `inherit`, builtins/module.rs 1280-1336. -/
def constPath (E : Env) (w : World) (c : Nat) : List Nat → Option Val × World
  | [] => (none, w)
  | [n] => swallow (getFirst E w n (w.chain c))
  | n :: ns =>
    match swallow (getFirst E w n (w.chain c)) with
    | (some (.mod d), w') => getDirect E w' d ns
    | (_, w') => (none, w')

/-- `Module#const_get`, builtins/module.rs 1131-1175: `const_missing` only for a single name. -/
def constGet (E : Env) (w : World) (c : Nat) (p : List Nat) : Res Val :=
  match constPath E w c p with
  | (some v, w') => (.ok v, w')
  | (none, w') =>
    match p with
    | [n] => missing E w' c n
    | _ => (.error .name, w')

/-! ## Folding into compiled code -/

/-- `ConstFoldSite`, iseq.rs 111-116. -/
structure Fold where
  site : Nat
  base : Option Val
  val : Val
  names : List Nat

/-- A compilation unit's record, `ConstSalvageMap`, and the version word its guards compare with
(iseq.rs 139-158).  `epochs` is read at the folded names only. -/
structure Unit_ where
  word : Nat
  folds : List Fold
  epochs : Nat → Nat
  wild : Nat

/-- The names recorded for a site, jitgen/compile/variables.rs 127-136. -/
def Site.names (s : Site) : List Nat := s.pre ++ [s.name]

/-- `load_constant` of the compiler for one site, jitgen/compile/variables.rs 73-141: only a cache
of the current version is folded. -/
def foldSite (P : Nat → Site) (σ : St) (k : Nat) : Option Fold :=
  match σ.cache k with
  | some c => if c.ver = σ.w.ver then some ⟨k, c.base, c.val, (P k).names⟩ else none
  | none => none

/-- Compiling a unit that refers to the sites `ks`, jitgen.rs 655-733: `none` if a site cannot be
folded (`Recompile(NotCached)`). -/
def compileUnit (P : Nat → Site) (σ : St) (ks : List Nat) : Option Unit_ :=
  match ks.mapM (foldSite P σ) with
  | some fs => some ⟨σ.w.ver, fs, σ.w.epoch, σ.w.wild⟩
  | none => none

/-- A name or the wildcard moved since the record was made, class.rs 2718-2727. -/
def suspect (w : World) (u : Unit_) (f : Fold) : Bool :=
  u.wild != w.wild || f.names.any fun n => w.epoch n != u.epochs n

/-- The second test for a suspect site, class.rs 2731-2757: its cache is of the current version
and equal to the fold. -/
def refreshed (σ : St) (f : Fold) : Bool :=
  match σ.cache f.site with
  | some c => decide (c.ver = σ.w.ver) && decide (c.val = f.val) && decide (c.base = f.base)
  | none => false

/-- `salvage_const_map`, class.rs 2706-2764: `some` is `Healed` with the version word patched
(compiler.rs 812-816); deferral and recompilation leave the unit's guards failing. -/
def salvage (σ : St) (u : Unit_) : Option Unit_ :=
  if u.folds.all fun f => !suspect σ.w u f || refreshed σ f then
    some ⟨σ.w.ver, u.folds, σ.w.epoch, σ.w.wild⟩
  else none

/-- The guards of a unit: the version word (`guard_const_version`) and, for a site with a base
slot, the base (`guard_const_base_class`). -/
def guardOk (P : Nat → Site) (w : World) (u : Unit_) (f : Fold) (b : Val) : Prop :=
  u.word = w.ver ∧ f.base = baseOf (P f.site) b

end Verif.Const
