/-
Model of the class hierarchy and of method lookup.

Sources (all under /repo/monoruby/src):
* value/rvalue/module.rs          — module objects, include, prepend, iclasses
* globals/store/class.rs          — method tables, lookup, super, prepend propagation, listings
* globals/store.rs                — `ancestors`, the global method cache
* codegen.rs l.1387-1395          — the class version
* builtins/module.rs              — include, prepend, `<`, `method_defined?`
* builtins/class.rs l.285-345     — Class#initialize, Class#superclass
* value.rs l.845-855              — is_a?

A module object is a heap cell; every heap cell is a `Node` named by its position in
`St.nodes`.  A class or module in the class table names its own cell.  Not modelled:
refinements, constants, class variables, names, frozen receivers, the `included` /
`prepended` hooks (so `include` is `append_features`), `dup`/`clone` of a module, and
the metaclass every class gets at birth.
-/

namespace Verif.Classes

/-- What a module object is: a class (`ObjTy::CLASS`), a module (`ObjTy::MODULE`), or an
include class made by `make_iclass` (also `ObjTy::MODULE`, class_type `IClass`).
value/rvalue/module.rs l.229-249; value/rvalue.rs l.1824. -/
inductive Kind
  | cls
  | mod
  | icls
deriving DecidableEq, Repr

/-- `ModuleInner`, value/rvalue/module.rs l.235-249.  Module references are positions in
`St.nodes`; `singleton` keeps only whether the class is a singleton class. -/
structure Node where
  cid : Nat
  sup : Option Nat
  origin : Option Nat
  kind : Kind
  singleton : Bool
deriving DecidableEq, Repr

/-- `Visibility`, executor.rs l.4744-4749. -/
inductive Vis
  | pub
  | prot
  | priv
  | undef
deriving DecidableEq, Repr

/-- `MethodTableEntry`, globals/store/class.rs (fields used by lookup).  `func = none`
with `vis = undef` is what `undef_method` leaves behind. -/
structure Entry where
  owner : Nat
  func : Option Nat
  vis : Vis
  shadow : Bool
deriving DecidableEq, Repr

/-- `ClassInfo`: the module object and the method table (`HashMap<IdentId, _>`, here an
association list in which the first binding counts). -/
structure Info where
  obj : Nat
  methods : List (Nat × Entry)
deriving DecidableEq, Repr

/-- `GlobalMethodCache`, globals/store.rs l.2196-2206: a version and a map from
(method name, class id) to the remembered answer. -/
structure Cache where
  version : Nat
  map : List ((Nat × Nat) × Option Entry)
deriving DecidableEq, Repr

structure St where
  nodes : List Node
  classes : List Info
  /-- `class_version`, a `u32`, codegen.rs l.1387. -/
  version : Nat
  cache : Cache
deriving DecidableEq, Repr

/-- The cell read for a reference that names nothing; no reachable state has one. -/
def noNode : Node := { cid := 0, sup := none, origin := none, kind := .cls, singleton := false }

def noInfo : Info := { obj := 0, methods := [] }

def St.node (st : St) (r : Nat) : Node := st.nodes.getD r noNode

/-- `Module::superclass`, module.rs l.278-280. -/
def St.sup (st : St) (r : Nat) : Option Nat := (st.node r).sup

/-- `Module::id`, module.rs l.274-276. -/
def St.cid (st : St) (r : Nat) : Nat := (st.node r).cid

/-- `Module::is_iclass`, module.rs l.294-296. -/
def St.isIclass (st : St) (r : Nat) : Bool := (st.node r).kind == .icls

/-- `Module::has_origin`, module.rs l.302-304. -/
def St.hasOrigin (st : St) (r : Nat) : Bool := (st.node r).origin.isSome

/-- `Store[class_id].get_module()`. -/
def St.obj (st : St) (c : Nat) : Nat := (st.classes.getD c noInfo).obj

/-- `self[class_id].methods.get(&name)`. -/
def St.entry (st : St) (c name : Nat) : Option Entry :=
  (st.classes.getD c noInfo).methods.lookup name

/-- The walk `while let Some(superclass) = module.superclass() { .. module = superclass }`
shared by every function of the area, as the list of the cells it visits, `r` first.
The fuel is the number of cells, enough for every acyclic heap (`chain_eq`). -/
def St.chainF (st : St) : Nat → Nat → List Nat
  | 0, _ => []
  | n + 1, r => r :: (match st.sup r with
    | none => []
    | some s => st.chainF n s)

def St.chain (st : St) (r : Nat) : List Nat := st.chainF st.nodes.length r

/-! ### Building the hierarchy -/

def OBJECT : Nat := 1

/-- `Globals::class_version_inc`, codegen.rs l.1391-1395: `u32 += 1` in a release build. -/
def bump (st : St) : St := { st with version := (st.version + 1) % 2 ^ 32 }

/-- `add_class` + `generate_class_obj`, class.rs l.1648-1697, store.rs l.1771-1775:
a new class id whose fresh object has the given superclass object. -/
def newModuleObj (st : St) (sup : Option Nat) (kind : Kind) (singleton : Bool) : St :=
  { st with
    nodes := st.nodes ++
      [{ cid := st.classes.length, sup := sup, origin := none, kind := kind,
         singleton := singleton }]
    classes := st.classes ++ [{ obj := st.nodes.length, methods := [] }] }

/-- `define_unnamed_class` / `define_class`, class.rs l.1715-1760 (and `new_singleton_class`
with `singleton := true`). -/
def newClass (st : St) (sup : Nat) (singleton : Bool) : St :=
  newModuleObj st (some (st.obj sup)) .cls singleton

/-- `define_unnamed_module` / `define_module`, class.rs l.1700-1712, l.1769: the module's
superclass is `Object`. -/
def newModule (st : St) : St := newModuleObj st (some (st.obj OBJECT)) .mod false

/-- `Class.allocate`: `allocate_uninit_class`, class.rs l.1763-1767. -/
def allocateClass (st : St) : St := newModuleObj st none .cls false

/-- `Class#initialize` with a superclass, builtins/class.rs l.296-318.  `false` is the
TypeError "already initialized class" (the check of the name is left out: the classes of
the model are anonymous). No version is incremented. -/
def classInitialize (st : St) (c sup : Nat) : St × Bool :=
  if (st.sup (st.obj c)).isSome then (st, false)
  else
    let n := { st.node (st.obj c) with sup := some (st.obj sup) }
    ({ st with nodes := st.nodes.set (st.obj c) n }, true)

/-- `base.include(module)`, module.rs l.133-136, with `make_iclass` l.223-225: a new
iclass for the class id `c` goes between `base` and its superclass.  The splice at the end
of `propagate_prepend_to_subclasses`, class.rs l.1505-1507, has the same effect. -/
def insertAfter (st : St) (base c : Nat) : St :=
  { st with nodes :=
      st.nodes.set base { st.node base with sup := some st.nodes.length } ++
        [{ cid := c, sup := st.sup base, origin := none, kind := .icls, singleton := false }] }

/-- `Module::is_ancestor_of`, module.rs l.21-29, on class ids: the receiver's id is among
the ids behind `m`. -/
def isAncestorOf (st : St) (c m : Nat) : Bool :=
  (st.chain m).tail.any fun r => st.cid r == c

/-- `Module::is_ancestor_of_before_origin`, module.rs l.113-131: the same walk, cut at the
receiver's origin iclass. -/
def isAncestorBeforeOrigin (st : St) (c m : Nat) : Bool :=
  ((st.chain m).tail.takeWhile fun r => (st.node m).origin != some r).any fun r => st.cid r == c

/-- `Module::check_cyclic`, module.rs l.141-154: walks the module's chain while it is in
module objects (iclasses included). -/
def checkCyclic (st : St) (self m : Nat) : Bool :=
  st.cid m == st.cid self ||
    ((st.chain m).tail.takeWhile fun r => (st.node r).kind != .cls).any
      fun r => st.cid r == st.cid self

/-- Outcome of a change to the hierarchy. `cyclic` is the ArgumentError, `panic` the
`unwrap` of a missing superclass, `stuck` the exhausted fuel (never reached). -/
inductive Res
  | ok (st : St)
  | cyclic (st : St)
  | panic
  | stuck
deriving DecidableEq, Repr

/-- The loop of `include_or_prepend_module`, module.rs l.72-96. -/
def mixLoop (self : Nat) (forPrepend : Bool) : Nat → St → Nat → Nat → Res
  | 0, _, _, _ => .stuck
  | n + 1, st, base, m =>
    let present :=
      if forPrepend then isAncestorBeforeOrigin st (st.cid m) self
      else isAncestorOf st (st.cid m) self
    let st := if present then st else insertAfter st base (st.cid m)
    match st.sup base with
    | none => .panic
    | some b =>
      match st.sup m with
      | some s => if st.isIclass s then mixLoop self forPrepend n st b s else .ok st
      | none => .ok st

/-- `include_or_prepend_module`, module.rs l.46-97. -/
def includeOrPrepend (st : St) (self m : Nat) (forPrepend : Bool) : Res :=
  if checkCyclic st self m then .cyclic st
  else
    let st := bump st
    if st.hasOrigin m then
      match st.sup m with
      | some s => if st.isIclass s then mixLoop self forPrepend st.nodes.length st self s else .ok st
      | none => .ok st
    else mixLoop self forPrepend st.nodes.length st self m

/-- `Module#append_features` (what `include` calls), builtins/module.rs l.2046-2060. -/
def includeModule (st : St) (c m : Nat) : Res :=
  includeOrPrepend st (st.obj c) (st.obj m) false

/-- `prepend_module`'s first half, module.rs l.178-184: the origin iclass. -/
def makeOrigin (st : St) (self : Nat) : St :=
  if st.hasOrigin self then st
  else
    let o := st.nodes.length
    let st := insertAfter st self (st.cid self)
    { st with nodes := st.nodes.set self { st.node self with origin := some o } }

/-- `prepend_module`, module.rs l.178-185. -/
def prependObj (st : St) (self m : Nat) : Res :=
  includeOrPrepend (makeOrigin st self) self m true

/-- The search of one candidate in `propagate_prepend_to_subclasses`, class.rs l.1463-1496,
over the cells behind the candidate: the cell in front of the receiver's iclass, unless
the prepended module was met before or the candidate's own origin ends the search. -/
def findSplice (st : St) (baseId prependId : Nat) (origin : Option Nat) :
    Nat → Bool → List Nat → Option Nat
  | _, _, [] => none
  | prev, seen, cur :: rest =>
    let seen := seen || (st.isIclass cur && st.cid cur == prependId)
    if st.isIclass cur && st.cid cur == baseId then
      if seen then none else some prev
    else if origin == some cur then none
    else findSplice st baseId prependId origin cur seen rest

/-- One candidate of `propagate_prepend_to_subclasses`, class.rs l.1458-1508. -/
def propagateOne (baseId prependId : Nat) (st : St) (cand : Nat) : St :=
  match findSplice st baseId prependId (st.node cand).origin cand false (st.chain cand).tail with
  | some prev => insertAfter st prev prependId
  | none => st

/-- The candidates, class.rs l.1445-1456. -/
def candidates (st : St) (baseId : Nat) : List Nat :=
  (st.classes.map (·.obj)).filter fun r =>
    !st.isIclass r && !(st.node r).singleton && st.cid r != baseId

/-- `propagate_prepend_to_subclasses`, class.rs l.1435-1509. -/
def propagatePrepend (st : St) (baseId prependId : Nat) : St :=
  (candidates st baseId).foldl (propagateOne baseId prependId) st

/-- `Module#prepend_features` (what `prepend` calls), builtins/module.rs l.2143-2166. -/
def prependModule (st : St) (c m : Nat) : Res :=
  match prependObj st (st.obj c) (st.obj m) with
  | .ok st' => .ok (propagatePrepend st' c m)
  | r => r

/-! ### Method tables -/

def setEntry (st : St) (c name : Nat) (e : Entry) : St :=
  let info := st.classes.getD c noInfo
  { st with classes := st.classes.set c { info with methods := (name, e) :: info.methods } }

/-- `insert_method`, class.rs l.2430-2441 (basic operations left out). -/
def insertMethod (st : St) (c name : Nat) (e : Entry) : St := setEntry (bump st) c name e

/-- `add_method`, class.rs l.2075-2160. -/
def addMethod (st : St) (c name func : Nat) (vis : Vis) : St :=
  insertMethod st c name { owner := c, func := some func, vis := vis, shadow := false }

/-- `undef_method`: `add_empty_method(.., Undefined)`, class.rs l.2167-2186. -/
def undefMethod (st : St) (c name : Nat) : St :=
  insertMethod st c name { owner := c, func := none, vis := .undef, shadow := false }

/-- `remove_method`, class.rs l.2193-2212; `false` is the NameError. -/
def removeMethod (st : St) (c name : Nat) : St × Bool :=
  let st := bump st
  let info := st.classes.getD c noInfo
  match info.methods.lookup name with
  | none => (st, false)
  | some _ =>
    let info := { info with methods := info.methods.filter fun p => p.1 != name }
    ({ st with classes := st.classes.set c info }, true)

/-! ### Lookup -/

/-- The loop of `search_method_refined` without refinements, class.rs l.1145-1222, over the
cells of the chain. -/
def searchLoop (st : St) (name : Nat) : Option Vis → Option Entry → List Nat → Option Entry
  | visi, shadow, [] =>
    match shadow with
    | none => none
    | some s => some { s with vis := visi.getD s.vis }
  | visi, shadow, r :: rest =>
    match (if st.hasOrigin r then none else st.entry (st.cid r) name) with
    | none => searchLoop st name visi shadow rest
    | some e =>
      if e.shadow then
        searchLoop st name (some (visi.getD e.vis)) (some (shadow.getD e)) rest
      else
        match e.func with
        | some _ =>
          match shadow with
          | some s => some { e with owner := s.owner, vis := visi.getD e.vis }
          | none => some { e with vis := visi.getD e.vis }
        | none =>
          if e.vis = .undef then none
          else searchLoop st name (some (visi.getD e.vis)) shadow rest

/-- `search_method`, class.rs l.1128-1130, from a module object. -/
def searchMethod (st : St) (r name : Nat) : Option Entry :=
  searchLoop st name none none (st.chain r)

/-- `search_method_by_class_id`, store.rs l.1788-1795. -/
def searchByClass (st : St) (c name : Nat) : Option Entry := searchMethod st (st.obj c) name

/-- `check_method_for_class`, store.rs l.1129-1136, l.1266-1281, with
`GlobalMethodCache::get` / `insert`, store.rs l.2209-2248.  The `BOOL_CLASS` detour is
left out. -/
def lookupCached (st : St) (c name : Nat) : St × Option Entry :=
  let cache : Cache :=
    if st.cache.version ≠ st.version then { version := st.version, map := [] } else st.cache
  match cache.map.lookup (name, c) with
  | some e => ({ st with cache := cache }, e)
  | none =>
    let e := searchByClass st c name
    ({ st with cache := { version := st.version, map := ((name, c), e) :: cache.map } }, e)

/-- `change_method_visibility_for_class` for one name, class.rs l.2347-2423
(`public :m`, `private :m`, …); `false` is the NameError. -/
def changeVisibility (st : St) (c name : Nat) (vis : Vis) : St × Bool :=
  match lookupCached st c name with
  | (st, none) => (st, false)
  | (st, some found) =>
    match found.func with
    | none => (st, false)
    | some fid =>
      let inherited := match st.sup (st.obj c) with
        | none => none
        | some s => (searchMethod st s name).bind (·.func)
      match st.entry c name with
      | some e =>
        let e := { e with vis := vis }
        let e := if e.shadow then
            match inherited with
            | some f => { e with func := some f }
            | none => e
          else e
        (bump (setEntry st c name e), true)
      | none =>
        if found.vis = vis then (st, true)
        else (insertMethod st c name
          { owner := c, func := some fid, vis := vis, shadow := true }, true)

/-! ### What a program sees -/

/-- `Store::ancestors` (`Module#ancestors`), store.rs l.318-372, as class ids. -/
def ancestors (st : St) (c : Nat) : List Nat :=
  let r := st.obj c
  let behind := (st.chain r).tail
  let behind := if (st.node r).kind = .cls then behind
    else behind.takeWhile fun s => (st.node s).kind != .cls
  (if st.hasOrigin r then [] else [st.cid r]) ++
    (behind.filter fun s => st.isIclass s || !st.hasOrigin s).map st.cid

/-- `is_kind_of` (`is_a?` for an instance of class `c`), value.rs l.845-855. -/
def isKindOf (st : St) (c m : Nat) : Bool := (st.chain (st.obj c)).any fun r => st.cid r == m

/-- `Module#<`: `less_than`, builtins/module.rs l.415-425; `none` is nil. -/
def lessThan (st : St) (lhs rhs : Nat) : Option Bool :=
  if rhs = lhs then some false
  else if isAncestorOf st rhs (st.obj lhs) then some true
  else if isAncestorOf st lhs (st.obj rhs) then some false
  else none

/-- `get_real_superclass` (`Class#superclass`), module.rs l.195-201: the first cell behind
`r` that is not an iclass. -/
def realSuper (st : St) (r : Nat) : Option Nat :=
  (st.chain r).tail.find? fun s => !st.isIclass s

/-- `Class#superclass` as a class id, builtins/class.rs l.325-345. -/
def superclass (st : St) (c : Nat) : Option Nat := (realSuper st (st.obj c)).map st.cid

/-- `get_direct_subclasses` (`Class#subclasses`), class.rs l.1378-1406. -/
def subclasses (st : St) (c : Nat) : List Nat :=
  (List.range st.classes.length).filter fun d =>
    let r := st.obj d
    !(st.node r).singleton && !st.isIclass r && d != c && (st.node r).kind == .cls &&
      (superclass st d == some c)

/-- `get_method`, class.rs l.1089-1096. -/
def getMethod (st : St) (c name : Nat) : Option Vis :=
  match st.entry c name with
  | some e => if e.func.isSome then some e.vis else none
  | none => none

/-- `Store::method_defined` with `inherit`, class.rs l.2217-2244, without the cache. -/
def methodVis (st : St) (c name : Nat) : Option Vis :=
  if (st.node (st.obj c)).kind = .cls then (searchByClass st c name).map (·.vis)
  else (ancestors st c).findSome? fun a => getMethod st a name

/-- `Module#method_defined?`, builtins/module.rs l.2411-2422. -/
def methodDefined (st : St) (c name : Nat) : Bool :=
  match methodVis st c name with
  | some .pub => true
  | some .prot => true
  | _ => false

/-- The cells visited by `walk_method_names` with `stop_before_object`, class.rs
l.1271-1320: the walk ends in front of `Object`. -/
def namesWalk (st : St) : List Nat → List Nat
  | [] => []
  | [r] => [r]
  | r :: s :: rest => if st.cid s == OBJECT then [r] else r :: namesWalk st (s :: rest)

/-- `MethodTableEntry::is_public` / `is_private` and `is_protected`, class.rs. -/
def Entry.is (e : Entry) (v : Vis) : Bool := e.func.isSome && e.vis == v

/-- `walk_method_names`, class.rs l.1271-1306, asked for one name: the first cell whose
table has the name decides. -/
def listedWith (st : St) (c name : Nat) (v : Vis) : Bool :=
  match (namesWalk st (st.chain (st.obj c))).findSome? fun r => st.entry (st.cid r) name with
  | some e => e.vis != .undef && e.is v
  | none => false

/-! ### super -/

/-- The part of the function table `super` reads: the body wrapped by a
`define_method` wrapper (`FuncKind::Proc`) and the classes a body was installed in. -/
structure Funcs where
  body : Nat → Option Nat
  owners : Nat → List Nat

/-- `body_dispatched_by`, class.rs l.2821-2832. -/
def dispatchedBy (fs : Funcs) (st : St) (c name fid : Nat) : Bool :=
  match st.entry c name with
  | none => false
  | some e =>
    if e.shadow then false
    else match e.func with
      | none => false
      | some f => f == fid || fs.body f == some fid

/-- Whether the cell `r` is a position of the body (`!m.has_origin() && ..`). -/
def position (fs : Funcs) (st : St) (name fid r : Nat) : Bool :=
  !st.hasOrigin r && dispatchedBy fs st (st.cid r) name fid

/-- `super_occurrences`, class.rs l.2847-2861. -/
def superOccurrences (fs : Funcs) (st : St) (c fid name : Nat) : Nat :=
  ((st.chain (st.obj c)).filter (position fs st name fid)).length

/-- The method `search_method` finds in the cells behind a position. -/
def funcBehind (st : St) (name : Nat) (rest : List Nat) : Option Nat :=
  match rest with
  | [] => none
  | _ => (searchLoop st name none none rest).bind (·.func)

/-- The first walk of `check_super_at`, class.rs l.2912-2931: `.inl` the method found,
`.inr` the number of positions met. -/
def superWalk (fs : Funcs) (st : St) (fid name : Nat) (occ : Option Nat) :
    Nat → List Nat → Nat ⊕ Nat
  | matched, [] => .inr matched
  | matched, r :: rest =>
    if position fs st name fid r then
      let matched := matched + 1
      if (match occ with | none => true | some k => decide (k ≤ matched)) then
        match funcBehind st name rest with
        | some f =>
          if occ.isSome || f != fid then .inl f
          else superWalk fs st fid name occ matched rest
        | none => superWalk fs st fid name occ matched rest
      else superWalk fs st fid name occ matched rest
    else superWalk fs st fid name occ matched rest

/-- The second walk, class.rs l.2939-2953, over the owners the body was registered with:
`.inl` the method found, `.inr` whether an owner was met. -/
def ownerWalk (fs : Funcs) (st : St) (fid name : Nat) : Bool → List Nat → Nat ⊕ Bool
  | met, [] => .inr met
  | met, r :: rest =>
    if !st.hasOrigin r && (fs.owners fid).contains (st.cid r) then
      match funcBehind st name rest with
      | some f => if f != fid then .inl f else ownerWalk fs st fid name true rest
      | none => ownerWalk fs st fid name true rest
    else ownerWalk fs st fid name met rest

/-- `check_super_at`, class.rs l.2904-2965. -/
def checkSuperAt (fs : Funcs) (st : St) (c fid name : Nat) (occ : Option Nat) : Option Nat :=
  let chain := st.chain (st.obj c)
  match superWalk fs st fid name occ 0 chain with
  | .inl f => some f
  | .inr (_ + 1) => none
  | .inr 0 =>
    match ownerWalk fs st fid name false chain with
    | .inl f => some f
    | .inr true => none
    | .inr false =>
      match (searchByClass st c name).bind (·.func) with
      | some f => if f != fid then some f else none
      | none => none

/-- `check_super`, class.rs l.2873-2884. -/
def checkSuper (fs : Funcs) (st : St) (c fid name : Nat) : Option Nat :=
  if superOccurrences fs st c fid name > 1 then none
  else checkSuperAt fs st c fid name none

/-! ### Histories -/

/-- What a program does to the hierarchy. Classes and modules are named by class id. -/
inductive Op
  | newClass (sup : Nat)
  | newSingleton (sup : Nat)
  | newModule
  | include (c m : Nat)
  | prepend (c m : Nat)
  | define (c name func : Nat) (vis : Vis)
  | undef (c name : Nat)
  | remove (c name : Nat)
  | setVis (c name : Nat) (vis : Vis)
  | lookup (c name : Nat)
deriving DecidableEq, Repr

/-- `Class#superclass=`-like arguments are checked by the callers: a superclass must be a
class (`expect_class_for_superclass`), an included or prepended argument a module
(`require_module_argument`, builtins/module.rs l.2118-2137). Ids beyond the class table do
not exist. -/
def Op.valid (st : St) : Op → Bool
  | .newClass s => s < st.classes.length && (st.node (st.obj s)).kind == .cls
  | .newSingleton s => s < st.classes.length && (st.node (st.obj s)).kind == .cls
  | .newModule => true
  | .include c m | .prepend c m =>
    c < st.classes.length && m < st.classes.length && (st.node (st.obj m)).kind == .mod
  | .define c _ _ v => c < st.classes.length && v != .undef
  | .setVis c _ v => c < st.classes.length && v != .undef
  | .undef c _ | .remove c _ | .lookup c _ => c < st.classes.length

/-- One operation; `none` is a panic. A rejected `include` or `prepend` raises, and the
program goes on with the state left behind. -/
def step (st : St) : Op → Option St
  | .newClass s => some (newClass st s false)
  | .newSingleton s => some (newClass st s true)
  | .newModule => some (newModule st)
  | .include c m =>
    match includeModule st c m with
    | .ok st => some st
    | .cyclic st => some st
    | _ => none
  | .prepend c m =>
    match prependModule st c m with
    | .ok st => some st
    | .cyclic st => some st
    | _ => none
  | .define c name f v => some (addMethod st c name f v)
  | .undef c name => some (undefMethod st c name)
  | .remove c name => some (removeMethod st c name).1
  | .setVis c name v => some (changeVisibility st c name v).1
  | .lookup c name => some (lookupCached st c name).1

/-- The hierarchy before the program: `BasicObject` (0) and `Object` (1), globals.rs
l.640-655. Every other class and module, `Kernel` included, is made by operations. -/
def boot : St :=
  { nodes := [{ cid := 0, sup := none, origin := none, kind := .cls, singleton := false },
      { cid := 1, sup := some 0, origin := none, kind := .cls, singleton := false }]
    classes := [{ obj := 0, methods := [] }, { obj := 1, methods := [] }]
    version := 1
    cache := { version := 0, map := [] } }

/-- Every valid operation of a history in order; `none` when one panicked. -/
def exec : St → List Op → Option St
  | st, [] => some st
  | st, op :: ops =>
    if op.valid st then
      match step st op with
      | some st => exec st ops
      | none => none
    else exec st ops

/-- The states a program can bring about. -/
def Reach (st : St) : Prop := ∃ ops, exec boot ops = some st

end Verif.Classes
