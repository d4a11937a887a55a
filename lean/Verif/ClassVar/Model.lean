/-!
# Class variables

Model of `monoruby/src/globals/store/class/constants.rs:527-610`, `globals/store/class.rs:762-789`,
`executor.rs:2347-2408` and `builtins/module.rs:2568-2740`.

A class or module is a number, given in the order of creation.  `anc` is the walk along superclass
links from a class, the class first; an included or prepended module stands in it under its own number
(`Module::id` of the link), so that a class with prepended modules stands in it twice.
-/

namespace Verif.ClassVar

/-- What can go wrong. -/
inductive Err where
  /-- NameError "uninitialized class variable" or "not defined" -/
  | name
  /-- RuntimeError "is overtaken by" -/
  | overtaken
  /-- RuntimeError "class variable access from toplevel" -/
  | toplevel
  | frozen
deriving DecidableEq, Repr

/-- A class: its class variables in order of definition (class.rs:301-306), whether it is frozen,
whether it is a singleton class (value/rvalue/module.rs:298) and, if that of a class, of which. -/
structure Cls (V : Type) where
  cvars : List (String × V)
  frozen : Bool
  single : Bool
  attached : Option Nat
deriving DecidableEq

/-- All classes, and the walks along superclass links. -/
structure St (V : Type) where
  cls : Nat → Cls V
  anc : Nat → List Nat

variable {V : Type}

/-- `get_cvar` (class.rs:772-774). -/
def lookup (n : String) : List (String × V) → Option V
  | [] => none
  | (m, v) :: r => if m = n then some v else lookup n r

/-- `set_cvar` (class.rs:762-770): in place, or at the end. -/
def put (n : String) (v : V) : List (String × V) → List (String × V)
  | [] => [(n, v)]
  | (m, w) :: r => if m = n then (m, v) :: r else (m, w) :: put n v r

/-- `remove_cvar` (class.rs:776-780): the others keep their order. -/
def take (n : String) : List (String × V) → List (String × V)
  | [] => []
  | (m, w) :: r => if m = n then r else (m, w) :: take n r

/-- the variable of a class's own table -/
def own (s : St V) (n : String) (k : Nat) : Option V := lookup n (s.cls k).cvars

/-- `singleton_attached_class` (constants.rs:146-157, and the same text in module.rs:2730-2741), at most `fuel` steps. -/
def frontLoop (s : St V) : Nat → Nat → Nat
  | 0, k => k
  | f + 1, k => match (s.cls k).attached with
    | some j => frontLoop s f j
    | none => k

/-- The class a singleton class stands for.  It was created before the singleton class, so `k + 1`
steps are enough. -/
def front (s : St V) (k : Nat) : Nat := frontLoop s (k + 1) k

/-- `set_class_variable` (constants.rs:532-542): no check that the class is not frozen. -/
def setAt (s : St V) (k : Nat) (n : String) (v : V) : St V :=
  { s with cls := fun j =>
      if j = front s k then { s.cls j with cvars := put n v (s.cls j).cvars } else s.cls j }

/-- The loop of `get_class_variable` (constants.rs:553-575). -/
def getLoop (s : St V) (n : String) : Option (Nat × V) → List Nat → Except Err (Option (Nat × V))
  | res, [] => .ok res
  | res, k :: r =>
    match own s n k with
    | none => getLoop s n res r
    | some v =>
      match res with
      | some (u, w) => if u ≠ k then .error .overtaken else getLoop s n (some (u, w)) r
      | none => getLoop s n (some (k, v)) r

/-- `get_class_variable` (constants.rs:544-584): `class_variable_get`, and `@@x` in `k`. -/
def get (s : St V) (k : Nat) (n : String) : Except Err V :=
  match getLoop s n none (s.anc (front s k)) with
  | .error e => .error e
  | .ok none => .error .name
  | .ok (some (_, v)) => .ok v

/-- `search_class_variables_superclass` (constants.rs:591-607): from the class as given. -/
def search (s : St V) (k : Nat) (n : String) : Option Nat :=
  (s.anc k).find? (fun j => (own s n j).isSome)

/-- `@@x = v` in `k` (executor.rs:2359-2372). -/
def assign (s : St V) (k : Nat) (n : String) (v : V) : St V := setAt s ((search s k n).getD k) n v

/-- `class_variable_set` (module.rs:2575-2599): the receiver must not be frozen. -/
def classVariableSet (s : St V) (k : Nat) (n : String) (v : V) : Except Err (St V) :=
  if (s.cls k).frozen then .error .frozen else .ok (assign s k n v)

/-- `class_variable_defined?` (module.rs:2627-2637), `defined?(@@x)` (codegen/runtime.rs:2173-2183). -/
def isDefined (s : St V) (k : Nat) (n : String) : Bool :=
  match get s k n with
  | .ok _ => true
  | .error _ => false

/-- `@@x ||= v` reads `nil` where reading `@@x` raises (codegen/runtime.rs:1864-1873). -/
def check (s : St V) (k : Nat) (n : String) : Option V :=
  match get s k n with
  | .ok v => some v
  | .error _ => none

/-- `remove_class_variable` (module.rs:2671-2688): of the very class, frozen or not. -/
def remove (s : St V) (k : Nat) (n : String) : Except Err (V × St V) :=
  match own s n k with
  | none => .error .name
  | some v => .ok (v, { s with cls := fun j =>
      if j = k then { s.cls j with cvars := take n (s.cls j).cvars } else s.cls j })

/-- The names of one class not seen yet (module.rs:2711-2715). -/
def addNames (seen : List String) : List (String × V) → List String
  | [] => seen
  | (n, _) :: r => if seen.contains n then addNames seen r else addNames (seen ++ [n]) r

/-- `class_variables` (module.rs:2695-2724). -/
def classVariables (s : St V) (k : Nat) (inherit : Bool) : List String :=
  let walk := s.anc (front s k)
  (if inherit then walk else walk.take 1).foldl (fun seen j => addNames seen (s.cls j).cvars) []

/-- `get_parent` (executor.rs:2388-2408): the lexical classes of the running body, innermost first,
then those of the bodies around it; singleton classes are passed over. -/
def parent (s : St V) : List (List Nat) → Except Err Nat
  | [] => .error .toplevel
  | ctx :: r => match ctx.find? (fun k => !(s.cls k).single) with
    | some k => .ok k
    | none => parent s r

end Verif.ClassVar
