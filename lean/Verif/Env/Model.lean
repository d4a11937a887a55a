/-!
# ENV

ENV is a Hash object beside the environment of the process, with methods of its own
for some of the operations; the others are those of Hash.  Modelled from
`monoruby/src/builtins/hash.rs`.  Names and values are Strings already (`to_str` is
not modelled), and the names in the environment of the process are different.
-/

namespace Verif.Env

abbrev Tab := List (String × String)

def get : Tab → String → Option String
  | [], _ => none
  | e :: t, k => if e.1 = k then some e.2 else get t k

/-- `Hash#insert`: in its place, or at the end. -/
def set : Tab → String → String → Tab
  | [], k, v => [(k, v)]
  | e :: t, k, v => if e.1 = k then (k, v) :: t else e :: set t k v

def del (t : Tab) (k : String) : Tab := t.filter fun e => e.1 != k

/-- The Hash that Ruby code sees, and `environ`. -/
structure W where
  tab : Tab
  os : Tab
deriving DecidableEq, Repr

/-- hash.rs:217-244: the Hash is filled from the environment. -/
def W.start (os : Tab) : W := ⟨os, os⟩

/-- `coerce_env_string` (hash.rs:2572-2586). -/
def noNul (s : String) : Bool := !s.toList.contains '\x00'

/-- `check_env_key_for_set` (hash.rs:2670-2680). -/
def validKey (k : String) : Bool := !(k == "" || k.toList.contains '=')

/-- `env_set_one` (hash.rs:2888-2908), also the end of `env_index_assign`. -/
def setOne (w : W) (k v : String) : W := ⟨set w.tab k v, set w.os k v⟩

/-- `env_unset_one` (hash.rs:2910-2926). -/
def unsetOne (w : W) (k : String) : W := ⟨del w.tab k, del w.os k⟩

/-- `ENV[k] = v` (hash.rs:2606-2665); `false` is an exception. -/
def assign (w : W) (k : String) (v : Option String) : Bool × W :=
  if !noNul k then (false, w) else
  match v with
  | none => (true, unsetOne w k)
  | some v =>
    if !validKey k then (false, w) else
    if !noNul v then (false, w) else (true, setOne w k v)

/-- `ENV.delete` (hash.rs:2695-2727). -/
def delete (w : W) (k : String) : Bool × W :=
  if !noNul k then (false, w) else (true, unsetOne w k)

/-- `ENV.merge!` (hash.rs:2947-3010); the block gets the name, the old and the new
value. -/
def merge (block : Option (String → String → String → String)) :
    W → List (String × Option String) → Bool × W
  | w, [] => (true, w)
  | w, (k, v) :: ps =>
    if !noNul k then (false, w) else
    match v with
    | none => merge block (unsetOne w k) ps
    | some v =>
      if !validKey k then (false, w) else
      if !noNul v then (false, w) else
      let v' := match block, get w.tab k with
        | some b, some old => b k old v
        | _, _ => v
      if !noNul v' then (false, w) else merge block (setOne w k v') ps

/-- `ENV.replace` (hash.rs:3022-3062). -/
def replace (w : W) (ps : List (String × String)) : Bool × W :=
  if !(ps.all fun p => noNul p.1 && validKey p.1 && noNul p.2) then (false, w) else
  let w := (w.tab.map (·.1)).foldl unsetOne w
  let w := { w with tab := [] }
  (true, ps.foldl (fun w p => setOne w p.1 p.2) w)

inductive Op
  | assign (k : String) (v : Option String)
  | delete (k : String)
  | merge (block : Option (String → String → String → String)) (ps : List (String × Option String))
  | replace (ps : List (String × String))

def step (w : W) : Op → W
  | .assign k v => (assign w k v).2
  | .delete k => (delete w k).2
  | .merge b ps => (merge b w ps).2
  | .replace ps => (replace w ps).2

/-- The methods that ENV has from Hash: `clear` (hash.rs:1673-1676), and
`delete_if`, `reject!`, `select!`, `keep_if`, `shift`, which all leave some of the
entries.  They know nothing of `environ`. -/
def keepOnly (p : String → String → Bool) (w : W) : W :=
  { w with tab := w.tab.filter fun e => p e.1 e.2 }

def clear (w : W) : W := keepOnly (fun _ _ => false) w

/-- The environment of a child (spawn.rs:283-293). -/
def child (w : W) (unsetOthers : Bool) (ops : List (String × Option String)) : Tab :=
  ops.foldl (fun env o =>
    let env := del env o.1
    match o.2 with
    | some v => env ++ [(o.1, v)]
    | none => env) (if unsetOthers then [] else w.os)

end Verif.Env
