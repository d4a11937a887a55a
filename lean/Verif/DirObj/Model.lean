/-!
# Dir objects

Modelled from `monoruby/builtins/dir.rb`.  The names were read when the Dir was
made.  Encodings, `for_fd` and operations on the Dir inside the block of its own
`each` are not modelled.
-/

namespace Verif.DirObj

/-- The instance variables (dir.rb:19-31), and how often close(2) was called for
the descriptor. -/
structure D where
  entries : List String
  pos : Int
  closed : Bool
  fdClosed : Nat
deriving DecidableEq, Repr

/-- `Dir.new` (dir.rb:19-31). -/
def D.new (entries : List String) : D := ⟨entries, 0, false, 0⟩

/-- `Array#[]` with an Integer. -/
def at' (l : List String) (i : Int) : Option String :=
  if 0 ≤ i then l[i.toNat]? else if 0 ≤ i + l.length then l[(i + l.length).toNat]? else none

inductive Op
  | read
  /-- The block breaks when it gets the name with this number. -/
  | each (stop : Option Nat)
  | children
  | rewind
  | tell
  | seek (n : Int)
  | close
deriving DecidableEq, Repr

inductive Res
  | closedError
  | nil
  | name (s : String)
  /-- The names the block was called with, or the array. -/
  | names (l : List String)
  | int (n : Int)
  | self
deriving DecidableEq, Repr

/-- `read` (dir.rb:55-61). -/
def read (d : D) : Res × D :=
  if d.closed then (.closedError, d) else
  if d.pos ≥ d.entries.length then (.nil, d) else
  (match at' d.entries d.pos with
   | none => .nil
   | some e => .name e, { d with pos := d.pos + 1 })

/-- `each` (dir.rb:63-72). -/
def each (stop : Option Nat) (d : D) : Res × D :=
  if d.closed then (.closedError, d) else
  match stop with
  | some k =>
    if k < d.entries.length then (.names (d.entries.take (k + 1)), d)
    else (.names d.entries, { d with pos := d.entries.length })
  | none => (.names d.entries, { d with pos := d.entries.length })

/-- `children` (dir.rb:74-77). -/
def children (d : D) : Res × D :=
  if d.closed then (.closedError, d) else
  (.names (d.entries.filter fun e => !(e == "." || e == "..")), d)

/-- `rewind` (dir.rb:86-90). -/
def rewind (d : D) : Res × D :=
  if d.closed then (.closedError, d) else (.self, { d with pos := 0 })

/-- `pos`, `tell` (dir.rb:92-97). -/
def tell (d : D) : Res × D :=
  if d.closed then (.closedError, d) else (.int d.pos, d)

/-- `seek` through `pos=` (dir.rb:99-109). -/
def seek (n : Int) (d : D) : Res × D :=
  if d.closed then (.closedError, d) else (.self, { d with pos := n })

/-- `close` (dir.rb:111-116). -/
def close (d : D) : Res × D :=
  if d.closed then (.nil, d) else (.nil, { d with closed := true, fdClosed := d.fdClosed + 1 })

def step (d : D) : Op → Res × D
  | .read => read d
  | .each k => each k d
  | .children => children d
  | .rewind => rewind d
  | .tell => tell d
  | .seek n => seek n d
  | .close => close d

def run (d : D) : List Op → List Res × D
  | [] => ([], d)
  | o :: os => ((step d o).1 :: (run (step d o).2 os).1, (run (step d o).2 os).2)

/-- `Dir.open` with a block (dir.rb:4-16): the operations of the block, however it
ends, then `close`. -/
def openBlock (entries : List String) (ops : List Op) : D := (close (run (.new entries) ops).2).2

end Verif.DirObj
