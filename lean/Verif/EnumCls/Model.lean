/-!
# Enumerator::Product, Enumerator::Chain, Enumerator.produce

/repo/monoruby/builtins/enumerator.rb, builtins/enumerable.rb:1115-1176.

A member of a product or of a chain is the list of what its `each` (or `each_entry`) yields.
Simplifications for the whole file: members that raise, or that are infinite, are not modelled;
`inspect`, `initialize_copy` and external iteration are not modelled.
-/

namespace Verif.EnumCls

variable {α : Type}

/-- `__product_each_i(enums, i, acc)`, with the enums from `i` on; what the block gets, in order.
`acc` is pushed before and popped after the inner walk, so it is the same again for the next entry.
builtins/enumerator.rb:116-126 -/
def productEach : List (List α) → List α → List (List α) → List (List α)
  | [], acc, out => out ++ [acc]
  | e :: es, acc, out => e.foldl (fun out x => productEach es (acc ++ [x]) out) out

/-- `Product#each`.  builtins/enumerator.rb:103-109 -/
def product (enums : List (List α)) : List (List α) := productEach enums [] []

/-- What `size` of a member may be: an Integer, nil, an infinite Float, or something else (a Symbol, 1.0,
NaN).  Simplified: `0.0`, which `==` takes for 0, is not among the others. -/
inductive Size where
  | int (n : Int)
  | unknown
  | infinite
  | other
  deriving DecidableEq

/-- The second loop of `Product#size`.  builtins/enumerator.rb:142-149 -/
def sizeLoop (total : Int) : List Size → Size
  | [] => .int total
  | .unknown :: _ => .unknown
  | .infinite :: _ => .infinite
  | .other :: _ => .unknown
  | .int n :: t => sizeLoop (total * n) t

/-- `Product#size`.  builtins/enumerator.rb:133-150 -/
def productSize (sizes : List Size) : Size :=
  if sizes.contains (.int 0) then .int 0 else sizeLoop 1 sizes

/-- What a chain's `each` leaves: what the block got, and `@pos`.  The block breaks out when it gets
element number `n` (counted from 0), if there is one. -/
structure Walk (α : Type) where
  out : List α
  pos : Int

/-- The loop of `Chain#each` from source `i` on; `n` elements are taken before the block breaks out.
builtins/enumerable.rb:1138-1146 -/
def chainLoop (n : Nat) (i : Nat) (w : Walk α) : List (List α) → Walk α
  | [] => w
  | e :: es =>
    if n < e.length then ⟨w.out ++ e.take (n + 1), i⟩
    else chainLoop (n - e.length) (i + 1) ⟨w.out ++ e, i⟩ es

/-- `Chain#each` with a block that breaks out of it at element number `n`.
builtins/enumerable.rb:1138-1146 -/
def chainEach (n : Nat) (enums : List (List α)) : Walk α := chainLoop n 0 ⟨[], -1⟩ enums

/-- The loop of `Chain#rewind`: the sources it rewinds, in order.  Simplified: every source has `rewind`.
builtins/enumerable.rb:1161-1167 -/
def rewound : Nat → List Nat
  | 0 => [0]
  | i + 1 => (i + 1) :: rewound i

/-- `Chain#rewind`.  builtins/enumerable.rb:1160-1169 -/
def chainRewind (pos : Int) : List Nat := if pos < 0 then [] else rewound pos.toNat

/-- The loop of `Chain#size`.  Simplified: `other` is taken to end in nil (here a Float is added and a
Symbol raises TypeError).  builtins/enumerable.rb:1148-1156 -/
def chainSize (total : Int) : List Size → Size
  | [] => .int total
  | .unknown :: _ => .unknown
  | .infinite :: _ => .infinite
  | .other :: _ => .unknown
  | .int n :: t => chainSize (total + n) t

/-- How a walk over `produce` ends. -/
inductive End where
  /-- the consumer had enough -/
  | enough
  /-- the enumerator ended -/
  | ended
  /-- StopIteration came out of `each` -/
  | raised
  deriving DecidableEq

/-- The `loop do … end` of `produce`: the block answers with a value or raises StopIteration (`none`),
which `loop` catches.  The consumer takes `n` values.  builtins/enumerator.rb:48-51 -/
def produceLoop (f : α → Option α) : Nat → α → List α × End
  | 0, _ => ([], .enough)
  | n + 1, v =>
    match f v with
    | none => ([v], if n = 0 then .enough else .ended)
    | some v' => let r := produceLoop f n v'; (v :: r.1, r.2)

/-- `Enumerator.produce(init) { … }` and, without an initial value, `Enumerator.produce { … }`, where the
first value is the block's for nil and comes before the `loop`.  builtins/enumerator.rb:34-53 -/
def produce (init : Option α) (first : Option α) (f : α → Option α) (n : Nat) : List α × End :=
  match init with
  | some v => produceLoop f n v
  | none => match first with
    | some v => produceLoop f n v
    | none => ([], .raised)

end Verif.EnumCls
