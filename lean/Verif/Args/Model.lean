/-
Argument binding: how the values of a call site reach the parameters of the
callee's frame.

Sources (all under /repo/monoruby/src):
  codegen/runtime/args.rs                l.8-1595   the runtime binders
  globals/store/iseq.rs                  l.1215-1496 `ParamsInfo`
  globals/store/function.rs              l.1290-1497, l.1552-1622 `FuncInfo` queries, `apply_args`, `is_simple_call`
  globals/store.rs                       l.1572-1725 layout of the parameter slots, l.2030-2090 `CallSiteInfo`
  codegen/jitgen/compile/method_call.rs  l.2035-2178 argument set-up emitted into compiled code
  codegen/runtime.rs                     l.1454-1548 the helpers called by compiled `yield` / `send`
  bytecodegen/method_call/arguments.rs   l.86-160, l.336-358 call-site compilation

Simplifications common to the whole file:
* A Ruby value is a tree (`Val`): object identity, and the side effects of `to_ary` and `to_hash`, are not
  modelled; the result of the two conversions is a parameter of the model (`World`).
* A hash is the list of its entries in insertion order.  Keys are Symbols or other values, told apart by a
  number; user-defined `hash`/`eql?` on keys is not modelled.
* `self`, the block and the receiver are not part of the frame modelled here; slot `k` of the model is register
  `SlotId(k + 1)` of the code.
-/
namespace Verif.Args

/-- Interned identifiers (`IdentId`). -/
abbrev Name := Nat

/-- Hash keys: a Symbol, or any other value (told apart by a number). -/
inductive Key where
  | sym (n : Name)
  | other (n : Nat)
  deriving DecidableEq, Repr

/-- Ruby values as seen by argument binding: `nil`, values that are neither arrays, hashes nor convertible
(`atom`), user objects that may define `to_ary` / `to_hash` (`obj`), arrays, and hashes with their
`ruby2_keywords` flag (`HashmapInner::ruby2_keywords_flag`). -/
inductive Val where
  | nil
  | atom (n : Nat)
  | obj (n : Nat)
  | arr (l : List Val)
  | hash (kvs : List (Key × Val)) (flag : Bool)
  deriving Inhabited, Repr

/-- What calling an implicit conversion method on a user object does. -/
inductive Conv where
  /-- the object does not respond to it -/
  | missing
  /-- the conversion raises -/
  | raises
  | gives (v : Val)

/-- The user-defined conversions of the program. -/
structure World where
  toAry : Nat → Conv
  toHash : Nat → Conv

/-- Why a call raises; `ub` stands for reading or writing outside the areas involved, a failed `unwrap`, or a
failed `assert`. -/
inductive Err where
  | arity (given min max : Nat)
  | missing (names : List Name)
  | unknown (keys : List Key)
  | noKeywords
  | typeErr
  | raised
  | ub
  deriving DecidableEq, Repr

/-- A `*rest` parameter: none, the implicit one of `|a,|`, or an explicit one (iseq.rs l.1224-1234). -/
inductive Rest where
  | none
  | implicit
  | explicit
  deriving DecidableEq, Repr

/-- `ParamsInfo` (iseq.rs l.1218-1254) with the two properties of `FuncInfo` that binding looks at: whether the
function is block style (function.rs l.226) and whether it is marked `ruby2_keywords` (l.1305).
`rest: Option<usize>` always holds the position `req + opt` (store.rs l.1631-1656, iseq.rs l.1334), and the
`**rest` slot follows the keywords (store.rs l.1659, l.1679, iseq.rs l.1346), so neither position is stored. -/
structure Params where
  req : Nat := 0
  opt : Nat := 0
  rest : Rest := .none
  post : Nat := 0
  kwNames : List Name := []
  kwRequired : List Bool := []
  kwRest : Bool := false
  forbidKw : Bool := false
  blockStyle : Bool := false
  r2k : Bool := false
  deriving Repr

namespace Params
/-- `reqopt_num`, iseq.rs l.1374. -/
def reqopt (p : Params) : Nat := p.req + p.opt
/-- `min_positional_args`, iseq.rs l.1449. -/
def min (p : Params) : Nat := p.req + p.post
/-- `max_positional_args`, iseq.rs l.1456. -/
def max (p : Params) : Nat := p.req + p.opt + p.post
/-- `FuncInfo::is_rest`, function.rs l.1318. -/
def isRest (p : Params) : Bool := p.rest != .none
/-- `FuncInfo::is_explicit_rest`, function.rs l.1325. -/
def isExplicitRest (p : Params) : Bool := p.rest == .explicit
/-- `total_positional_args`, iseq.rs l.1463. -/
def total (p : Params) : Nat := p.max + (if p.isRest then 1 else 0)
/-- First slot of the post parameters, args.rs l.1016. -/
def postPos (p : Params) : Nat := p.reqopt + (if p.isRest then 1 else 0)
/-- `kw_reg_pos`, iseq.rs l.1468 (one less: slot 0 is `SlotId(1)`). -/
def kwPos (p : Params) : Nat := p.total
/-- Slot of the `**rest` parameter (store.rs l.1679). -/
def kwRestPos (p : Params) : Nat := p.total + p.kwNames.length
/-- `no_keyword`, function.rs l.1300. -/
def noKeyword (p : Params) : Bool := p.kwNames.isEmpty && !p.kwRest
/-- `kw_is_required`, iseq.rs l.1395. -/
def kwIsRequired (p : Params) (i : Nat) : Bool := p.kwRequired.getD i false
/-- `single_arg_expand`, function.rs l.1451. -/
def singleArgExpand (p : Params) : Bool := p.blockStyle && decide (1 < p.total)
/-- `arity`, function.rs l.1419-1445. -/
def arity (p : Params) : Int :=
  let hasReqKw := p.kwRequired.any id
  let reqCount : Int := p.min + (if hasReqKw then 1 else 0)
  let variable_ := if p.blockStyle then p.isExplicitRest
    else decide (0 < p.opt) || p.isExplicitRest || ((!p.kwNames.isEmpty || p.kwRest) && !hasReqKw)
  if variable_ then -(reqCount + 1) else reqCount
/-- `positional_within_range`, function.rs l.1552. -/
def withinRange (p : Params) (n : Nat) : Bool := decide (p.min ≤ n) && decide (n ≤ p.max)
/-- `positional_arity_ok`, function.rs l.1564-1571. -/
def arityOk (p : Params) (n : Nat) : Bool :=
  p.blockStyle || (if p.isRest then decide (p.min ≤ n) else p.withinRange n)
end Params

/-- The parameter slots of the callee frame.  `none` is the zero word an absent optional or keyword parameter
holds until the prologue runs its default. -/
abbrev Frame := Nat → Option Val

/-- One slot write. -/
def Frame.set (f : Frame) (i : Nat) (v : Option Val) : Frame := fun j => if j = i then v else f j

/-- Where positional arguments are read from: memory, a pointer, and the direction the arguments run in (`upward`
for a slice, downward for frame slots). -/
structure Src where
  mem : Int → Val
  ptr : Int
  up : Bool

/-- Argument `i` behind a source (args.rs l.990-994). -/
def Src.rd (s : Src) (i : Nat) : Val := s.mem (if s.up then s.ptr + i else s.ptr - i)

/-- A Rust slice. -/
def Src.slice (l : List Val) : Src := { mem := fun a => l.getD a.toNat .nil, ptr := 0, up := true }

/-- Consecutive frame slots, which lie at descending addresses. -/
def Src.slots (l : List Val) : Src := { mem := fun a => l.getD (-a).toNat .nil, ptr := 0, up := false }

/-- The local `fill` of `fill_positional_args` (args.rs l.976-978): slots `s .. e`.  A negative length would be a
wild slice. -/
def fill (f : Frame) (s e : Nat) (v : Option Val) : Except Err Frame :=
  if e < s then .error .ub else .ok fun i => if s ≤ i ∧ i < e then v else f i

/-- The local `memcpy` (args.rs l.980-997): arguments `a .. b` to the slots from `off` on.  The callee frame and
the source do not overlap. -/
def memcpy (f : Frame) (off : Nat) (src : Src) (a b : Nat) : Frame :=
  fun i => if off ≤ i ∧ i < off + (b - a) then some (src.rd (a + (i - off))) else f i

/-- The slice that becomes the `*rest` array (args.rs l.1068-1083). -/
def restSlice (src : Src) (a b : Nat) : List Val :=
  if src.up then (List.range (b - a)).map fun (i : Nat) => src.mem (src.ptr + a + i)
  else ((List.range (b - a)).map fun (i : Nat) => src.mem (src.ptr - b + 1 + i)).reverse

/-- `fill_positional_args` (args.rs l.969-1088). -/
def fillPositional (p : Params) (f : Frame) (src : Src) (n : Nat) : Except Err Frame := do
  if !p.blockStyle && (decide (n < p.min) || (decide (p.max < n) && !p.isExplicitRest)) then
    throw (.arity n p.min p.max)
  let optPos := p.req
  let restPos := p.reqopt
  let postPos := p.postPos
  let endPos := p.total
  let (f, off1, b0, a1, b1, ra, rb) ←
    if n ≤ p.req then do
      let f ← fill f n optPos (some .nil)
      let f ← fill f optPos restPos none
      let f ← fill f postPos endPos (some .nil)
      pure (f, n, n, n, n, n, n)
    else if n ≤ p.min then do
      let f ← fill f optPos restPos none
      let k := n - optPos
      let f ← fill f (postPos + k) endPos (some .nil)
      pure (f, postPos, optPos, optPos, n, n, n)
    else if n ≤ p.max then do
      let k := n - p.req - p.post
      let f ← fill f (optPos + k) restPos none
      pure (f, postPos, optPos + k, optPos + k, n, n, n)
    else if p.isRest then
      pure (f, postPos, restPos, n + postPos - endPos, n, restPos, n + postPos - endPos)
    else
      pure (f, postPos, restPos, restPos, endPos, restPos, restPos)
  let f := memcpy f 0 src 0 b0
  let f := memcpy f off1 src a1 b1
  pure (if p.isRest then f.set p.reqopt (some (.arr (restSlice src ra rb))) else f)

/-- `fill_positional_args1` (args.rs l.956): from a slice. -/
def fillSlice (p : Params) (f : Frame) (l : List Val) : Except Err Frame :=
  fillPositional p f (.slice l) l.length

/-- `fill_positional_args2` (args.rs l.960): from frame slots. -/
def fillSlots (p : Params) (f : Frame) (l : List Val) : Except Err Frame :=
  fillPositional p f (.slots l) l.length

/-! ### Hashes -/

/-- `RubyMap::get`. -/
def mapGet (m : List (Key × Val)) (k : Key) : Option Val := (m.find? fun e => e.1 == k).map (·.2)

/-- `RubyMap::insert`: an existing key keeps its place. -/
def mapInsert (m : List (Key × Val)) (k : Key) (v : Val) : List (Key × Val) :=
  if m.any (fun e => e.1 == k) then m.map fun e => if e.1 == k then (k, v) else e else m ++ [(k, v)]

/-- `RubyMap::remove`. -/
def mapRemove (m : List (Key × Val)) (k : Key) : List (Key × Val) := m.filter fun e => !(e.1 == k)

/-- Inserting every entry of `es`, in order. -/
def mapInsertAll (m : List (Key × Val)) (es : List (Key × Val)) : List (Key × Val) :=
  es.foldl (fun m e => mapInsert m e.1 e.2) m

/-! ### Call sites -/

/-- `CallSiteInfo` (globals/store.rs l.1960-2090) with the argument registers of the caller's frame it refers to:
the positional ones, the positions of splats among them, the literal keywords (`kw_args`, an `IndexMap` from the
name to the offset of its register), the keyword registers, the `**` operands, and whether the site forwards the
enclosing method's arguments.  `kw_len` counts the registers of both keyword kinds. -/
structure CallSite where
  args : List Val := []
  splat : List Nat := []
  kw : List (Name × Nat) := []
  kwVals : List Val := []
  hs : List Val := []
  forwarding : Bool := false

namespace CallSite
/-- `kw_may_exists`, store.rs l.2030. -/
def kwMayExist (cs : CallSite) : Bool := !cs.kw.isEmpty || !cs.hs.isEmpty
/-- `has_splat`, store.rs l.2034. -/
def hasSplat (cs : CallSite) : Bool := !cs.splat.isEmpty
/-- `has_hash_splat`, store.rs l.2038. -/
def hasHashSplat (cs : CallSite) : Bool := !cs.hs.isEmpty
/-- `kw_args.get(name)` and the register it names. -/
def kwGet (cs : CallSite) (n : Name) : Except Err (Option Val) :=
  match (cs.kw.find? fun e => e.1 == n).map (·.2) with
  | none => .ok none
  | some i => match cs.kwVals[i]? with
    | some v => .ok (some v)
    | none => .error .ub
/-- Iterating over the literal keywords with their values. -/
def kwPairs (cs : CallSite) : Except Err (List (Name × Val)) :=
  cs.kw.mapM fun e => match cs.kwVals[e.2]? with
    | some v => .ok (e.1, v)
    | none => .error .ub
end CallSite

/-- One keyword argument as written: `name: v` or `**v`. -/
inductive KwItem where
  | lit (n : Name) (v : Val)
  | splat (v : Val)

/-- `IndexMap::insert` on `kw_args`: an existing name keeps its place and gets the new offset. -/
def kwInsert (m : List (Name × Nat)) (n : Name) (i : Nat) : List (Name × Nat) :=
  if m.any (fun e => e.1 == n) then m.map fun e => if e.1 == n then (n, i) else e else m ++ [(n, i)]

/-- `collect_call_arg` (parser/prism_backend.rs l.3021-3057) splits the keyword arguments of a call whose keys are
all static symbols into the literals and the `**` operands, losing their relative order, and `keyword_arg`
(bytecodegen/method_call/arguments.rs l.336-358) evaluates the literals into consecutive registers, then the
operands.  The expressions are modelled by their values. -/
def compileKw (items : List KwItem) : List (Name × Nat) × List Val × List Val :=
  let lits := items.filterMap fun | .lit n v => some (n, v) | .splat _ => none
  let hs := items.filterMap fun | .lit _ _ => none | .splat v => some v
  let kw := (lits.zipIdx).foldl (fun m e => kwInsert m e.1.1 e.2) []
  (kw, lits.map (·.2), hs)

/-- A call site with the given positional arguments and keyword arguments as written. -/
def CallSite.ofSource (args : List Val) (splat : List Nat) (items : List KwItem) : CallSite :=
  let (kw, kwVals, hs) := compileKw items
  { args, splat, kw, kwVals, hs }

/-! ### Keywords -/

/-- `coerce_hash_splat_args` (args.rs l.660-702). -/
def coerceHashSplat (W : World) : Val → Except Err Val
  | .nil => .ok .nil
  | .hash m fl => .ok (.hash m fl)
  | .obj n => match W.toHash n with
    | .gives (.hash m fl) => .ok (.hash m fl)
    | .gives _ => .error .typeErr
    | .raises => .error .raised
    | .missing => .error .typeErr
  | .atom _ => .error .typeErr
  | .arr _ => .error .typeErr

/-- The call site after `coerce_hash_splat_args` rewrote its registers. -/
def coerceSite (W : World) (cs : CallSite) : Except Err CallSite := do
  let hs ← cs.hs.mapM (coerceHashSplat W)
  pure { cs with hs := hs }

/-- Whether a `**` operand carries keywords (args.rs l.1204-1213). -/
def carriesKw : Val → Bool
  | .nil => false
  | .hash [] _ => false
  | _ => true

/-- `any_keyword_passed` (args.rs l.1195-1215). -/
def anyKeywordPassed (cs : CallSite) : Bool := !cs.kw.isEmpty || cs.hs.any carriesKw

/-- `kw_empty` of the forwarding paths (args.rs l.249-254, l.505-510). -/
def kwEmpty (cs : CallSite) : Bool :=
  cs.kw.isEmpty && cs.hs.all fun | .nil => true | .hash m _ => m.isEmpty | _ => false

/-- The entries of a `**` operand (`nil` has none). -/
def entriesOf : Val → Except Err (List (Key × Val))
  | .nil => .ok []
  | .hash m _ => .ok m
  | _ => .error .typeErr

/-- The trailing hash for a callee without keywords (args.rs l.754-790). -/
def excess (p : Params) (cs : CallSite) : Except Err (Option Val) := do
  if p.noKeyword && cs.kwMayExist then
    let ps ← cs.kwPairs
    let m := ps.foldl (fun m e => mapInsert m (.sym e.1) e.2) []
    let es ← cs.hs.mapM entriesOf
    let m := es.foldl mapInsertAll m
    if m.isEmpty then pure none else pure (some (.hash m p.r2k))
  else pure none

/-- `check_missing_keyword` (args.rs l.1238-1247). -/
def missingNames (p : Params) (f : Frame) : List Name :=
  (p.kwNames.zipIdx.filter fun e => p.kwIsRequired e.2 && (f (p.kwPos + e.2)).isNone).map (·.1)

/-- `check_missing_keyword` and `missing_keyword_err` (args.rs l.1238-1316). -/
def checkMissing (p : Params) (f : Frame) : Except Err Unit :=
  let m := missingNames p f
  if m.isEmpty then .ok () else .error (.missing m)

/-- `ordinary_keyword` (args.rs l.1323-1355): the frame and the undeclared names. -/
def ordinaryKeyword (p : Params) (cs : CallSite) (f : Frame) : Except Err (Frame × List Key) := do
  let vs ← p.kwNames.mapM cs.kwGet
  let f := vs.zipIdx.foldl (fun f e => f.set (p.kwPos + e.2) e.1) f
  let used := (vs.filter (·.isSome)).length
  if used < cs.kw.length && !p.kwRest then
    pure (f, (cs.kw.filter fun e => !p.kwNames.contains e.1).map fun e => .sym e.1)
  else pure (f, [])

/-- The loop over the callee's keyword names for one `**` operand (args.rs l.1397-1413): the frame and how many
entries were used. -/
def bindFromHash (p : Params) (m : List (Key × Val)) (f : Frame) : Frame × Nat :=
  p.kwNames.zipIdx.foldl (fun (f, used) e => match mapGet m (.sym e.1) with
    | some v => (Frame.set f (p.kwPos + e.2) (some v), used + 1)
    | none => (f, used)) (f, 0)

/-- Whether a key names one of the callee's keywords. -/
def declared (p : Params) : Key → Bool
  | .sym n => p.kwNames.contains n
  | .other _ => false

/-- One `**` operand in `hash_splat_and_kw_rest` (args.rs l.1388-1427). -/
def bindSplat (p : Params) (f : Frame) (h : Val) : Except Err (Frame × List Key) :=
  match h with
  | .nil => .ok (f, [])
  | .hash m _ =>
    let (f, used) := bindFromHash p m f
    let unused := m.length - used
    if decide (0 < unused) && !p.kwRest then
      .ok (f, (m.filter fun e => !declared p e.1).map (·.1))
    else .ok (f, [])
  | _ => .error .typeErr

/-- All operands in turn. -/
def bindSplats (p : Params) : Frame → List Val → Except Err (Frame × List Key)
  | f, [] => .ok (f, [])
  | f, h :: hs => do
    let (f, u) ← bindSplat p f h
    let (f, u') ← bindSplats p f hs
    pure (f, u ++ u')

/-- One operand added to the `**rest` hash (args.rs l.1443-1463). -/
def kwRestAdd (p : Params) (acc : List (Key × Val)) (h : Val) : Except Err (List (Key × Val)) :=
  match h with
  | .nil => .ok acc
  | .hash m _ => .ok (mapInsertAll acc (p.kwNames.foldl (fun m n => mapRemove m (.sym n)) m))
  | _ => .error .ub

/-- `hash_splat_and_kw_rest` (args.rs l.1365-1469); `extra` is the promoted `ruby2_keywords` hash. -/
def hashSplatAndKwRest (p : Params) (cs : CallSite) (extra : Option Val) (f : Frame) :
    Except Err (Frame × List Key) := do
  if p.noKeyword then pure (f, [])
  else
    let hs := cs.hs ++ extra.toList
    let (f, unknowns) ← bindSplats p f hs
    if p.kwRest then
      if !cs.kwMayExist && extra.isNone then
        pure (f.set p.kwRestPos (some .nil), unknowns)
      else
        let ps ← cs.kwPairs
        let acc := (ps.filter fun e => !p.kwNames.contains e.1).foldl (fun m e => mapInsert m (.sym e.1) e.2) []
        let acc ← hs.foldlM (kwRestAdd p) acc
        pure (f.set p.kwRestPos (some (.hash acc false)), unknowns)
    else pure (f, unknowns)

/-- `handle_keyword` (args.rs l.1155-1190). -/
def handleKeyword (p : Params) (cs : CallSite) (extra : Option Val) (f : Frame) : Except Err Frame := do
  if p.forbidKw then
    if anyKeywordPassed cs then throw .noKeywords
    pure (if p.kwRest then f.set p.kwRestPos (some .nil) else f)
  else
    let (f, u1) ← ordinaryKeyword p cs f
    let (f, u2) ← hashSplatAndKwRest p cs extra f
    checkMissing p f
    if (u1 ++ u2).isEmpty then pure f else throw (.unknown (u1 ++ u2))

/-- `handle_keyword_simple` (args.rs l.1217-1229). -/
def handleKeywordSimple (p : Params) (f : Frame) : Except Err Frame := do
  let f := (List.range p.kwNames.length).foldl (fun f i => Frame.set f (p.kwPos + i) none) f
  let f := if p.kwRest then f.set p.kwRestPos (some .nil) else f
  checkMissing p f
  pure f

/-! ### The generic path -/

/-- `block_arg_to_ary` (args.rs l.585-624).  Of the values modelled only user objects can respond to `to_ary`
without being arrays. -/
def blockArgToAry (W : World) : Val → Except Err (Option (List Val))
  | .obj n => match W.toAry n with
    | .missing => .ok none
    | .raises => .error .raised
    | .gives (.arr l) => .ok (some l)
    | .gives .nil => .ok none
    | .gives _ => .error .typeErr
  | _ => .ok none

/-- `check_single_arg_expand` (args.rs l.626-651), on the argument list. -/
def checkSingleArgExpand (splat : List Nat) (args : List Val) (ex : Option Val) : Option (List Val) :=
  match args, ex with
  | [v], none =>
    match splat, v with
    | [], .arr l => some l
    | [0], .arr [.arr l] => some l
    | _, _ => none
  | [], some (.arr l) => some l
  | _, _ => none

/-- A hash in flight as keywords (args.rs l.817-819). -/
def r2kHash : Val → Option (List (Key × Val))
  | .hash m true => some m
  | _ => none

/-- Expanding the splats (args.rs l.869-885): an array is spread, `nil` vanishes, any other value stays. -/
def expandArg (splat : List Nat) (i : Nat) (v : Val) : List Val :=
  if splat.contains i then
    match v with
    | .arr l => l
    | .nil => []
    | v => [v]
  else [v]

/-- The positional arguments after splat expansion. -/
def expandArgs (cs : CallSite) : List Val := (cs.args.zipIdx.map fun e => expandArg cs.splat e.2 e.1).flatten

/-- What becomes of a flagged hash at the end of a splat expansion (args.rs l.848-862, l.892-903): the positional
arguments, and the keywords it turns into. -/
def r2kSplit (p : Params) (l : List Val) : List Val × Option Val :=
  match l.getLast? with
  | some last => match r2kHash last with
    | some m =>
      if !p.noKeyword then (l.dropLast, some last)
      else if p.r2k then (l, none)
      else (l.dropLast ++ [.hash m false], none)
    | none => (l, none)
  | none => (l, none)

/-- The coercion of a single non-array argument of a multi-parameter block (args.rs l.795-804, l.1119-1123). -/
def toAryStep (W : World) (p : Params) (args : List Val) (splat : List Nat) (ex : Option Val) :
    Except Err (Option (List Val)) :=
  if p.singleArgExpand && ex.isNone && splat.isEmpty then
    match args with
    | [.arr _] => .ok none
    | [v] => blockArgToAry W v
    | _ => .ok none
  else .ok none

/-- The expansion of a single array argument, where it applies (args.rs l.835-839, l.931-935, l.1137-1141). -/
def expandStep (p : Params) (args : List Val) (splat : List Nat) (ex : Option Val) : Option (List Val) :=
  if p.singleArgExpand then checkSingleArgExpand splat args ex else none

/-- The positional half of `set_callee_frame_arguments` after the head fast path (args.rs l.792-906): the frame and
the promoted keyword hash. -/
def genericPositional (W : World) (p : Params) (cs : CallSite) (ex : Option Val) (f : Frame) :
    Except Err (Frame × Option Val) := do
  let coerced ← toAryStep W p cs.args cs.splat ex
  match coerced with
  | some l => do
    let f ← fillSlice p f l
    pure (f, none)
  | none =>
    match expandStep p cs.args cs.splat ex with
    | some l => do
      let f ← fillSlice p f l
      pure (f, none)
    | none =>
      if cs.splat.isEmpty && ex.isNone then do
        let f ← fillSlots p f cs.args
        pure (f, none)
      else
        -- the branches of args.rs l.842-863 and l.863-906 differ only in building the buffer in one step when the
        -- sole argument is a splatted array
        let buf := expandArgs cs ++ ex.toList
        let (buf, r2k) := if !cs.kwMayExist && !cs.splat.isEmpty then r2kSplit p buf else (buf, none)
        do
          let f ← fillSlice p f buf
          pure (f, r2k)

/-- The guard of the head fast path (args.rs l.725-731). -/
def headFast (p : Params) (cs : CallSite) : Bool :=
  !cs.hasSplat && !cs.kwMayExist && p.noKeyword && !p.forbidKw && !p.singleArgExpand && !p.r2k

/-- The part of `set_callee_frame_arguments` after the head fast path (args.rs l.738-915). -/
def genericTail (W : World) (p : Params) (cs : CallSite) (f : Frame) : Except Err Frame := do
  let cs ← coerceSite W cs
  if p.forbidKw && anyKeywordPassed cs then throw .noKeywords
  let ex ← excess p cs
  let (f, r2k) ← genericPositional W p cs ex f
  if !p.noKeyword || !cs.kwMayExist then handleKeyword p cs r2k f else pure f

/-- `set_callee_frame_arguments` (args.rs l.704-915). -/
def setCallee (W : World) (p : Params) (cs : CallSite) (f : Frame) : Except Err Frame :=
  if headFast p cs then fillSlots p f cs.args else genericTail W p cs f

/-! ### Forwarding (`...`, and `super` without arguments) -/

/-- `forwarded_fast_path_ok` (args.rs l.333-335). -/
def forwardOk (p : Params) (cs : CallSite) : Bool := p.noKeyword || (p.kwNames.isEmpty && cs.kwMayExist)

/-- `store_empty_kw_rest` (args.rs l.352-356). -/
def storeEmptyKwRest (p : Params) (f : Frame) : Frame := if p.kwRest then f.set p.kwRestPos (some .nil) else f

/-- What sits in the splat register of a forwarding call: a value, or the marker of a lazy trampoline, which stands
for the argument registers of the frame below it (args.rs l.379-406). -/
inductive Operand where
  | val (v : Val)
  | marker (orig : List Val)

/-- The array the marker stands for (`materialize_lazy_at_callsite`, args.rs l.416-449). -/
def Operand.materialize : Operand → Val
  | .val v => v
  | .marker orig => .arr orig

/-- What the splat register contributes to the buffer (args.rs l.527-558, `lazy_forward_fill` l.285-313). -/
def Operand.elems : Operand → List Val
  | .val (.arr l) => l
  | .val .nil => []
  | .val v => [v]
  | .marker orig => orig

/-- The call site with the operand in its splat register. -/
def CallSite.withOperand (cs : CallSite) (sp : Nat) (op : Operand) : CallSite :=
  { cs with args := cs.args.set sp op.materialize }

/-- `forwarded_set_arguments_core` (args.rs l.493-572) for a site whose only splat is at `sp`.  The `to_hash`
conversion is not reached on the direct path: it requires every `**` operand to be `nil` or a hash. -/
def forwardedCore (W : World) (p : Params) (cs : CallSite) (sp : Nat) (op : Operand) (f : Frame) :
    Except Err Frame :=
  if kwEmpty cs && forwardOk p cs && !p.singleArgExpand then do
    let buf := cs.args.take sp ++ op.elems ++ cs.args.drop (sp + 1)
    let f ← fillSlice p f buf
    pure (storeEmptyKwRest p f)
  else setCallee W p (cs.withOperand sp op) f

/-- `set_frame_arguments` (args.rs l.8-63) for a callee that is not a lazy trampoline.  `op` is what the splat
register of a forwarding site holds. -/
def setFrame (W : World) (p : Params) (cs : CallSite) (op : Option Operand) (f : Frame) : Except Err Frame :=
  match cs.forwarding, cs.splat, op with
  | true, [sp], some op =>
    if decide (sp < cs.args.length) && forwardOk p cs then forwardedCore W p cs sp op f
    else setCallee W p (cs.withOperand sp op) f
  | _, _, _ => setCallee W p cs f

/-- The parameters of `def f(...)` (globals/store.rs l.1654-1663). -/
def trampoline : Params := { rest := .explicit, kwRest := true }

/-- What the frame of `def f(...)` holds for its forwarding call: the operand and the `**` operand. -/
structure Forwarded where
  op : Operand
  kw : Val

/-- What the registers of a materialised `def f(...)` frame hold. -/
def readForwarded (f : Frame) : Except Err Forwarded :=
  match f 0, f 1 with
  | some v, some kw => .ok { op := .val v, kw := kw }
  | _, _ => .error .ub

/-- Entering a `def f(...)` eagerly: the rest array and the keyword hash are built (args.rs l.62). -/
def enterEager (W : World) (cs : CallSite) (f : Frame) : Except Err Forwarded := do
  let f ← setCallee W trampoline cs f
  readForwarded f

/-- Whether entering a lazy trampoline stores the marker (args.rs l.25). -/
def lazyEntry (cs : CallSite) : Bool := cs.splat.isEmpty && cs.kw.isEmpty && cs.hs.isEmpty

/-- Entering a lazy trampoline (args.rs l.23-34). -/
def enterLazy (W : World) (cs : CallSite) (f : Frame) : Except Err Forwarded :=
  if lazyEntry cs then .ok { op := .marker cs.args, kw := .nil } else enterEager W cs f

/-- The call site of `g(lead.., ...)` inside `def f(...)` (bytecodegen/method_call/arguments.rs l.86-160): the
leading arguments, the rest register splatted, the keyword rest as a `**` operand. -/
def forwardSite (lead : List Val) (fw : Forwarded) : CallSite :=
  { args := lead ++ [fw.op.materialize], splat := [lead.length], hs := [fw.kw], forwarding := true }

/-- `g(lead.., ...)`. -/
def forwardCall (W : World) (p : Params) (lead : List Val) (fw : Forwarded) (f : Frame) : Except Err Frame :=
  setFrame W p (forwardSite lead fw) (some fw.op) f

/-- A chain of methods `def fᵢ(...) = fᵢ₊₁(leadᵢ.., ...)`: each forwarding call enters the next one (args.rs l.35-62; a
forwarding site never stores a marker, its splat list is not empty). -/
def forwardThrough (W : World) (f : Frame) : List (List Val) → Forwarded → Except Err Forwarded
  | [], fw => .ok fw
  | lead :: leads, fw => do
    let g ← forwardCall W trampoline lead fw f
    let fw ← readForwarded g
    forwardThrough W f leads fw

/-- The parameters of `ruby2_keywords def m(*args)` (builtins/module.rs l.2895, function.rs l.1305). -/
def r2kMethod : Params := { rest := .explicit, r2k := true }

/-- The call site `g(lead.., *v)`. -/
def splatSite (lead : List Val) (v : Val) : CallSite := { args := lead ++ [v], splat := [lead.length] }

/-- Entering `ruby2_keywords def m(*args)`: the array its parameter holds. -/
def enterR2k (W : World) (cs : CallSite) (f : Frame) : Except Err Val := do
  let g ← setCallee W r2kMethod cs f
  match g 0 with
  | some v => .ok v
  | none => .error .ub

/-- A chain of methods `ruby2_keywords def mᵢ(*args) = mᵢ₊₁(leadᵢ.., *args)`. -/
def r2kThrough (W : World) (f : Frame) : List (List Val) → Val → Except Err Val
  | [], v => .ok v
  | lead :: leads, v => do
    let v ← enterR2k W (splatSite lead v) f
    r2kThrough W f leads v

/-! ### Calls from native code -/

/-- `positional_invoker` (args.rs l.920-954).  `src` gives the arguments in either direction; reversing the slots in
place before copying them (l.941-946) is modelled by the list in argument order. -/
def positionalInvoker (p : Params) (f : Frame) (args : List Val) (up : Bool) (ex : Option Val) : Except Err Frame :=
  match expandStep p args [] ex with
  | some l => fillSlice p f l
  | none => match ex with
    | some ex => fillSlice p f (args ++ [ex])
    | none => if up then fillSlice p f args else fillSlots p f args

/-- The loop over the callee's keywords of `invoker_arguments_inner` (args.rs l.1527-1535), which takes the names
out of the hash passed in. -/
def invokerKeywords (p : Params) (m : List (Key × Val)) (f : Frame) : Frame × List (Key × Val) :=
  p.kwNames.zipIdx.foldl (fun (f, m) e =>
    (Frame.set f (p.kwPos + e.2) (mapGet m (.sym e.1)), mapRemove m (.sym e.1))) (f, m)

/-- `invoker_arguments_inner` (args.rs l.1513-1595); no hash passed is the empty hash. -/
def invoker (p : Params) (args : List Val) (up : Bool) (kw : List (Key × Val)) (f : Frame) : Except Err Frame := do
  let (f, m) := invokerKeywords p kw f
  if p.forbidKw && !m.isEmpty then throw .noKeywords
  let (f, ex) ←
    if p.kwRest then
      pure (f.set p.kwRestPos (some (if m.isEmpty then .nil else .hash m false)), none)
    else if m.isEmpty then pure (f, none)
    else if p.kwNames.isEmpty then pure (f, some (.hash m p.r2k))
    else throw (.unknown (m.map (·.1)))
  let f ← positionalInvoker p f args up ex
  checkMissing p f
  pure f

/-- `set_frame_arguments_simple` (args.rs l.65-84) for a call site without keywords, as the callers guarantee
(jitgen/compile/method_call.rs l.1904-1909, builtins/kernel.rs l.4681-4685, globals/store.rs l.2084). -/
def setSimple (W : World) (p : Params) (args : List Val) (f : Frame) : Except Err Frame := do
  let coerced ← toAryStep W p args [] none
  let f ← match coerced with
    | some l => fillSlice p f l
    | none => match expandStep p args [] none with
      | some l => fillSlice p f l
      | none => fillSlots p f args
  if !p.noKeyword then handleKeyword p { args := args } none f else pure f

/-- `is_simple` of the parameters (iseq.rs l.1488-1495); the block parameter is not modelled. -/
def Params.isSimple (p : Params) : Bool :=
  p.opt == 0 && p.post == 0 && !p.isRest && p.kwNames.isEmpty && !p.kwRest

/-- `jit_handle_arguments_no_block_for_yield` (codegen/runtime.rs l.1454-1489). -/
def yieldSimple (W : World) (p : Params) (args : List Val) (f : Frame) : Except Err Frame :=
  if p.isSimple && p.req == args.length then .ok (memcpy f 0 (.slots args) 0 args.length)
  else setSimple W p args f

/-- `set_frame_arguments_send_splat` (args.rs l.86-99): `send(*ary)` with the method name in front. -/
def sendSplat (p : Params) (ary : List Val) (f : Frame) : Except Err Frame :=
  match ary with
  | [] => .error .ub
  | _ :: l => do
    let f ← fillSlice p f l
    if !p.noKeyword then handleKeywordSimple p f else pure f

/-! ### Entering the callee -/

/-- The `CheckKwRest` instruction of the callee's prologue (bytecodegen.rs l.771-782,
codegen/arch/x86_64/vmgen.rs l.1492-1506): a `nil` in the `**rest` slot becomes an empty hash.  The prologue of
`def f(...)` leaves it out. -/
def checkKwRest (p : Params) (g : Frame) : Frame :=
  if p.kwRest then
    match g p.kwRestPos with
    | some .nil => g.set p.kwRestPos (some (.hash [] false))
    | _ => g
  else g

/-- The parameters as the body of the callee first sees them, or `none` when the call raised. -/
def outcome (p : Params) : Except Err Frame → Option Frame
  | .ok g => some (checkKwRest p g)
  | .error _ => none

/-! ### Compiled call sites -/

/-- `Store::is_simple_call` (function.rs l.1601-1622). -/
def isSimpleCall (p : Params) (cs : CallSite) : Bool :=
  !(cs.args.length == 1 && p.singleArgExpand)
  && !((p.noKeyword || p.forbidKw) && cs.kwMayExist)
  && (p.kwNames.zipIdx.all fun e => !(p.kwIsRequired e.2 && !(cs.kw.any fun k => k.1 == e.1)))
  && !cs.hasSplat && !cs.hasHashSplat && p.arityOk cs.args.length

/-- The result of `apply_args`: how many required, optional and post parameters are filled (the ranges all start at
a fixed slot), and how many arguments the rest takes. -/
structure Applied where
  req : Nat
  opt : Nat
  post : Nat
  restLen : Nat

/-- `apply_args` (function.rs l.1458-1497). -/
def applyArgs (p : Params) (n : Nat) : Applied :=
  if n ≤ p.req then { req := n, opt := 0, post := 0, restLen := 0 }
  else if n ≤ p.min then { req := p.req, opt := 0, post := n - p.req, restLen := 0 }
  else if p.max < n then
    { req := p.req, opt := p.opt, post := p.post,
      restLen := if p.blockStyle && !p.isRest then 0 else n - p.max }
  else { req := p.req, opt := n - p.min, post := p.post, restLen := 0 }

/-- Fetching argument register `i` of the caller; a register beyond the arguments would be someone else's. -/
def fetch (args : List Val) (i : Nat) : Except Err Val :=
  match args[i]? with
  | some v => .ok v
  | none => .error .ub

/-- Storing a run of values into consecutive slots. -/
def storeRun (f : Frame) (off : Nat) (vs : List (Option Val)) : Frame :=
  vs.zipIdx.foldl (fun f e => f.set (off + e.2) e.1) f

/-- The inline argument set-up of compiled code, positional half
(jitgen/compile/method_call.rs l.2051, l.2071-2130).  The values are fetched from the caller's registers. -/
def jitPositional (p : Params) (args : List Val) (f : Frame) : Except Err Frame := do
  let a := applyArgs p args.length
  let reqs ← (List.range a.req).mapM fun i => fetch args i
  let f := storeRun f 0 (reqs.map some ++ List.replicate (p.req - a.req) (some .nil))
  let opts ← (List.range a.opt).mapM fun i => fetch args (a.req + i)
  let f := storeRun f p.req (opts.map some ++ List.replicate (p.opt - a.opt) none)
  let f ← if p.isRest then do
      let r ← (List.range a.restLen).mapM fun i => fetch args (a.req + a.opt + i)
      pure (f.set p.reqopt (some (.arr r)))
    else pure f
  let posts ← (List.range a.post).mapM fun i => fetch args (args.length - a.post + i)
  pure (storeRun f p.postPos (posts.map some ++ List.replicate (p.post - a.post) (some .nil)))

/-- The `i`th literal keyword, fetched from the `i`th keyword register (`fetch_kwrest_for_callee`, which asserts that
the offset recorded for the name is its index, jitgen/compile/method_call.rs l.2144-2156). -/
def kwLeft (cs : CallSite) (i : Nat) : Except Err (Key × Val) :=
  match cs.kw[i]? with
  | some (n, j) => if i = j then (match cs.kwVals[i]? with
      | some v => .ok (Key.sym n, v)
      | none => .error .ub) else .error .ub
  | none => .error .ub

/-- The keyword half (jitgen/compile/method_call.rs l.2132-2176).  A keyword register that no parameter uses goes to
the `**rest` hash if there is one (`fetch_kwrest_for_callee`: `nil` when none is left, otherwise a new hash). -/
def jitKeyword (p : Params) (cs : CallSite) (f : Frame) : Except Err Frame := do
  let vs ← p.kwNames.mapM cs.kwGet
  let f := storeRun f p.kwPos vs
  let used := p.kwNames.filterMap fun n => (cs.kw.find? fun e => e.1 == n).map (·.2)
  let left ← ((List.range cs.kw.length).filter fun i => !used.contains i).mapM (kwLeft cs)
  if p.kwRest then
    pure (f.set p.kwRestPos (some (if left.isEmpty then .nil else .hash (mapInsertAll [] left) false)))
  else pure f

/-- `set_arguments` of the compiler on its inline path (jitgen/compile/method_call.rs l.2045-2178). -/
def jitInline (p : Params) (cs : CallSite) (f : Frame) : Except Err Frame := do
  let f ← jitPositional p cs.args f
  jitKeyword p cs f

/-- The argument set-up of a compiled call whose site does not forward: inline when `is_simple_call`, otherwise the
runtime helper `jit_generic_set_arguments` (args.rs l.128-157).  The array-expanding `yield` and the trailing-splat
copy (method_call.rs l.2179-2211, l.2408-2444) are not modelled; they fall back to the helper for every shape they do
not handle. -/
def jitSet (W : World) (p : Params) (cs : CallSite) (f : Frame) : Except Err Frame :=
  if isSimpleCall p cs then jitInline p cs f else setCallee W p cs f

/-- The static layout of a source-routed `...` forward (function.rs l.1352-1369): how many forwarded values go to
required and optional slots, how many optional slots are cleared, where the rest starts among the forwarded values
and how long it is. -/
structure Layout where
  fromSrc : Nat
  noneFill : Nat
  restOff : Nat
  restLen : Nat

def forwardedLayout (p : Params) (lead len : Nat) : Layout :=
  let n := lead + len
  let bound := Nat.min n p.reqopt
  { fromSrc := bound - lead, noneFill := p.reqopt - bound, restOff := bound - lead, restLen := n - bound }

/-- The gate of the source-routed forward (jitgen/compile/method_call.rs l.2212-2240, l.2291-2298), for a callee that
declares no keywords by name. -/
def deferredGate (p : Params) (lead len : Nat) : Bool :=
  p.post == 0 && decide (lead ≤ p.reqopt) && p.kwNames.isEmpty && !p.singleArgExpand
  && (!p.isRest || p.isExplicitRest)
  && decide (p.req ≤ lead + len) && (p.isRest || decide (lead + len ≤ p.reqopt))

/-- Carrying the layout out (`SetArgumentsForwarded` with a deferred source, codegen/arch/*/compile/method_call.rs):
leading arguments, forwarded values, cleared optionals, the rest array, and `nil` for `**rest`. -/
def deferredFill (p : Params) (lead orig : List Val) (f : Frame) : Frame :=
  let y := forwardedLayout p lead.length orig.length
  let f := storeRun f 0 (lead.map some ++ (orig.take y.fromSrc).map some ++ List.replicate y.noneFill none)
  let f := if p.isRest then f.set p.reqopt (some (.arr ((orig.drop y.restOff).take y.restLen))) else f
  storeEmptyKwRest p f

/-! ### `define_method` -/

/-- The parameters of the method entry made by `define_method` from a block: a copy with method style
(function.rs l.665-679, builtins/module.rs l.1726-1728). -/
def Params.asMethod (p : Params) : Params := { p with blockStyle := false }

/-- A call of such a method from the interpreter binds with the entry's parameters (args.rs l.15, l.62). -/
def bmethodInterp (W : World) (p : Params) (cs : CallSite) (f : Frame) : Except Err Frame :=
  setCallee W p.asMethod cs f

/-- A compiled call binds with the block's own parameters (jitgen/compile/method_call.rs l.649-694, l.898). -/
def bmethodJit (W : World) (p : Params) (cs : CallSite) (f : Frame) : Except Err Frame :=
  jitSet W p cs f

end Verif.Args
