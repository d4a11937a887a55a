/-!
# `begin … rescue … else … ensure … end`: compilation and unwinding

Models, at the pinned commit,

* `monoruby/src/bytecodegen/statement.rs` 411-725 (`gen_begin`), 146-181 (`gen_while`),
* `monoruby/src/bytecodegen.rs` 938-985 (`loop_push`, `gen_loop_pending_ensures`),
  1221-1262 (`gen_all_pending_ensures`, `emit_ret`),
* `monoruby/src/bytecodegen/expression.rs` 609, 680, 838-950, 1175-1190, 1420-1424, 2298-2304
  (`break`, `next`, `retry`, `return`),
* `monoruby/src/bytecodegen/encode.rs` 64-85 (exception table),
* `monoruby/src/globals/store/iseq.rs` 708-724 (`get_exception_dest`),
* `monoruby/src/codegen/jit_module.rs` 101-313 (`handle_error`),
* `monoruby/src/executor.rs` 1576-1634 (`defer_unwind`, `finish_ensure`,
  `discard_deferred_unwind`).

Everything a statement does that is not control flow (calls, assignments, tests of a condition,
`===` of a rescue clause) is a primitive of an arbitrary interpretation `Interp` over an arbitrary
type of states; a primitive may finish, raise, or start an unwinding (a `return` written in a
block, a `throw`).  Not modelled: `$!` (saved and restored by the same code), back traces,
`redo`, `break` out of a block, fatal errors, and the machine code of the JIT.
-/

namespace Verif.Ensure

/-- An unwinding that is not an exception: `MonorubyErrKind::MethodReturn` aimed at this frame,
with its value, or `MonorubyErrKind::Throw` / `MethodReturn` aimed at another frame
(`codegen/jit_module.rs` 131-183). -/
inductive Unw where
  | mret (v : Nat)
  | thr (t : Nat)
deriving DecidableEq, Repr

/-- What a primitive does: finish with a value, raise an exception, or start an unwinding. -/
inductive Res where
  | ok (v : Nat)
  | exc (x : Nat)
  | unw (u : Unw)
deriving DecidableEq, Repr

/-- The primitives.  Values, exceptions, names are numbers; the state is any type. -/
structure Interp (σ : Type) where
  /-- a call, an expression, … -/
  act : Nat → σ → Res × σ
  /-- a condition -/
  cond : Nat → σ → Bool × σ
  /-- `clause === exception`, which may itself raise -/
  test : Nat → Nat → σ → Except Nat Bool × σ
  /-- assignment of the exception to the variable of `rescue => e` -/
  bind : Nat → Nat → σ → σ
  /-- value of a local variable -/
  loc : Nat → σ → Nat

/-- The operand of `return`: an expression whose value is left on the temporary stack
(`emit_ret(None)`), a local variable (`handle_mode(Ret, local)`, `expression.rs` 680), or an
assignment, whose value lies in a temporary that has been popped already (`assign_with_mode`,
`expression.rs` 1184-1188). -/
inductive RetK where
  | val (a : Nat)
  | loc (x : Nat)
  | asg (a : Nat)
deriving DecidableEq, Repr

mutual
/-- Statements.  `beg true b cl e n` is `begin b rescue… else e ensure n end`, `beg false` the same
without `ensure` (the last argument is ignored), `ens b n` is `begin b ensure n end`.  An absent
`else` is `skip`. -/
inductive Stmt where
  | skip
  | act (a : Nat)
  | seq (s t : Stmt)
  | ite (c : Nat) (s t : Stmt)
  | loop (c : Nat) (s : Stmt)
  | brk
  | nxt
  | retry
  | ret (k : RetK)
  | ens (body ensure : Stmt)
  | beg (hasEns : Bool) (body : Stmt) (cl : Clauses) (els ensure : Stmt)

/-- Rescue clauses: the tested class, the variable of `=> e` if any, the body.  A clause with
several classes is one test. -/
inductive Clauses where
  | nil
  | cons (m : Nat) (b : Option Nat) (body : Stmt) (rest : Clauses)
end

/-- Operand of the `Ret` instruction. -/
inductive Src where
  | tmp (r : Nat)
  | loc (x : Nat)
  | nil
deriving DecidableEq, Repr

/-- Instructions (`bytecodegen/inst.rs`).  `act a t` leaves its result in temporary `t` (the slot
where its receiver and arguments were pushed); `brUnless` is the `CondBr` of a condition;
`test m r d` is `RescueTEq` with the `CondBr` to `d` that follows it. -/
inductive Instr where
  | act (a t : Nat)
  | br (d : Nat)
  | brUnless (c d : Nat)
  | test (m r d : Nat)
  | bind (b r : Nat)
  | raise (r : Nat)
  | retry (d : Nat)
  | ret (s : Src)
  | ensureEnd
deriving DecidableEq, Repr

/-- `ExceptionMapEntry` (`globals/store/iseq.rs`): the range `[lo, hi)`, the handler, the ensure
label, the register for the exception.  Every entry that is kept has a handler
(`encode.rs` 73-75). -/
structure Entry where
  lo : Nat
  hi : Nat
  rescue : Nat
  ens : Option Nat
  err : Nat
deriving DecidableEq, Repr

/-- Generated code: instructions, and the entries pushed on the exception table. -/
structure Code where
  ins : List Instr
  tab : List Entry
deriving DecidableEq, Repr

def Code.len (c : Code) : Nat := c.ins.length

def Code.nil : Code := ⟨[], []⟩

/-- Code emitted one after the other. -/
def Code.app (c d : Code) : Code := ⟨c.ins ++ d.ins, c.tab ++ d.tab⟩

/-- A single instruction. -/
def Code.one (i : Instr) : Code := ⟨[i], []⟩

/-- `LoopInfo` (`bytecodegen.rs` 938-950). -/
structure Loop where
  brk : Nat
  nxt : Nat
  depth : Nat
deriving DecidableEq, Repr

/-- A pending `ensure`: the code of its body for the loops, the retry labels, the temporary level
and the address where it is emitted.  The regions open while it is emitted are those outside it
(`self.ensure = ensures[..idx]`, `bytecodegen.rs` 966, 1227), so they are part of the closure;
the loops, the retry labels and the temporary level are those of the place of emission. -/
abbrev Clo := List Loop → List Nat → Nat → Nat → Code

/-- A region without an `ensure` body (`(None, save)`). -/
def blank : Clo := fun _ _ _ _ => Code.nil

/-- State of the generator: `self.ensure` (innermost first), `self.loops`, `self.retry_labels`,
`self.temp`. -/
structure Ctx where
  ens : List Clo
  loops : List Loop
  retry : List Nat
  temp : Nat

/-- `gen_all_pending_ensures` (`bytecodegen.rs` 1221-1250) and the loop of
`gen_loop_pending_ensures` (957-985), over the regions that are left, innermost first. -/
def pend (gs : List Clo) (loops : List Loop) (retry : List Nat) (t pc : Nat) : Code :=
  match gs with
  | [] => Code.nil
  | g :: gs =>
    (g loops retry t pc).app (pend gs loops retry t (pc + (g loops retry t pc).len))

/-- The regions that `break` and `next` leave: those opened after the loop was entered
(`(ensure_depth..ensures.len()).rev()`, `bytecodegen.rs` 960). -/
def leaving (ens : List Clo) (l : Loop) : List Clo := ens.take (ens.length - l.depth)

/-- `break` and `next` (`expression.rs` 838-893): pending ensures, then a jump.  Outside a loop the
source is rejected or is a block; nothing is emitted. -/
def jumpOut (c : Ctx) (pc : Nat) (dest : Loop → Nat) : Code :=
  match c.loops with
  | [] => Code.nil
  | l :: _ =>
    (pend (leaving c.ens l) c.loops c.retry c.temp pc).app (Code.one (.br (dest l)))

/-- `return` (`expression.rs` 2298-2304, `emit_ret`, `bytecodegen.rs` 1252-1262): evaluate the
operand, pending ensures of all regions, `Ret`. -/
def retCode (c : Ctx) (pc : Nat) : RetK → Code
  | .val a =>
    (Code.one (.act a c.temp)).app
      ((pend c.ens c.loops c.retry (c.temp + 1) (pc + 1)).app (Code.one (.ret (.tmp c.temp))))
  | .loc x => (pend c.ens c.loops c.retry c.temp pc).app (Code.one (.ret (.loc x)))
  | .asg a =>
    (Code.one (.act a c.temp)).app
      ((pend c.ens c.loops c.retry c.temp (pc + 1)).app (Code.one (.ret (.tmp c.temp))))

/-- The assignment of `=> e` (`statement.rs` 479-521), from the exception's register. -/
def bindCode (t : Nat) : Option Nat → Code
  | none => Code.nil
  | some v => Code.one (.bind v t)

mutual
/-- `gen_expr` on a statement, at address `pc`.  Labels are resolved to addresses: the length of a
piece of code does not depend on the addresses in it, so a label that lies ahead is computed from
the length of what is in between.  `LoopStart`, `LoopEnd`, and the load that saves `$!` are left
out. -/
def comp (c : Ctx) (pc : Nat) : Stmt → Code
  | .skip => Code.nil
  | .act a => Code.one (.act a c.temp)
  | .seq s t => (comp c pc s).app (comp c (pc + (comp c pc s).len) t)
  | .ite k s t =>
    let n := (comp c 0 s).len
    let m := (comp c 0 t).len
    (Code.one (.brUnless k (pc + 1 + n + 1))).app
      ((comp c (pc + 1) s).app
        ((Code.one (.br (pc + 1 + n + 1 + m))).app (comp c (pc + 1 + n + 1) t)))
  -- gen_while, statement.rs 146-181
  | .loop k s =>
    let n := (comp { c with loops := ⟨0, 0, c.ens.length⟩ :: c.loops } 0 s).len
    (Code.one (.brUnless k (pc + 1 + n + 1))).app
      ((comp { c with loops := ⟨pc + 1 + n + 1, pc, c.ens.length⟩ :: c.loops } (pc + 1) s).app
        (Code.one (.br pc)))
  | .brk => jumpOut c pc Loop.brk
  | .nxt => jumpOut c pc Loop.nxt
  -- expression.rs 928-940: no pending ensure is run
  | .retry =>
    match c.retry with
    | [] => Code.nil
    | d :: _ => Code.one (.retry d)
  | .ret k => retCode c pc k
  -- gen_begin without rescue clauses, statement.rs 658-688 and 697-718
  | .ens body en =>
    let clo : Clo := fun loops retry t p => comp ⟨c.ens, loops, retry, t⟩ p en
    let cb : Ctx := { c with ens := clo :: c.ens }
    let b := (comp cb 0 body).len
    let rescuePos := pc + b + 1
    let cx : Ctx := { c with ens := blank :: c.ens, temp := c.temp + 1 }
    let n := (comp cx 0 en).len
    let ensureL := rescuePos + n + 1
    (comp cb pc body).app
      ((Code.one (.br ensureL)).app
        ((comp cx rescuePos en).app
          ((Code.one (.raise c.temp)).app
            ((⟨[], [⟨pc, pc + b, rescuePos, some ensureL, c.temp⟩]⟩ : Code).app
              ((comp c ensureL en).app (Code.one .ensureEnd))))))
  -- gen_begin with rescue clauses, statement.rs 454-657 and 697-718
  | .beg h body cl els en =>
    let clo : Clo :=
      if h then fun loops retry t p => comp ⟨c.ens, loops, retry, t⟩ p en else blank
    let cb : Ctx := { c with ens := clo :: c.ens }
    let b := (comp cb 0 body).len
    let rescuePos := pc + b + 1
    let cr : Ctx := { cb with retry := pc :: c.retry }
    let q := (compC cr 0 0 cl).len
    let noMatch := rescuePos + q
    let cx : Ctx := { c with ens := blank :: c.ens, temp := c.temp + 1 }
    let n := if h then (comp cx 0 en).len else 0
    let elseL := noMatch + n + 1
    let ensureL := elseL + (comp cb 0 els).len
    (comp cb pc body).app
      ((Code.one (.br elseL)).app
        ((compC cr ensureL rescuePos cl).app
          ((if h then comp cx noMatch en else Code.nil).app
            ((Code.one (.raise c.temp)).app
              ((⟨[], ⟨pc, pc + b, rescuePos, if h then some ensureL else none, c.temp⟩ ::
                  (if h then [⟨rescuePos, noMatch, noMatch, some ensureL, c.temp⟩] else [])⟩
                  : Code).app
                ((comp cb elseL els).app
                  (if h then (comp c ensureL en).app (Code.one .ensureEnd) else Code.nil)))))))

/-- The loop over the rescue clauses (`statement.rs` 473-578).  The exception is in register
`c.temp`; the variable of `=> e` is assigned before the test; `endL` is `ensure_label`. -/
def compC (c : Ctx) (endL pc : Nat) : Clauses → Code
  | .nil => Code.nil
  | .cons m b body rest =>
    let k := (bindCode c.temp b).len
    let n := (comp c 0 body).len
    let contPos := pc + k + 2
    let nextPos := contPos + n + 1
    (bindCode c.temp b).app
      ((Code.one (.test m c.temp contPos)).app
        ((Code.one (.br nextPos)).app
          ((comp c contPos body).app
            ((Code.one (.br endL)).app (compC c endL nextPos rest)))))
end

/-- A method body: the code and a final `Ret` of `nil` (number 0).  Statements are generated for
their effect only (`UseMode2::NotUse`): a method whose value is that of its last statement is
not distinguished from one that ends with `nil`. -/
def compMethod (s : Stmt) : Code :=
  (comp ⟨[], [], [], 0⟩ 0 s).app (Code.one (.ret .nil))

/-! ## The machine -/

/-- How a frame ends: returns a value, raises, or lets a `throw` pass. -/
inductive Fin where
  | ret (v : Nat)
  | exc (x : Nat)
  | thr (t : Nat)
deriving DecidableEq, Repr

/-- A running frame: program counter, temporaries, `Executor::deferred_unwind` (top first; frames
are numbers), and the rest of the state. -/
structure Cfg (σ : Type) where
  pc : Nat
  regs : Nat → Nat
  dfr : List (Nat × Unw)
  st : σ

/-- Running, or ended. -/
abbrev Out2 (σ : Type) := Cfg σ ⊕ (Fin × List (Nat × Unw) × σ)

/-- `get_exception_dest` (`iseq.rs` 708-724): the first entry whose range contains the address. -/
def dest (T : List Entry) (pc : Nat) : Option Entry :=
  T.find? fun e => decide (e.lo ≤ pc) && decide (pc < e.hi)

/-- `defer_unwind` (`executor.rs` 1576-1589). -/
def deferUnw (f : Nat) (u : Unw) (d : List (Nat × Unw)) : List (Nat × Unw) :=
  match d with
  | [] => [(f, u)]
  | (g, w) :: r => if g = f then (f, u) :: r else (f, u) :: (g, w) :: r

/-- `discard_deferred_unwind` (`executor.rs` 1628-1634). -/
def discard (f : Nat) (d : List (Nat × Unw)) : List (Nat × Unw) :=
  match d with
  | [] => []
  | (g, w) :: r => if g = f then r else (g, w) :: r

def setReg (r : Nat → Nat) (i v : Nat) : Nat → Nat := fun j => if j = i then v else r j

/-- `handle_error` for an exception (`jit_module.rs` 254-284, 309-312), given the entry found. -/
def raiseTo {σ} (f : Nat) (h : Option Entry) (x : Nat) (m : Cfg σ) : Out2 σ :=
  match h with
  | some e => .inl { m with pc := e.rescue, regs := setReg m.regs e.err x }
  | none => .inr (.exc x, discard f m.dfr, m.st)

/-- `handle_error` for a `MethodReturn` or a `Throw` (`jit_module.rs` 131-183), given the entry
found. -/
def unwTo {σ} (f : Nat) (h : Option Entry) (u : Unw) (m : Cfg σ) : Out2 σ :=
  match h.bind Entry.ens with
  | some d => .inl { m with pc := d, dfr := deferUnw f u m.dfr }
  | none =>
    match u with
    | .mret v => .inr (.ret v, discard f m.dfr, m.st)
    | .thr t => .inr (.thr t, discard f m.dfr, m.st)

/-- `finish_ensure` (`executor.rs` 1600-1617), with no error in flight (`Raise`, which would leave
one, jumps to `handle_error` at once). -/
def finishEnsure {σ} (f : Nat) (h : Option Entry) (m : Cfg σ) : Out2 σ :=
  match m.dfr with
  | [] => .inl { m with pc := m.pc + 1 }
  | (g, u) :: r =>
    if g = f then unwTo f h u { m with dfr := r } else .inl { m with pc := m.pc + 1 }

def readSrc {σ} (I : Interp σ) (m : Cfg σ) : Src → Nat
  | .tmp r => m.regs r
  | .loc x => I.loc x m.st
  | .nil => 0

/-- One instruction, for the frame `f`. -/
def exec {σ} (I : Interp σ) (f : Nat) (h : Option Entry) (m : Cfg σ) : Instr → Out2 σ
  | .act a t =>
    match I.act a m.st with
    | (.ok v, s) => .inl { m with pc := m.pc + 1, regs := setReg m.regs t v, st := s }
    | (.exc x, s) => raiseTo f h x { m with st := s }
    | (.unw u, s) => unwTo f h u { m with st := s }
  | .br d => .inl { m with pc := d }
  | .brUnless c d =>
    match I.cond c m.st with
    | (true, s) => .inl { m with pc := m.pc + 1, st := s }
    | (false, s) => .inl { m with pc := d, st := s }
  | .test c r d =>
    match I.test c (m.regs r) m.st with
    | (.ok true, s) => .inl { m with pc := d, st := s }
    | (.ok false, s) => .inl { m with pc := m.pc + 1, st := s }
    | (.error x, s) => raiseTo f h x { m with st := s }
  | .bind b r => .inl { m with pc := m.pc + 1, st := I.bind b (m.regs r) m.st }
  | .raise r => raiseTo f h (m.regs r) m
  | .retry d => .inl { m with pc := d }
  | .ret s => .inr (.ret (readSrc I m s), m.dfr, m.st)
  | .ensureEnd => finishEnsure f h m

/-- One step of the frame `f` running `P`; outside the code nothing happens. -/
def step {σ} (I : Interp σ) (f : Nat) (P : Code) (m : Cfg σ) : Out2 σ :=
  match P.ins[m.pc]? with
  | some i => exec I f (dest P.tab m.pc) m i
  | none => .inl m

/-- Any number of steps. -/
inductive Star {σ} (I : Interp σ) (f : Nat) (P : Code) : Out2 σ → Out2 σ → Prop where
  | refl (r) : Star I f P r r
  | step (m r) : Star I f P (step I f P m) r → Star I f P (.inl m) r

/-- The same, as a computation of at most `n` steps. -/
def run {σ} (I : Interp σ) (f : Nat) (P : Code) : Nat → Out2 σ → Out2 σ
  | 0, r => r
  | _ + 1, .inr r => .inr r
  | n + 1, .inl m => run I f P n (step I f P m)

/-- A frame that begins: address 0, temporaries cleared. -/
def start {σ} (d : List (Nat × Unw)) (s : σ) : Out2 σ := .inl ⟨0, fun _ => 0, d, s⟩

end Verif.Ensure
