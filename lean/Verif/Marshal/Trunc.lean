import Verif.Marshal.Prim

/-! # More data and more fuel change nothing (helper lemmas) -/

namespace Verif.Marshal

/-- The same reader with more data behind it. -/
def RS.more (x : List UInt8) (r : RS) : RS := { r with inp := r.inp ++ x }

/-- `m'` agrees with `m` wherever `m` does not raise, whatever follows the data. -/
def Mono {α : Type} (m m' : M α) : Prop := ∀ (x : List UInt8) (r : RS),
  (∀ a r', m r = .ok (a, r') → m' (r.more x) = .ok (a, r'.more x)) ∧ (m r = .panic → m' (r.more x) = .panic)

theorem Mono.pure {α : Type} (a : α) : Mono (pure a) (pure a) := by
  intro x r
  refine ⟨?_, by intro h; cases h⟩
  intro b r' h
  cases h; rfl

theorem Mono.raise {α : Type} {m : M α} : Mono raise m := by
  intro x r
  exact ⟨(by intro _ _ h; cases h), by intro h; cases h⟩

theorem Mono.panic {α : Type} : Mono (panic (α := α)) panic := by
  intro x r
  exact ⟨(by intro _ _ h; cases h), by intro _; rfl⟩

theorem Mono.bind {α β : Type} {m m' : M α} {f f' : α → M β} (h : Mono m m') (hf : ∀ a, Mono (f a) (f' a)) :
    Mono (m >>= f) (m' >>= f') := by
  intro x r
  show (∀ a r', M.bind m f r = .ok (a, r') → M.bind m' f' (r.more x) = .ok (a, r'.more x)) ∧
    (M.bind m f r = .panic → M.bind m' f' (r.more x) = .panic)
  unfold M.bind
  cases e : m r with
  | ok p =>
    obtain ⟨a, r1⟩ := p
    rw [(h x r).1 a r1 e]
    exact hf a x r1
  | raise => exact ⟨(by intro _ _ h; cases h), by intro h; cases h⟩
  | panic =>
    rw [(h x r).2 e]
    exact ⟨(by intro _ _ h; cases h), by intro _; rfl⟩

theorem Mono.ite {α : Type} {c : Prop} [Decidable c] {m m' n n' : M α} (h : Mono m m') (h' : Mono n n') :
    Mono (if c then m else n) (if c then m' else n') := by
  split
  · exact h
  · exact h'

theorem Mono.readByte : Mono readByte readByte := by
  intro x r
  unfold Marshal.readByte RS.more
  cases h : r.inp with
  | nil => exact ⟨(by intro _ _ h; cases h), by intro h; cases h⟩
  | cons b bs =>
    refine ⟨?_, by intro h; cases h⟩
    intro a r' e
    cases e; rfl

theorem Mono.readBytes (n : Nat) : Mono (readBytes n) (readBytes n) := by
  intro x r
  unfold Marshal.readBytes RS.more
  simp only [List.length_append]
  by_cases h1 : 2 ^ 64 ≤ r.pos + n
  · rw [if_pos h1, if_pos h1]
    exact ⟨(by intro _ _ h; cases h), fun h => h⟩
  · rw [if_neg h1, if_neg h1]
    by_cases h2 : r.inp.length < n
    · rw [if_pos h2]
      exact ⟨(by intro _ _ h; cases h), by intro h; cases h⟩
    · rw [if_neg h2, if_neg (by omega)]
      refine ⟨?_, by intro h; cases h⟩
      intro a r' e
      cases e
      rw [List.take_append_of_le_length (by omega), List.drop_append_of_le_length (by omega)]

theorem Mono.unread (b : UInt8) : Mono (unread b) (unread b) := by
  intro x r
  refine ⟨?_, by intro h; cases h⟩
  intro a r' e
  cases e; rfl

theorem Mono.readFix : Mono readFix readFix := by
  unfold Marshal.readFix
  refine .bind .readByte fun b => ?_
  refine .ite (.pure _) (.ite (.ite (.bind (.readBytes _) fun _ => .pure _) (.pure _)) ?_)
  exact .ite (.bind (.readBytes _) fun _ => .pure _) (.pure _)

theorem Mono.readLen : Mono readLen readLen := .bind .readFix fun _ => .pure _

theorem Mono.withCapacity (n : Nat) : Mono (withCapacity n) (withCapacity n) := by
  unfold Marshal.withCapacity
  exact .ite .panic (.pure _)

theorem Mono.times {α : Type} {m m' : M α} (h : Mono m m') (n : Nat) : Mono (times m n) (times m' n) := by
  induction n with
  | zero => exact .pure _
  | succ n ih => exact .bind h fun _ => .bind ih fun _ => .pure _

theorem Mono.pushSym (s : Sym) : Mono (pushSym s) (pushSym s) := by
  intro x r
  refine ⟨?_, by intro h; cases h⟩
  intro a r' e
  cases e; rfl

theorem Mono.pushObj (v : Val) : Mono (pushObj v) (pushObj v) := by
  intro x r
  refine ⟨?_, by intro h; cases h⟩
  intro a r' e
  cases e; rfl

theorem Mono.alloc (o : Obj) : Mono (alloc o) (alloc o) := by
  intro x r
  refine ⟨?_, by intro h; cases h⟩
  intro a r' e
  cases e; rfl

theorem Mono.modify (a : Nat) (f : Obj → Obj) : Mono (modify a f) (modify a f) := by
  intro x r
  refine ⟨?_, by intro h; cases h⟩
  intro a r' e
  cases e; rfl

/-- A reader that only looks at the tables. -/
theorem Mono.get {α : Type} (f : RS → α) (hf : ∀ x r, f (r.more x) = f r) :
    Mono (fun r => .ok (f r, r)) (fun r => .ok (f r, r)) := by
  intro x r
  refine ⟨?_, by intro h; cases h⟩
  intro a r' e
  cases e
  simp only [hf]

/-- A reader that only changes the tables. -/
theorem Mono.upd (f : RS → RS) (hf : ∀ x r, f (r.more x) = (f r).more x) :
    Mono (fun r => .ok ((), f r)) (fun r => .ok ((), f r)) := by
  intro x r
  refine ⟨?_, by intro h; cases h⟩
  intro a r' e
  cases e
  simp only [hf]

theorem Mono.readNewSym (E : Env) : Mono (readNewSym E) (readNewSym E) :=
  .bind .readLen fun _ => .bind (.readBytes _) fun _ => .bind (.pushSym _) fun _ => .pure _

theorem Mono.getSym : Mono getSym getSym := by
  refine .bind .readLen fun i => ?_
  intro x r
  simp only [RS.more]
  cases r.syms[i]? with
  | none => exact ⟨(by intro _ _ h; cases h), by intro h; cases h⟩
  | some s =>
    refine ⟨?_, by intro h; cases h⟩
    intro a r' e
    cases e; rfl

theorem Mono.getObj : Mono getObj getObj := by
  refine .bind .readLen fun i => ?_
  intro x r
  simp only [RS.more]
  cases r.objs[i]? with
  | none => exact ⟨(by intro _ _ h; cases h), by intro h; cases h⟩
  | some s =>
    refine ⟨?_, by intro h; cases h⟩
    intro a r' e
    cases e; rfl

variable {E : Env} {rv rv' : M Val}

theorem Mono.readSymbol (h : Mono rv rv') : Mono (readSymbol E rv) (readSymbol E rv') := by
  unfold Marshal.readSymbol
  refine .bind .readByte fun t => ?_
  split
  · exact .readNewSym E
  · exact .getSym
  · refine .bind (.unread _) fun _ => .bind h fun v => ?_
    cases v with
    | sym s => exact .pure _
    | _ => exact .raise
  · exact .raise

theorem Mono.mkInt (n : Int) : Mono (mkInt n) (mkInt n) := by
  unfold Marshal.mkInt
  exact .ite (.pure _) (.alloc _)

theorem Mono.mkFloat (b : UInt64) : Mono (mkFloat E b) (mkFloat E b) := by
  unfold Marshal.mkFloat
  exact .ite (.pure _) (.alloc _)

theorem Mono.readBig : Mono readBig readBig :=
  .bind .readByte fun _ => .bind .readLen fun _ => .bind (.readBytes _) fun _ => .bind (.mkInt _) fun _ =>
    .bind (.pushObj _) fun _ => .pure _

theorem Mono.readFloat : Mono (readFloat E) (readFloat E) := by
  refine .bind .readLen fun _ => .bind (.readBytes _) fun bs => ?_
  cases E.num (bs.takeWhile (· ≠ 0)) with
  | none => exact .raise
  | some b => exact .bind (.mkFloat _) fun _ => .bind (.pushObj _) fun _ => .pure _

theorem Mono.readRawStr : Mono readRawStr readRawStr :=
  .bind .readLen fun _ => .bind (.readBytes _) fun _ => .bind (.alloc _) fun _ =>
    .bind (.pushObj _) fun _ => .pure _

theorem Mono.readPairs (h : Mono rv rv') (n : Nat) : Mono (readPairs E rv n) (readPairs E rv' n) :=
  .times (.bind (.readSymbol h) fun _ => .bind h fun _ => .pure _) n

theorem Mono.setIvars (v : Val) (ps : List (Sym × Val)) : Mono (setIvars v ps) (setIvars v ps) := by
  unfold Marshal.setIvars
  refine .ite (.pure _) ?_
  cases v with
  | ref a => exact .modify _ _
  | _ => exact .raise

theorem Mono.encOfVal (v : Val) (e : Enc) : Mono (Marshal.encOfVal E v e) (Marshal.encOfVal E v e) := by
  intro x r
  have : ∀ r, Marshal.encOfVal E v e r ≠ .panic ∧ ∃ e', ∀ y, Marshal.encOfVal E v e (r.more y) = .ok (e', r.more y) := by
    intro r
    unfold Marshal.encOfVal
    split
    · simp only [RS.more]
      split
      · exact ⟨by simp, _, fun _ => rfl⟩
      · exact ⟨by simp, _, fun _ => rfl⟩
    · exact ⟨by simp, _, fun _ => rfl⟩
  obtain ⟨h1, e', h2⟩ := this r
  refine ⟨?_, fun h => absurd h h1⟩
  intro a r' h
  have h3 := h2 []
  have : r.more [] = r := by simp [RS.more]
  rw [this, h] at h3
  cases h3
  exact h2 x

theorem Mono.readEncPair (h : Mono rv rv') (acc : Enc × List (Sym × Val)) :
    Mono (readEncPair E rv acc) (readEncPair E rv' acc) := by
  unfold Marshal.readEncPair
  refine .bind (.readSymbol h) fun s => .ite (.bind .readByte fun b => ?_)
    (.ite (.bind h fun _ => .bind (.encOfVal _ _) fun _ => .pure _) (.bind h fun _ => .pure _))
  exact .ite (.pure _) (.ite (.pure _)
    (.bind (.unread _) fun _ => .bind h fun _ => .bind (.encOfVal _ _) fun _ => .pure _))

theorem Mono.readEncPairs (h : Mono rv rv') (n : Nat) : ∀ acc, Mono (readEncPairs E rv n acc) (readEncPairs E rv' n acc) := by
  induction n with
  | zero => intro acc; exact .pure _
  | succ n ih => intro acc; exact .bind (.readEncPair h _) fun _ => ih _

theorem Mono.readEncIvars (h : Mono rv rv') : Mono (readEncIvars E rv) (readEncIvars E rv') :=
  .bind .readLen fun _ => .readEncPairs h _ _

theorem Mono.readIvarWrapped (h : Mono rv rv') : Mono (readIvarWrapped E rv) (readIvarWrapped E rv') := by
  unfold Marshal.readIvarWrapped
  refine .bind .readByte fun t => ?_
  split
  · exact .bind .readLen fun _ => .bind (.readBytes _) fun _ => .bind (.readEncIvars h) fun _ =>
      .bind (.alloc _) fun _ => .bind (.pushObj _) fun _ => .bind (.setIvars _ _) fun _ => .pure _
  · exact .bind .readLen fun _ => .bind (.readBytes _) fun _ =>
      .bind (.get (fun r => r.syms.length) fun _ _ => rfl) fun i => .bind (.pushSym _) fun _ =>
      .bind (.readEncIvars h) fun _ => .bind (.upd (fun r => { r with syms := r.syms.set i _ }) fun _ _ => rfl)
      fun _ => .pure _
  · exact .raise
  · exact .bind (.unread _) fun _ => .bind h fun _ => .bind .readLen fun _ => .bind (.readPairs h _) fun _ =>
      .bind (.setIvars _ _) fun _ => .pure _

theorem Mono.readArray (h : Mono rv rv') : Mono (readArray rv) (readArray rv') := by
  refine .bind .readLen fun _ => .bind (.withCapacity _) fun _ => .bind (.alloc _) fun v =>
    .bind (.pushObj _) fun _ => .bind (.times h _) fun _ => ?_
  cases v with
  | ref a => exact .bind (.modify _ _) fun _ => .pure _
  | _ => exact .pure _

theorem Mono.readHash (h : Mono rv rv') (d : Bool) : Mono (readHash rv d) (readHash rv' d) := by
  refine .bind .readLen fun _ => .bind (.alloc _) fun v => .bind (.pushObj _) fun _ =>
    .bind (.times (.bind h fun _ => .bind h fun _ => .pure _) _) fun ps => ?_
  cases d with
  | true =>
    refine .bind (.bind h fun _ => .pure _) fun dv => ?_
    cases v with
    | ref a => exact .bind (.upd (fun r => { r with heap := r.heap.modify a _ }) fun _ _ => rfl) fun _ => .pure _
    | _ => exact .pure _
  | false =>
    refine .bind (.pure _) fun dv => ?_
    cases v with
    | ref a => exact .bind (.upd (fun r => { r with heap := r.heap.modify a _ }) fun _ _ => rfl) fun _ => .pure _
    | _ => exact .pure _

theorem Mono.readObject (h : Mono rv rv') : Mono (readObject E rv) (readObject E rv') := by
  unfold Marshal.readObject
  refine .bind (.readSymbol h) fun c => .bind .readLen fun n => .bind (.get (fun r => r.objs.length) fun _ _ => rfl)
    fun i => ?_
  cases E.kind c.bytes with
  | none => exact .raise
  | some k =>
    refine .bind (.alloc _) fun v => .bind (.pushObj _) fun _ => .bind (.withCapacity _) fun _ =>
      .bind (.readPairs h _) fun ps => .ite ?_ (.ite ?_ .raise)
    · exact .bind (.alloc _) fun w => .bind (.upd (fun r => { r with objs := r.objs.set i w }) fun _ _ => rfl)
        fun _ => .pure _
    · cases v with
      | ref a => exact .bind (.modify _ _) fun _ => .pure _
      | _ => exact .pure _

theorem Mono.readStruct (h : Mono rv rv') : Mono (readStruct E rv) (readStruct E rv') := by
  unfold Marshal.readStruct
  refine .bind (.readSymbol h) fun c => .bind .readLen fun n => ?_
  split
  · refine .ite .raise (.bind (.alloc _) fun v => .bind (.pushObj _) fun _ => .bind (.readPairs h _) fun ps =>
      .ite ?_ .raise)
    cases v with
    | ref a => exact .bind (.modify _ _) fun _ => .pure _
    | _ => exact .pure _
  · exact .raise

theorem Mono.readUserClass (h : Mono rv rv') : Mono (readUserClass E rv) (readUserClass E rv') := by
  unfold Marshal.readUserClass
  refine .bind (.readSymbol h) fun c => .bind h fun v => .ite ?_ .raise
  cases v with
  | ref a =>
    refine .bind (.get (fun r => r.heap[a]?) fun _ _ => rfl) fun o => ?_
    split
    · exact .ite (.bind (.modify _ _) fun _ => .pure _) (.bind (.modify _ _) fun _ => .pure _)
    · exact .bind (.modify _ _) fun _ => .pure _
  | cls => exact .raise
  | _ => exact .panic

theorem Mono.readExtended (h : Mono rv rv') : Mono (readExtended E rv) (readExtended E rv') := by
  unfold Marshal.readExtended
  refine .bind (.readSymbol h) fun c => .bind h fun v => ?_
  split
  · exact .bind (.modify _ _) fun _ => .pure _
  · exact .raise

theorem Mono.readRegexp : Mono readRegexp readRegexp :=
  .bind .readLen fun _ => .bind (.readBytes _) fun _ => .bind .readByte fun _ => .alloc _

theorem Mono.readClassRef (m c : Bool) : Mono (readClassRef E m c) (readClassRef E m c) := by
  unfold Marshal.readClassRef
  refine .bind .readLen fun _ => .bind (.readBytes _) fun bs => ?_
  cases E.kind bs with
  | none => exact .raise
  | some k => exact .ite (.bind (.pushObj _) fun _ => .pure _) .raise

theorem Mono.act (h : Mono rv rv') (t : Nat) : Mono (act E rv t) (act E rv' t) := by
  unfold Marshal.act
  split
  · exact .pure _
  · exact .pure _
  · exact .pure _
  · exact .bind .readFix fun _ => .pure _
  · exact .readBig
  · exact .readFloat
  · exact .bind (.readNewSym E) fun _ => .pure _
  · exact .bind .getSym fun _ => .pure _
  · exact .readRawStr
  · exact .readIvarWrapped h
  · exact .readArray h
  · exact .readHash h _
  · exact .readHash h _
  · exact .getObj
  · exact .readObject h
  · exact .readUserClass h
  · exact .readExtended h
  · exact .readRegexp
  · exact .readStruct h
  · exact .readClassRef _ _
  · exact .readClassRef _ _
  · exact .readClassRef _ _
  · exact .raise

theorem Mono.readV : ∀ n m, n ≤ m → Mono (readV E n) (readV E m)
  | 0, _, _ => .raise
  | n + 1, m + 1, h => .bind .readByte fun _ => .act (Mono.readV n m (by omega)) _
  | _ + 1, 0, h => absurd h (by omega)

end Verif.Marshal
