import Verif.Marshal.Prim

/-! # Reading seven-bit data (helper lemmas) -/

namespace Verif.Marshal

/-- A byte below 128 and not `C`. -/
def OkByte (b : UInt8) : Prop := b.toNat < 128 ∧ b.toNat ≠ 67

/-- What is left is such bytes, and less than 2^62 bytes are read in all. -/
def Seven (r : RS) : Prop := (∀ b ∈ r.inp, OkByte b) ∧ r.pos + r.inp.length < 2 ^ 62

/-- A reader that does not panic on such data, with what it returns. -/
def Safe {α : Type} (Q : α → Prop) (m : M α) : Prop := ∀ r, Seven r →
  m r ≠ .panic ∧ ∀ a r', m r = .ok (a, r') → Seven r' ∧ Q a

/-- The same without what it returns. -/
abbrev Safe0 {α : Type} (m : M α) : Prop := Safe (fun _ => True) m

theorem Safe.weak {α : Type} {Q : α → Prop} {m : M α} (h : Safe Q m) : Safe0 m :=
  fun r hr => ⟨(h r hr).1, fun a r' e => ⟨((h r hr).2 a r' e).1, trivial⟩⟩

theorem Safe.pure' {α : Type} {Q : α → Prop} {a : α} (h : Q a) : Safe Q (pure a) := by
  intro r hr
  refine ⟨(by intro h; cases h), ?_⟩
  intro b r' e
  cases e; exact ⟨hr, h⟩

theorem Safe.pure {α : Type} (a : α) : Safe0 (pure a) := .pure' trivial

theorem Safe.raise {α : Type} {Q : α → Prop} : Safe Q raise := by
  intro r hr
  exact ⟨(by intro h; cases h), (by intro _ _ h; cases h)⟩

theorem Safe.bind' {α β : Type} {P : α → Prop} {Q : β → Prop} {m : M α} {f : α → M β} (h : Safe P m)
    (hf : ∀ a, P a → Safe Q (f a)) : Safe Q (m >>= f) := by
  intro r hr
  show M.bind m f r ≠ .panic ∧ ∀ a r', M.bind m f r = .ok (a, r') → Seven r' ∧ Q a
  unfold M.bind
  obtain ⟨h1, h2⟩ := h r hr
  cases e : m r with
  | ok p =>
    obtain ⟨a, r1⟩ := p
    obtain ⟨q1, q2⟩ := h2 a r1 e
    exact hf a q2 r1 q1
  | raise => exact ⟨(by intro h; cases h), (by intro _ _ h; cases h)⟩
  | panic => exact absurd e h1

theorem Safe.bind {α β : Type} {Q : β → Prop} {m : M α} {f : α → M β} (h : Safe0 m)
    (hf : ∀ a, Safe Q (f a)) : Safe Q (m >>= f) := .bind' h fun a _ => hf a

theorem Safe.ite {α : Type} {Q : α → Prop} {c : Prop} [Decidable c] {m n : M α} (h : Safe Q m) (h' : Safe Q n) :
    Safe Q (if c then m else n) := by
  split
  · exact h
  · exact h'

theorem Safe.readByte : Safe OkByte readByte := by
  intro r hr
  unfold Marshal.readByte
  cases h : r.inp with
  | nil => exact ⟨(by intro h; cases h), (by intro _ _ h; cases h)⟩
  | cons b bs =>
    refine ⟨(by intro h; cases h), ?_⟩
    intro a r' e
    cases e
    obtain ⟨h1, h2⟩ := hr
    rw [h] at h1 h2
    simp only [List.length_cons] at h2
    refine ⟨⟨fun c hc => h1 c (by simp [hc]), ?_⟩, h1 _ (by simp)⟩
    simp only
    omega

/-- Put a byte back right after it is read. -/
theorem Safe.peek {α : Type} {Q : α → Prop} {f : UInt8 → M α} (h : ∀ b, OkByte b →
    (∃ m, f b = (unread b >>= fun _ => m) ∧ Safe Q m) ∨ Safe Q (f b)) : Safe Q (Marshal.readByte >>= f) := by
  intro r hr
  show M.bind _ f r ≠ .panic ∧ ∀ a r', M.bind _ f r = .ok (a, r') → Seven r' ∧ Q a
  unfold M.bind Marshal.readByte
  cases hi : r.inp with
  | nil => exact ⟨(by intro h; cases h), (by intro _ _ h; cases h)⟩
  | cons b bs =>
    have hr' := hr
    obtain ⟨h1, h2⟩ := hr
    rw [hi] at h1 h2
    simp only [List.length_cons] at h2
    have h3 : Seven { r with inp := bs, pos := r.pos + 1 } := by
      refine ⟨fun c hc => h1 c (by simp [hc]), ?_⟩
      simp only
      omega
    simp only
    rcases h b (h1 b (by simp)) with ⟨m, e, hm⟩ | hm
    · rw [e]
      have h4 : ({ r with inp := b :: bs, pos := r.pos + 1 - 1 } : RS) = r := by
        rw [← hi]; rfl
      have : (unread b >>= fun _ => m) { r with inp := bs, pos := r.pos + 1 } = m r := by
        show m { r with inp := b :: bs, pos := r.pos + 1 - 1 } = m r
        rw [h4]
      rw [this]
      exact hm r hr'
    · exact hm _ h3

theorem Safe.readBytes {n : Nat} (hn : n < 2 ^ 63) : Safe (fun bs => bs.length = n ∧ ∀ b ∈ bs, OkByte b) (readBytes n) := by
  intro r hr
  unfold Marshal.readBytes
  obtain ⟨h1, h2⟩ := hr
  rw [if_neg (by omega)]
  split
  · exact ⟨(by intro h; cases h), (by intro _ _ h; cases h)⟩
  · rename_i h3
    refine ⟨(by intro h; cases h), ?_⟩
    intro a r' e
    cases e
    refine ⟨⟨fun b hb => h1 b (List.mem_of_mem_drop hb), ?_⟩, ?_, fun b hb => h1 b (List.mem_of_mem_take hb)⟩
    · simp only [List.length_drop]; omega
    · rw [List.length_take]; omega

theorem leNat_lt {bs : List UInt8} (h : ∀ b ∈ bs, OkByte b) (hl : bs.length ≤ 4) : leNat bs < 2 ^ 31 := by
  match bs, h, hl with
  | [], _, _ => simp [leNat]
  | [a], h, _ =>
    have := (h a (by simp)).1
    simp only [leNat]; omega
  | [a, b], h, _ =>
    have := (h a (by simp)).1
    have := (h b (by simp)).1
    simp only [leNat]; omega
  | [a, b, c], h, _ =>
    have := (h a (by simp)).1
    have := (h b (by simp)).1
    have := (h c (by simp)).1
    simp only [leNat]; omega
  | [a, b, c, d], h, _ =>
    have := (h a (by simp)).1
    have := (h b (by simp)).1
    have := (h c (by simp)).1
    have := (h d (by simp)).1
    simp only [leNat]; omega
  | _ :: _ :: _ :: _ :: _ :: _, _, hl => simp at hl

theorem Safe.readFix : Safe0 readFix := by
  unfold Marshal.readFix
  refine .bind' .readByte fun b hb => ?_
  refine .ite (.pure _) ?_
  simp only [if_pos hb.1]
  split
  · rename_i h
    exact .bind (Safe.readBytes (by omega)).weak fun _ => .pure _
  · exact .pure _

/-- A length read from such data is below 2^31. -/
theorem Safe.readLen : Safe (fun n => n < 2 ^ 31) readLen := by
  unfold Marshal.readLen Marshal.readFix
  refine .bind' (P := fun n => 0 ≤ n ∧ n < 2 ^ 31) (.bind' .readByte fun b hb => ?_) fun n hn => .pure' ?_
  · refine .ite (.pure' (by omega)) ?_
    simp only [if_pos hb.1]
    split
    · rename_i h
      refine .bind' (Safe.readBytes (by omega)) fun bs hbs => .pure' ?_
      have := leNat_lt hbs.2 (by omega)
      unfold asI32
      rw [if_pos (by omega)]
      omega
    · rename_i h
      exact .pure' (by have := hb.1; omega)
  · unfold toUsize
    rw [if_pos hn.1]
    omega

theorem Safe.withCapacity {n : Nat} (h : n < 2 ^ 31) : Safe0 (withCapacity n) := by
  unfold Marshal.withCapacity
  rw [if_neg (by omega)]
  exact .pure _

theorem Safe.times {α : Type} {m : M α} (h : Safe0 m) (n : Nat) : Safe0 (times m n) := by
  induction n with
  | zero => exact .pure _
  | succ n ih => exact .bind h fun _ => .bind ih fun _ => .pure _

/-- A reader that leaves the data alone. -/
theorem Safe.still {α : Type} {m : M α} (h : ∀ r, m r ≠ .panic ∧ ∀ a r', m r = .ok (a, r') →
    r'.inp = r.inp ∧ r'.pos = r.pos) : Safe0 m := by
  intro r hr
  refine ⟨(h r).1, fun a r' e => ⟨?_, trivial⟩⟩
  obtain ⟨h1, h2⟩ := (h r).2 a r' e
  unfold Seven
  rw [h1, h2]; exact hr

theorem Safe.upd {α : Type} (g : RS → α) (f : RS → RS) (h : ∀ r, (f r).inp = r.inp ∧ (f r).pos = r.pos) :
    Safe0 (fun r => .ok (g r, f r)) := by
  refine .still fun r => ⟨(by intro h; cases h), ?_⟩
  intro a r' e
  cases e; exact h r

theorem Safe.pushSym (s : Sym) : Safe0 (pushSym s) := .upd (fun _ => ()) (fun r => { r with syms := _ }) fun _ => ⟨rfl, rfl⟩

theorem Safe.pushObj (v : Val) : Safe0 (pushObj v) := .upd (fun _ => ()) (fun r => { r with objs := _ }) fun _ => ⟨rfl, rfl⟩

theorem Safe.alloc (o : Obj) : Safe0 (alloc o) := .upd (fun r => Val.ref r.heap.length) (fun r => { r with heap := r.heap ++ [o] }) fun _ => ⟨rfl, rfl⟩

theorem Safe.modify (a : Nat) (f : Obj → Obj) : Safe0 (modify a f) := .upd (fun _ => ()) (fun r => { r with heap := _ }) fun _ => ⟨rfl, rfl⟩

theorem Safe.get {α : Type} (f : RS → α) : Safe0 (fun r => .ok (f r, r)) := .upd f id fun _ => ⟨rfl, rfl⟩

theorem Safe.readNewSym (E : Env) : Safe0 (readNewSym E) :=
  .bind' .readLen fun _ h => .bind (Safe.readBytes (by omega)).weak fun _ => .bind (.pushSym _) fun _ => .pure _

theorem Safe.getSym : Safe0 getSym := by
  refine .bind Safe.readLen.weak fun i => .still fun r => ?_
  cases r.syms[i]? with
  | none => exact ⟨(by intro h; cases h), (by intro _ _ h; cases h)⟩
  | some s =>
    refine ⟨(by intro h; cases h), ?_⟩
    intro a r' e
    cases e; exact ⟨rfl, rfl⟩

theorem Safe.getObj : Safe0 getObj := by
  refine .bind Safe.readLen.weak fun i => .still fun r => ?_
  cases r.objs[i]? with
  | none => exact ⟨(by intro h; cases h), (by intro _ _ h; cases h)⟩
  | some s =>
    refine ⟨(by intro h; cases h), ?_⟩
    intro a r' e
    cases e; exact ⟨rfl, rfl⟩

variable {E : Env} {rv : M Val}

theorem Safe.readSymbol (h : Safe0 rv) : Safe0 (readSymbol E rv) := by
  unfold Marshal.readSymbol
  refine .peek fun t _ => ?_
  generalize hk : t.toNat = k
  split
  · exact .inr (.readNewSym E)
  · exact .inr .getSym
  · refine .inl ⟨_, rfl, .bind h fun v => ?_⟩
    cases v with
    | sym s => exact .pure _
    | _ => exact .raise
  · exact .inr .raise

theorem Safe.mkInt (n : Int) : Safe0 (mkInt n) := by
  unfold Marshal.mkInt
  exact .ite (.pure _) (.alloc _)

theorem Safe.mkFloat (b : UInt64) : Safe0 (mkFloat E b) := by
  unfold Marshal.mkFloat
  exact .ite (.pure _) (.alloc _)

theorem Safe.readBig : Safe0 readBig :=
  .bind Safe.readByte.weak fun _ => .bind' .readLen fun _ h => .bind (Safe.readBytes (by omega)).weak fun _ =>
    .bind (.mkInt _) fun _ => .bind (.pushObj _) fun _ => .pure _

theorem Safe.readFloat : Safe0 (readFloat E) := by
  refine .bind' .readLen fun _ h => .bind (Safe.readBytes (by omega)).weak fun bs => ?_
  cases E.num (bs.takeWhile (· ≠ 0)) with
  | none => exact .raise
  | some b => exact .bind (.mkFloat _) fun _ => .bind (.pushObj _) fun _ => .pure _

theorem Safe.readRawStr : Safe0 readRawStr :=
  .bind' .readLen fun _ h => .bind (Safe.readBytes (by omega)).weak fun _ => .bind (.alloc _) fun _ =>
    .bind (.pushObj _) fun _ => .pure _

theorem Safe.readPairs (h : Safe0 rv) (n : Nat) : Safe0 (readPairs E rv n) :=
  .times (.bind (.readSymbol h) fun _ => .bind h fun _ => .pure _) n

theorem Safe.setIvars (v : Val) (ps : List (Sym × Val)) : Safe0 (setIvars v ps) := by
  unfold Marshal.setIvars
  refine .ite (.pure _) ?_
  cases v with
  | ref a => exact .modify _ _
  | _ => exact .raise

theorem Safe.encOfVal (v : Val) (e : Enc) : Safe0 (Marshal.encOfVal E v e) := by
  refine .still fun r => ?_
  unfold Marshal.encOfVal
  split
  · split
    · refine ⟨(by intro h; cases h), ?_⟩
      intro a r' e
      cases e; exact ⟨rfl, rfl⟩
    · refine ⟨(by intro h; cases h), ?_⟩
      intro a r' e
      cases e; exact ⟨rfl, rfl⟩
  · refine ⟨(by intro h; cases h), ?_⟩
    intro a r' e
    cases e; exact ⟨rfl, rfl⟩

theorem Safe.readEncPair (h : Safe0 rv) (acc : Enc × List (Sym × Val)) : Safe0 (readEncPair E rv acc) := by
  unfold Marshal.readEncPair
  refine .bind (.readSymbol h) fun s => .ite (.peek fun b _ => ?_)
    (.ite (.bind h fun _ => .bind (.encOfVal _ _) fun _ => .pure _) (.bind h fun _ => .pure _))
  split
  · exact .inr (.pure _)
  · split
    · exact .inr (.pure _)
    · exact .inl ⟨_, rfl, .bind h fun _ => .bind (.encOfVal _ _) fun _ => .pure _⟩

theorem Safe.readEncPairs (h : Safe0 rv) (n : Nat) : ∀ acc, Safe0 (readEncPairs E rv n acc) := by
  induction n with
  | zero => intro acc; exact .pure _
  | succ n ih => intro acc; exact .bind (.readEncPair h _) fun _ => ih _

theorem Safe.readEncIvars (h : Safe0 rv) : Safe0 (readEncIvars E rv) :=
  .bind Safe.readLen.weak fun _ => .readEncPairs h _ _

theorem Safe.readIvarWrapped (h : Safe0 rv) : Safe0 (readIvarWrapped E rv) := by
  unfold Marshal.readIvarWrapped
  refine .peek fun t _ => ?_
  generalize hk : t.toNat = k
  split
  · exact .inr (.bind' .readLen fun _ hl => .bind (Safe.readBytes (by omega)).weak fun _ => .bind (.readEncIvars h) fun _ =>
      .bind (.alloc _) fun _ => .bind (.pushObj _) fun _ => .bind (.setIvars _ _) fun _ => .pure _)
  · exact .inr (.bind' .readLen fun _ hl => .bind (Safe.readBytes (by omega)).weak fun _ =>
      .bind (.get (fun r => r.syms.length)) fun i => .bind (.pushSym _) fun _ =>
      .bind (.readEncIvars h) fun _ => .bind (.upd (fun _ => ()) (fun r => { r with syms := r.syms.set i _ }) fun _ => ⟨rfl, rfl⟩)
      fun _ => .pure _)
  · exact .inr .raise
  · exact .inl ⟨_, rfl, .bind h fun _ => .bind Safe.readLen.weak fun _ => .bind (.readPairs h _) fun _ =>
      .bind (.setIvars _ _) fun _ => .pure _⟩

theorem Safe.readArray (h : Safe0 rv) : Safe0 (readArray rv) := by
  refine .bind' .readLen fun _ hl => .bind (.withCapacity hl) fun _ => .bind (.alloc _) fun v =>
    .bind (.pushObj _) fun _ => .bind (.times h _) fun _ => ?_
  cases v with
  | ref a => exact .bind (.modify _ _) fun _ => .pure _
  | _ => exact .pure _

theorem Safe.readHash (h : Safe0 rv) (d : Bool) : Safe0 (readHash rv d) := by
  refine .bind Safe.readLen.weak fun _ => .bind (.alloc _) fun v => .bind (.pushObj _) fun _ =>
    .bind (.times (.bind h fun _ => .bind h fun _ => .pure _) _) fun ps => ?_
  cases d with
  | true =>
    refine .bind (.bind h fun _ => .pure _) fun dv => ?_
    cases v with
    | ref a => exact .bind (.upd (fun _ => ()) (fun r => { r with heap := r.heap.modify a _ }) fun _ => ⟨rfl, rfl⟩) fun _ => .pure _
    | _ => exact .pure _
  | false =>
    refine .bind (.pure _) fun dv => ?_
    cases v with
    | ref a => exact .bind (.upd (fun _ => ()) (fun r => { r with heap := r.heap.modify a _ }) fun _ => ⟨rfl, rfl⟩) fun _ => .pure _
    | _ => exact .pure _

theorem Safe.readObject (h : Safe0 rv) : Safe0 (readObject E rv) := by
  unfold Marshal.readObject
  refine .bind (.readSymbol h) fun c => .bind' .readLen fun n hn => .bind (.get (fun r => r.objs.length)) fun i => ?_
  cases E.kind c.bytes with
  | none => exact .raise
  | some k =>
    refine .bind (.alloc _) fun v => .bind (.pushObj _) fun _ => .bind (.withCapacity hn) fun _ =>
      .bind (.readPairs h _) fun ps => .ite ?_ (.ite ?_ .raise)
    · exact .bind (.alloc _) fun w => .bind (.upd (fun _ => ()) (fun r => { r with objs := r.objs.set i w }) fun _ => ⟨rfl, rfl⟩)
        fun _ => .pure _
    · cases v with
      | ref a => exact .bind (.modify _ _) fun _ => .pure _
      | _ => exact .pure _

theorem Safe.readStruct (h : Safe0 rv) : Safe0 (readStruct E rv) := by
  unfold Marshal.readStruct
  refine .bind (.readSymbol h) fun c => .bind Safe.readLen.weak fun n => ?_
  split
  · refine .ite .raise (.bind (.alloc _) fun v => .bind (.pushObj _) fun _ => .bind (.readPairs h _) fun ps =>
      .ite ?_ .raise)
    cases v with
    | ref a => exact .bind (.modify _ _) fun _ => .pure _
    | _ => exact .pure _
  · exact .raise

theorem Safe.readExtended (h : Safe0 rv) : Safe0 (readExtended E rv) := by
  unfold Marshal.readExtended
  refine .bind (.readSymbol h) fun c => .bind h fun v => ?_
  split
  · exact .bind (.modify _ _) fun _ => .pure _
  · exact .raise

theorem Safe.readRegexp : Safe0 readRegexp :=
  .bind' .readLen fun _ h => .bind (Safe.readBytes (by omega)).weak fun _ => .bind Safe.readByte.weak fun _ => .alloc _

theorem Safe.readClassRef (m c : Bool) : Safe0 (readClassRef E m c) := by
  unfold Marshal.readClassRef
  refine .bind' .readLen fun _ h => .bind (Safe.readBytes (by omega)).weak fun bs => ?_
  cases E.kind bs with
  | none => exact .raise
  | some k => exact .ite (.bind (.pushObj _) fun _ => .pure _) .raise

theorem Safe.act (h : Safe0 rv) {t : Nat} (ht : t ≠ 67) : Safe0 (act E rv t) := by
  unfold Marshal.act
  split
  · exact .pure _
  · exact .pure _
  · exact .pure _
  · exact .bind .readFix fun _ => .pure _
  · exact .readBig
  · exact .readFloat
  · exact .bind (.readNewSym E) fun _ => .pure _
  · exact .bind .getSym fun _ => .pure _
  · exact .readRawStr
  · exact .readIvarWrapped h
  · exact .readArray h
  · exact .readHash h _
  · exact .readHash h _
  · exact .getObj
  · exact .readObject h
  · exact absurd rfl ht
  · exact .readExtended h
  · exact .readRegexp
  · exact .readStruct h
  · exact .readClassRef _ _
  · exact .readClassRef _ _
  · exact .readClassRef _ _
  · exact .raise

theorem Safe.readV : ∀ n, Safe0 (readV E n)
  | 0 => .raise
  | n + 1 => .bind' .readByte fun _ hb => .act (Safe.readV n) hb.2

end Verif.Marshal
