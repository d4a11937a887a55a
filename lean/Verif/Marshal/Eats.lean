import Verif.Marshal.Ranges

/-! # A dump is one datum (helper lemmas)

Whatever the tables hold, reading what was written raises or ends where the writing ended. -/

namespace Verif.Marshal

/-- Reading `bs` and what follows raises or takes exactly `bs`. -/
def Eats {α : Type} (Q : α → Prop) (m : M α) (bs : List UInt8) : Prop := ∀ r rest,
  r.inp = bs ++ rest → Sized r → m r ≠ .panic ∧
    ∀ a r', m r = .ok (a, r') → (r'.inp = rest ∧ r'.pos = r.pos + bs.length) ∧ Q a

abbrev Eats0 {α : Type} (m : M α) (bs : List UInt8) : Prop := Eats (fun _ => True) m bs

theorem Eats.weak {α : Type} {Q : α → Prop} {m : M α} {bs : List UInt8} (h : Eats Q m bs) : Eats0 m bs :=
  fun r rest h1 h2 => ⟨(h r rest h1 h2).1, fun a r' h3 => ⟨((h r rest h1 h2).2 a r' h3).1, trivial⟩⟩

theorem Eats.pure' {α : Type} {Q : α → Prop} {a : α} (h : Q a) : Eats Q (pure a) [] := by
  intro r rest h1 h2
  refine ⟨(by intro h; cases h), fun b r' h3 => ?_⟩
  cases h3
  exact ⟨⟨h1, rfl⟩, h⟩

theorem Eats.pure {α : Type} (a : α) : Eats0 (pure a) [] := .pure' trivial

theorem Eats.raise {α : Type} {Q : α → Prop} {bs : List UInt8} : Eats Q raise bs := by
  intro r rest h1 h2
  exact ⟨(by intro h; cases h), (by intro _ _ h; cases h)⟩

theorem Eats.bind' {α β : Type} {P : α → Prop} {Q : β → Prop} {m : M α} {f : α → M β} {b c : List UInt8}
    (h : Eats P m b) (hf : ∀ a, P a → Eats Q (f a) c) : Eats Q (m >>= f) (b ++ c) := by
  intro r rest h1 h2
  rw [List.append_assoc] at h1
  obtain ⟨p1, p2⟩ := h r _ h1 h2
  show M.bind m f r ≠ .panic ∧ ∀ a r', M.bind m f r = .ok (a, r') → _
  unfold M.bind
  cases e : m r with
  | ok p =>
    obtain ⟨x, r1⟩ := p
    obtain ⟨⟨q1, q2⟩, q3⟩ := p2 x r1 e
    have hs : Sized r1 := by
      unfold Sized at h2 ⊢
      rw [h1] at h2
      simp only [List.length_append] at h2
      rw [q1, q2]
      simp only [List.length_append]
      omega
    obtain ⟨q0, q4⟩ := hf x q3 r1 rest q1 hs
    refine ⟨q0, fun a r' h3 => ?_⟩
    obtain ⟨⟨q4, q5⟩, q6⟩ := q4 a r' h3
    refine ⟨⟨q4, ?_⟩, q6⟩
    rw [q5, q2, List.length_append]; omega
  | raise => exact ⟨(by intro h; cases h), (by intro _ _ h; cases h)⟩
  | panic => exact absurd e p1

theorem Eats.bind {α β : Type} {Q : β → Prop} {m : M α} {f : α → M β} {b c : List UInt8}
    (h : Eats0 m b) (hf : ∀ a, Eats Q (f a) c) : Eats Q (m >>= f) (b ++ c) := .bind' h fun a _ => hf a

/-- The last step takes nothing. -/
theorem Eats.fin {α β : Type} {Q : β → Prop} {m : M α} {f : α → M β} {b : List UInt8}
    (h : Eats0 m b) (hf : ∀ a, Eats Q (f a) []) : Eats Q (m >>= f) b := by
  have := Eats.bind h hf
  rwa [List.append_nil] at this

/-- The first step takes nothing. -/
theorem Eats.fst {α β : Type} {Q : β → Prop} {m : M α} {f : α → M β} {b : List UInt8}
    (h : Eats0 m []) (hf : ∀ a, Eats Q (f a) b) : Eats Q (m >>= f) b := Eats.bind h hf

/-- A reader with a known outcome. -/
theorem Eats.of {α : Type} {Q : α → Prop} {m : M α} {bs : List UInt8}
    (h : ∀ r rest, r.inp = bs ++ rest → Sized r → ∃ a r', m r = .ok (a, r') ∧ r'.inp = rest ∧
      r'.pos = r.pos + bs.length ∧ Q a) : Eats Q m bs := by
  intro r rest h1 h2
  obtain ⟨a, r', e, q1, q2, q3⟩ := h r rest h1 h2
  rw [e]
  refine ⟨(by intro h; cases h), fun a r' h3 => ?_⟩
  cases h3
  exact ⟨⟨q1, q2⟩, q3⟩

theorem Eats.byte (b : UInt8) : Eats (· = b) readByte [b] :=
  .of fun _ _ h1 _ => ⟨_, _, readByte_cons h1, rfl, rfl, rfl⟩

theorem toI32_range (k : Nat) : -(2 ^ 31) ≤ toI32 k ∧ toI32 k < 2 ^ 31 := by
  unfold toI32
  simp only
  split <;> omega

theorem Eats.len (k : Nat) : Eats (fun n => k < 2 ^ 31 → n = k) readLen (wLen k) := by
  refine .of fun r rest h1 h2 => ?_
  unfold readLen
  rw [bind_ok (rd_fix h1 (toI32_range k).1 (toI32_range k).2 h2)]
  refine ⟨_, _, rfl, rfl, rfl, fun hk => ?_⟩
  rw [toI32_small hk]
  unfold toUsize
  rw [if_pos (by omega)]
  omega

theorem Eats.fix {k : Int} (h : -(2 ^ 31) ≤ k ∧ k < 2 ^ 31) : Eats0 readFix (wFix k) :=
  .of fun _ _ h1 h2 => ⟨_, _, rd_fix h1 h.1 h.2 h2, rfl, rfl, trivial⟩

theorem Eats.bytes (bs : List UInt8) : Eats (· = bs) (readBytes bs.length) bs :=
  .of fun _ _ h1 h2 => ⟨_, _, rd_bytes h1 h2, rfl, rfl, rfl⟩

/-- A count and as many things. -/
theorem Eats.count {α : Type} {Q : α → Prop} {f : Nat → M α} {k : Nat} {c : List UInt8} (hk : k ≤ c.length)
    (hf : k < 2 ^ 31 → Eats Q (f k) c) : Eats Q (readLen >>= f) (wLen k ++ c) := by
  intro r rest h1 h2
  have hk : k < 2 ^ 31 := by
    unfold Sized at h2
    rw [h1] at h2
    simp only [List.length_append] at h2
    omega
  exact Eats.bind' (Eats.len k) (fun n hn => by rw [hn hk]; exact hf hk) r rest h1 h2

/-- A length and as many bytes. -/
theorem Eats.lenBytes {α : Type} {Q : α → Prop} {f : List UInt8 → M α} {bs c : List UInt8} (hf : Eats Q (f bs) c) :
    Eats Q (readLen >>= fun n => readBytes n >>= f) (wLen bs.length ++ bs ++ c) := by
  rw [List.append_assoc]
  refine .count (by simp) fun _ => ?_
  exact .bind' (.bytes bs) fun x hx => by rw [hx]; exact hf

/-- A reader that leaves the data alone. -/
theorem Eats.still {α : Type} {m : M α} (h : ∀ r, m r ≠ .panic ∧ ∀ a r', m r = .ok (a, r') → r'.inp = r.inp ∧ r'.pos = r.pos) :
    Eats0 m [] := by
  intro r rest h1 _
  refine ⟨(h r).1, fun a r' h3 => ?_⟩
  obtain ⟨q1, q2⟩ := (h r).2 a r' h3
  exact ⟨⟨by rw [q1]; exact h1, q2⟩, trivial⟩

theorem Eats.upd {α : Type} (g : RS → α) (f : RS → RS) (h : ∀ r, (f r).inp = r.inp ∧ (f r).pos = r.pos) :
    Eats0 (fun r => .ok (g r, f r)) [] := .still fun r => ⟨(by intro h; cases h), fun a r' e => by cases e; exact h r⟩

theorem Eats.pushSym (s : Sym) : Eats0 (pushSym s) [] := .upd (fun _ => ()) (fun r => { r with syms := _ }) fun _ => ⟨rfl, rfl⟩
theorem Eats.pushObj (v : Val) : Eats0 (pushObj v) [] := .upd (fun _ => ()) (fun r => { r with objs := _ }) fun _ => ⟨rfl, rfl⟩
theorem Eats.alloc (o : Obj) : Eats0 (alloc o) [] :=
  .upd (fun r => Val.ref r.heap.length) (fun r => { r with heap := r.heap ++ [o] }) fun _ => ⟨rfl, rfl⟩
theorem Eats.modify (a : Nat) (f : Obj → Obj) : Eats0 (modify a f) [] :=
  .upd (fun _ => ()) (fun r => { r with heap := _ }) fun _ => ⟨rfl, rfl⟩
theorem Eats.get {α : Type} (f : RS → α) : Eats0 (fun r => .ok (f r, r)) [] := .upd f id fun _ => ⟨rfl, rfl⟩

/-- The address of a new object. -/
theorem Eats.alloc' (o : Obj) : Eats (fun v => ∃ a, v = .ref a) (Marshal.alloc o) [] :=
  .of fun r _ h1 _ => ⟨_, _, rfl, h1, rfl, r.heap.length, rfl⟩

/-- A new object and what is done with it. -/
theorem Eats.new {β : Type} {Q : β → Prop} {o : Obj} {f : Val → M β} {b : List UInt8}
    (hf : ∀ a, Eats Q (f (.ref a)) b) : Eats Q (Marshal.alloc o >>= f) b :=
  Eats.bind' (b := []) (.alloc' o) fun v hv => by obtain ⟨a, rfl⟩ := hv; exact hf a

theorem Eats.withCapacity {n : Nat} (h : n < 2 ^ 31) : Eats0 (withCapacity n) [] := by
  unfold Marshal.withCapacity
  rw [if_neg (by omega)]
  exact .pure _

variable {E : Env}

theorem Eats.setIvars (v : Val) (ps : List (Sym × Val)) : Eats0 (setIvars v ps) [] := by
  unfold Marshal.setIvars
  split
  · exact .pure _
  · cases v with
    | ref a => exact .modify _ _
    | _ => exact .raise

theorem Eats.encOfVal (v : Val) (e : Enc) : Eats0 (Marshal.encOfVal E v e) [] := by
  refine .still fun r => ?_
  unfold Marshal.encOfVal
  split
  · split
    · exact ⟨(by intro h; cases h), fun a r' h => by cases h; exact ⟨rfl, rfl⟩⟩
    · exact ⟨(by intro h; cases h), fun a r' h => by cases h; exact ⟨rfl, rfl⟩⟩
  · exact ⟨(by intro h; cases h), fun a r' h => by cases h; exact ⟨rfl, rfl⟩⟩

theorem Eats.newSym (bs : List UInt8) : Eats0 (readNewSym E) (wLen bs.length ++ bs) := by
  unfold readNewSym
  have := Eats.lenBytes (Q := fun _ => True) (bs := bs) (c := []) (f := fun bs => do
    let s := intern E bs (if ascii bs then .usAscii else .binary)
    Marshal.pushSym s
    Pure.pure s) (.fst (.pushSym _) fun _ => .pure _)
  rwa [List.append_nil] at this

theorem Eats.getSym (i : Nat) : Eats0 getSym (wLen i) := by
  refine .fin (Eats.len i).weak fun n => .still fun r => ?_
  split
  · exact ⟨(by intro h; cases h), fun a r' h => by cases h; exact ⟨rfl, rfl⟩⟩
  · exact ⟨(by intro h; cases h), (by intro _ _ h; cases h)⟩

theorem Eats.getObj (i : Nat) : Eats0 getObj (wLen i) := by
  refine .fin (Eats.len i).weak fun n => .still fun r => ?_
  split
  · exact ⟨(by intro h; cases h), fun a r' h => by cases h; exact ⟨rfl, rfl⟩⟩
  · exact ⟨(by intro h; cases h), (by intro _ _ h; cases h)⟩

/-- A value: its tag and the rest. -/
theorem Eats.tag {Q : Val → Prop} {t : UInt8} {bs : List UInt8} (h : ∀ F, Eats Q (act E (readV E F) t.toNat) bs) (F : Nat) :
    Eats Q (readV E F) (t :: bs) := by
  cases F with
  | zero => exact .raise
  | succ F =>
    show Eats Q (readTag E (readV E F)) ([t] ++ bs)
    unfold readTag
    exact .bind' (.byte t) fun b hb => by rw [hb]; exact h F

/-- A byte that is put back. -/
theorem Eats.unread {α : Type} {Q : α → Prop} {m : M α} {f : UInt8 → M α} {t : UInt8} {bs : List UInt8}
    (h : Eats Q m (t :: bs)) (hf : f t = (Marshal.unread t >>= fun _ => m)) :
    Eats Q (Marshal.readByte >>= f) (t :: bs) := by
  intro r rest h1 h2
  rw [bind_ok (readByte_cons h1), hf]
  have : (Marshal.unread t >>= fun _ => m) { r with inp := bs ++ rest, pos := r.pos + 1 } = m r := by
    show m { r with inp := t :: (bs ++ rest), pos := r.pos + 1 - 1 } = m r
    have e : r.inp = t :: (bs ++ rest) := h1
    congr 1
    rw [← e]; rfl
  show (Marshal.unread t >>= fun _ => m) { r with inp := bs ++ rest, pos := r.pos + 1 } ≠ .panic ∧
    ∀ a r', (Marshal.unread t >>= fun _ => m) { r with inp := bs ++ rest, pos := r.pos + 1 } = .ok (a, r') → _
  rw [this]
  exact h r rest h1 h2

/-! Writers. -/

/-- Whatever it writes is taken. -/
def EatsW {α : Type} (m : Nat → M α) (wr : Wr) : Prop := ∀ F w bs w', wr w = some (bs, w') → Eats0 (m F) bs

theorem wSymAscii_eats (s : Sym) (syms : List Sym) (F : Nat) :
    Eats0 (readSymbol E (readV E F)) (wSymAscii s syms).1 := by
  unfold wSymAscii readSymbol
  split
  · exact .bind' (b := [59]) (.byte 59) fun b hb => by subst hb; exact .getSym _
  · exact .bind' (b := [58]) (.byte 58) fun b hb => by subst hb; exact .newSym _

/-- The value is an object on the heap. -/
abbrev IsRef (v : Val) : Prop := ∃ a, v = .ref a

theorem rawStr_eats (bs : List UInt8) (F : Nat) : Eats IsRef (readV E F) (34 :: wLen bs.length ++ bs) := by
  refine Eats.tag (fun F => ?_) F
  show Eats IsRef readRawStr _
  unfold readRawStr
  have := Eats.lenBytes (Q := IsRef) (bs := bs) (c := []) (f := fun bs => do
    let v ← alloc { body := .str bs .binary }
    pushObj v
    Pure.pure v) (.new fun a => .fst (.pushObj _) fun _ => .pure' ⟨a, rfl⟩)
  rwa [List.append_nil] at this

/-- Written values start with `T` or `F` only if that is all. -/
def TF (bs : List UInt8) : Prop := ∃ t l, bs = t :: l ∧ (t = 84 ∨ t = 70 → l = [])

/-- A name and a value. -/
theorem entry_eats {sb vb : List UInt8} {F : Nat} (hs : Eats0 (readSymbol E (readV E F)) sb)
    (hv : Eats0 (readV E F) vb) (ht : TF vb) (acc : Enc × List (Sym × Val)) :
    Eats0 (readEncPair E (readV E F) acc) (sb ++ vb) := by
  obtain ⟨t, bs, rfl, ht⟩ := ht
  unfold readEncPair
  refine .bind hs fun s => ?_
  split
  · by_cases h : t = 84 ∨ t = 70
    · rw [ht h]
      refine .bind' (b := [t]) (c := []) (.byte t) fun b hb => ?_
      subst hb
      split
      · exact .pure _
      · split
        · exact .pure _
        · rename_i h1 h2; exact absurd h (by simp [h1, h2])
    · refine .unread (m := do
          let v ← readV E F
          let e ← encOfVal E v acc.1
          pure (e, acc.2)) (.fin hv fun _ => .fst (.encOfVal _ _) fun _ => .pure _) ?_
      rw [if_neg (fun e => h (.inl e)), if_neg (fun e => h (.inr e))]
  · split
    · exact .fin hv fun _ => .fst (.encOfVal _ _) fun _ => .pure _
    · exact .fin hv fun _ => .pure _

theorem tf_eats (t : UInt8) (ht : t = 84 ∨ t = 70) (F : Nat) : Eats0 (readV E F) [t] := by
  refine Eats.tag (fun F => ?_) F
  rcases ht with rfl | rfl
  · exact .pure _
  · exact .pure _

/-- The two halves of an encoding pair. -/
theorem encPair_split (e : Enc) (syms : List Sym) (F : Nat) : ∃ sb vb, (wEncPair e syms).1 = sb ++ vb ∧
    Eats0 (readSymbol E (readV E F)) sb ∧ Eats0 (readV E F) vb ∧ TF vb := by
  unfold wEncPair
  split
  · rename_i name
    exact ⟨(wSymAscii (asciiSym nEncoding) syms).1, 34 :: wLen name.length ++ name, by simp, wSymAscii_eats _ _ F,
      (rawStr_eats name F).weak, 34, _, rfl, fun h => absurd h (by decide)⟩
  · by_cases h : e = .utf8
    · refine ⟨(wSymAscii (asciiSym nE) syms).1, [84], by simp [h], wSymAscii_eats _ _ F, tf_eats _ (by simp) F, 84, [], rfl, by simp⟩
    · refine ⟨(wSymAscii (asciiSym nE) syms).1, [70], by simp [h], wSymAscii_eats _ _ F, tf_eats _ (by simp) F, 70, [], rfl, by simp⟩

theorem encPair_eats (e : Enc) (syms : List Sym) (acc : Enc × List (Sym × Val)) (F : Nat) :
    Eats0 (readEncPair E (readV E F) acc) (wEncPair e syms).1 := by
  obtain ⟨sb, vb, h1, h2, h3, h4⟩ := encPair_split (E := E) e syms F
  rw [h1]
  exact entry_eats h2 h3 h4 acc

theorem sym_eats (s : Sym) (syms : List Sym) (F : Nat) :
    Eats0 (readV E F) (wSym s syms).1 ∧ Eats0 (readSymbol E (readV E F)) (wSym s syms).1 := by
  unfold wSym
  split
  · refine ⟨.tag (fun F => ?_) F, ?_⟩
    · exact .fin (.getSym _) fun _ => .pure _
    · exact .bind' (b := [59]) (.byte 59) fun b hb => by subst hb; exact .getSym _
  · split
    · refine ⟨.tag (fun F => ?_) F, ?_⟩
      · exact .fin (.newSym _) fun _ => .pure _
      · exact .bind' (b := [58]) (.byte 58) fun b hb => by subst hb; exact .newSym _
    · have hv : ∀ F, Eats0 (readV E F) (73 :: 58 :: wLen s.bytes.length ++ s.bytes ++ wLen 1 ++
          (wEncPair s.enc (syms ++ [s])).1) := by
        intro F
        refine .tag (fun F => ?_) F
        show Eats0 (readIvarWrapped E (readV E F)) ([58] ++ _)
        unfold readIvarWrapped
        refine .bind' (.byte 58) fun b hb => ?_
        subst hb
        show Eats0 _ (wLen s.bytes.length ++ s.bytes ++ wLen 1 ++ (wEncPair s.enc (syms ++ [s])).1)
        rw [List.append_assoc]
        refine Eats.lenBytes ?_
        refine .fst (.get (fun r => r.syms.length)) fun i => .fst (.pushSym _) fun _ => ?_
        refine .fin ?_ fun p => .fst (.upd (fun _ => ()) (fun r => { r with syms := r.syms.set i _ })
          fun _ => ⟨rfl, rfl⟩) fun _ => .pure _
        refine .bind' (Eats.len 1) fun n hn => ?_
        rw [hn (by omega)]
        exact .fin (encPair_eats _ _ _ F) fun _ => .pure _
      refine ⟨hv F, ?_⟩
      refine .unread (m := do
        let v ← readV E F
        match v with
        | .sym s => pure s
        | _ => raise) (.fin (hv F) fun v => ?_) rfl
      cases v with
      | sym s => exact .pure _
      | _ => exact .raise

theorem EatsW.sym (s : Sym) : EatsW (fun F => readV E F) (symW s) ∧ EatsW (fun F => readSymbol E (readV E F)) (symW s) := by
  refine ⟨fun F w bs w' h => ?_, fun F w bs w' h => ?_⟩
  · simp only [symW, Option.some.injEq, Prod.mk.injEq] at h
    rw [← h.1]; exact (sym_eats s _ F).1
  · simp only [symW, Option.some.injEq, Prod.mk.injEq] at h
    rw [← h.1]; exact (sym_eats s _ F).2

/-- Written values are not empty and have the property of `TF`. -/
def TFW (wr : Wr) : Prop := ∀ w bs w', wr w = some (bs, w') → TF bs

theorem times_eats {α : Type} {m : M α} {fs : List Wr} (h : ∀ f ∈ fs, ∀ w bs w', f w = some (bs, w') → Eats0 m bs) :
    ∀ w bs w', cat fs w = some (bs, w') → Eats0 (times m fs.length) bs := by
  induction fs with
  | nil =>
    intro w bs w' hw
    obtain ⟨rfl, -⟩ := cat_nil hw
    exact .pure _
  | cons f fs ih =>
    intro w bs w' hw
    obtain ⟨b, w1, c, h1, h2, rfl⟩ := cat_cons hw
    exact .bind (h f (by simp) w b w1 h1) fun a => .fin (ih (fun g hg => h g (by simp [hg])) w1 c w' h2) fun _ => .pure _

/-- A value that is an object, as written. -/
def EatsR (E : Env) (wr : Wr) : Prop := ∀ F w bs w', wr w = some (bs, w') →
  Eats IsRef (readV E F) bs

/-- A value, as written. -/
abbrev EatsV (E : Env) (wr : Wr) : Prop := EatsW (fun F => readV E F) wr

theorem EatsV.lit {bs : List UInt8} (h : ∀ F, Eats0 (readV E F) bs) : EatsV E (lit bs) := by
  intro F w b w' hw
  obtain ⟨rfl, -⟩ := lit_some hw
  exact h F

/-- A value that starts with a tag. -/
theorem EatsV.tag {t : UInt8} {l : List UInt8} {fs : List Wr}
    (h : ∀ F w bs w', cat fs w = some (bs, w') → Eats0 (act E (readV E F) t.toNat) (l ++ bs)) :
    EatsV E (cat (Marshal.lit (t :: l) :: fs)) := by
  intro F w bs w' hw
  obtain ⟨b, w1, c, h1, h2, rfl⟩ := cat_cons hw
  obtain ⟨rfl, rfl⟩ := lit_some h1
  exact Eats.tag (fun F => h F _ _ _ h2) F

/-- The same for an object. -/
theorem EatsR.tag {t : UInt8} {l : List UInt8} {fs : List Wr}
    (h : ∀ F w bs w', cat fs w = some (bs, w') → Eats IsRef (act E (readV E F) t.toNat) (l ++ bs)) :
    EatsR E (cat (Marshal.lit (t :: l) :: fs)) := by
  intro F w bs w' hw
  obtain ⟨b, w1, c, h1, h2, rfl⟩ := cat_cons hw
  obtain ⟨rfl, rfl⟩ := lit_some h1
  exact Eats.tag (fun F => h F _ _ _ h2) F

theorem EatsR.lit {bs : List UInt8} (h : ∀ F, Eats IsRef (readV E F) bs) : EatsR E (lit bs) := by
  intro F w b w' hw
  obtain ⟨rfl, -⟩ := lit_some hw
  exact h F

theorem EatsR.weak {f : Wr} (h : EatsR E f) : EatsV E f := fun F w bs w' hw => (h F w bs w' hw).weak

theorem EatsR.one {f : Wr} (h : EatsR E f) : EatsR E (cat [f]) := fun F w bs w' hw => h F w bs w' (cat_one hw)

theorem EatsV.ext1 {s : Sym} {fs : List Wr} (h : EatsV E (cat fs)) :
    EatsV E (cat (cat [Marshal.lit [101], symW s] :: fs)) := by
  intro F w bs w' hw
  obtain ⟨b, w1, c, h1, h2, rfl⟩ := cat_cons hw
  obtain ⟨d, w2, e, h3, h4, rfl⟩ := cat_cons h1
  obtain ⟨rfl, rfl⟩ := lit_some h3
  have h5 := cat_one h4
  show Eats0 _ (101 :: (e ++ c))
  refine Eats.tag (fun F => ?_) F
  have hs := (EatsW.sym (E := E) s).2 F _ _ _ h5
  have hv := h F _ _ _ h2
  show Eats0 (readExtended E (readV E F)) _
  unfold readExtended
  refine .bind hs fun m => .fin hv fun v => ?_
  split
  · exact .fst (.modify _ _) fun _ => .pure _
  · exact .raise

/-- A class can be given to an object only. -/
theorem EatsR.cls1 {s : Sym} {fs : List Wr} (h : EatsR E (cat fs)) :
    EatsR E (cat (cat [Marshal.lit [67], symW s] :: fs)) := by
  intro F w bs w' hw
  obtain ⟨b, w1, c, h1, h2, rfl⟩ := cat_cons hw
  obtain ⟨d, w2, e, h3, h4, rfl⟩ := cat_cons h1
  obtain ⟨rfl, rfl⟩ := lit_some h3
  have h5 := cat_one h4
  show Eats IsRef _ (67 :: (e ++ c))
  refine Eats.tag (fun F => ?_) F
  have hs := (EatsW.sym (E := E) s).2 F _ _ _ h5
  have hv := h F _ _ _ h2
  show Eats IsRef (readUserClass E (readV E F)) _
  unfold readUserClass
  rw [← List.append_nil c]
  refine .bind hs fun m => .bind' hv fun v hv => ?_
  obtain ⟨a, rfl⟩ := hv
  split
  · refine .fst (.get (fun r => r.heap[a]?)) fun o => ?_
    split
    · split
      · exact .fst (.modify _ _) fun _ => .pure' ⟨a, rfl⟩
      · exact .fst (.modify _ _) fun _ => .pure' ⟨a, rfl⟩
    · exact .fst (.modify _ _) fun _ => .pure' ⟨a, rfl⟩
  · exact .raise

theorem EatsV.exts {fs : List Wr} (h : EatsV E (cat fs)) (l : List Sym) :
    EatsV E (cat (l.map (fun m => cat [Marshal.lit [101], symW m]) ++ fs)) := by
  induction l with
  | nil => exact h
  | cons m l ih => exact EatsV.ext1 ih

theorem EatsV.one {f : Wr} (h : EatsV E f) : EatsV E (cat [f]) := by
  intro F w bs w' hw
  exact h F w bs w' (cat_one hw)

theorem EatsV.heads {core : Wr} (h : EatsR E core) (o : Obj) : EatsV E (cat (wHead o ++ [core])) := by
  unfold wHead
  rw [List.append_assoc]
  refine EatsV.exts ?_ _
  cases o.cls with
  | none => exact h.one.weak
  | some c => exact (EatsR.cls1 h.one).weak

/-- A written name and value, read as an entry of a list of variables or of encodings. -/
def Entry (E : Env) (f : Wr) : Prop := Pos f ∧ ∀ F w bs w', f w = some (bs, w') →
  Eats0 (do let s ← readSymbol E (readV E F); let v ← readV E F; pure (s, v)) bs ∧
  ∀ acc, Eats0 (readEncPair E (readV E F) acc) bs

theorem Entry.enc (e : Enc) : Entry E (encW e) := by
  have key : ∀ w bs w', encW e w = some (bs, w') → bs = (wEncPair e w.syms).1 := by
    intro w bs w' h
    simp only [encW, Option.some.injEq, Prod.mk.injEq] at h
    exact h.1.symm
  refine ⟨fun w bs w' h => ?_, fun F w bs w' h => ?_⟩
  · rw [key w bs w' h]
    obtain ⟨sb, vb, h1, -, -, t, l, h4, -⟩ := encPair_split (E := E) e w.syms 0
    rw [h1, h4]
    simp only [List.length_append, List.length_cons]
    omega
  · rw [key w bs w' h]
    obtain ⟨sb, vb, h1, h2, h3, h4⟩ := encPair_split (E := E) e w.syms F
    rw [h1]
    exact ⟨.bind h2 fun s => .fin h3 fun v => .pure _, entry_eats h2 h3 h4⟩

theorem Entry.pair {s : Sym} {f : Wr} (h : EatsV E f) (ht : TFW f) : Entry E (cat [symW s, f]) := by
  refine ⟨(Pos.sym s).cat (by simp), fun F w bs w' hw => ?_⟩
  obtain ⟨b, w1, c, h1, h2, rfl⟩ := cat_cons hw
  have h3 := cat_one h2
  exact ⟨.bind ((EatsW.sym s).2 F _ _ _ h1) fun s => .fin (h F _ _ _ h3) fun v => .pure _,
    entry_eats ((EatsW.sym s).2 F _ _ _ h1) (h F _ _ _ h3) (ht _ _ _ h3)⟩

theorem Entry.pairs {dv : Val → Wr} {ps : List (Sym × Val)} (h : ∀ v, EatsV E (dv v)) (ht : ∀ v, TFW (dv v)) :
    ∀ e ∈ wPairs dv ps, Entry E e := by
  intro e he
  simp only [wPairs, List.mem_map] at he
  obtain ⟨p, -, rfl⟩ := he
  exact .pair (h _) (ht _)

theorem entries_length {es : List Wr} (h : ∀ e ∈ es, Entry E e) {w : W} {bs : List UInt8} {w' : W}
    (hw : cat es w = some (bs, w')) : es.length ≤ bs.length := by
  have := cat_length (f := id) (l := es) (fun e he => (h e he).1) (w := w) (bs := bs) (w' := w') (by simpa using hw)
  exact this

theorem entries_eats {es : List Wr} (h : ∀ e ∈ es, Entry E e) {F : Nat} {w : W} {bs : List UInt8} {w' : W}
    (hw : cat es w = some (bs, w')) : Eats0 (readPairs E (readV E F) es.length) bs :=
  times_eats (fun f hf w bs w' hw => ((h f hf).2 F w bs w' hw).1) w bs w' hw

theorem encs_eats {es : List Wr} (h : ∀ e ∈ es, Entry E e) {F : Nat} :
    ∀ {w : W} {bs : List UInt8} {w' : W} (acc : Enc × List (Sym × Val)),
    cat es w = some (bs, w') → Eats0 (readEncPairs E (readV E F) es.length acc) bs := by
  induction es with
  | nil =>
    intro w bs w' acc hw
    obtain ⟨rfl, -⟩ := cat_nil hw
    exact .pure _
  | cons e es ih =>
    intro w bs w' acc hw
    obtain ⟨b, w1, c, h1, h2, rfl⟩ := cat_cons hw
    exact .bind (((h e (by simp)).2 F w b w1 h1).2 acc) fun a => ih (fun q hq => h q (by simp [hq])) a h2

/-- A value with entries after it. -/
theorem EatsV.wrap {fs es : List Wr} (h : EatsV E (cat fs)) (hst : Starts (cat fs)) (he : ∀ e ∈ es, Entry E e) :
    EatsV E (cat (Marshal.lit [73] :: (fs ++ Marshal.lit (wLen es.length) :: es))) := by
  refine EatsV.tag fun F w bs w' hw => ?_
  obtain ⟨b, w1, c, h1, h2, rfl⟩ := cat_append hw
  obtain ⟨d, w2, e, h3, h4, rfl⟩ := cat_cons h2
  obtain ⟨rfl, rfl⟩ := lit_some h3
  obtain ⟨t, l, rfl, ht⟩ := hst _ _ _ h1
  show Eats0 (readIvarWrapped E (readV E F)) (t :: l ++ (wLen es.length ++ e))
  have key : Eats0 (readV E F >>= fun v => readLen >>= fun n => readPairs E (readV E F) n >>= fun ps =>
      setIvars v (ps.filter fun p => p.1.bytes ≠ nE ∧ p.1.bytes ≠ nEncoding) >>= fun _ => pure v)
      (t :: l ++ (wLen es.length ++ e)) := by
    refine .bind (h F _ _ _ h1) fun v => .count (entries_length he h4) fun _ => ?_
    exact .fin (entries_eats he h4) fun _ => .fst (.setIvars _ _) fun _ => .pure _
  intro r rest q1 q2
  rw [readIvarWrapped_other (t := t) (l := l ++ (wLen es.length ++ e) ++ rest) (by simpa using q1) ht]
  exact key r rest q1 q2

/-- A String without wrappers, with entries after it. -/
theorem EatsV.strI {s : List UInt8} {es : List Wr} (he : ∀ e ∈ es, Entry E e) :
    EatsV E (cat (Marshal.lit [73] :: Marshal.lit (34 :: wLen s.length ++ s) :: Marshal.lit (wLen es.length) :: es)) := by
  refine EatsV.tag fun F w bs w' hw => ?_
  obtain ⟨b, w1, c, h1, h2, rfl⟩ := cat_cons hw
  obtain ⟨rfl, rfl⟩ := lit_some h1
  obtain ⟨d, w2, e, h3, h4, rfl⟩ := cat_cons h2
  obtain ⟨rfl, rfl⟩ := lit_some h3
  show Eats0 (readIvarWrapped E (readV E F)) ([34] ++ (wLen s.length ++ s ++ (wLen es.length ++ e)))
  unfold readIvarWrapped
  refine .bind' (.byte 34) fun b hb => ?_
  subst hb
  refine Eats.lenBytes ?_
  refine .fin ?_ fun p => .fst (.alloc _) fun _ => .fst (.pushObj _) fun _ => .fst (.setIvars _ _) fun _ => .pure _
  exact .count (entries_length he h4) fun _ => encs_eats he _ h4

theorem Starts.heads {o : Obj} {core : Wr} (h : Starts core ∨ wHead o ≠ []) :
    Starts (Marshal.cat (wHead o ++ [core])) := by
  have h2 : ∀ (t : UInt8) (s : Sym), (t.toNat ≠ 34 ∧ t.toNat ≠ 58 ∧ t.toNat ≠ 117) →
      Starts (Marshal.cat [Marshal.lit [t], symW s]) := fun t s ht => (Starts.lit ht).cat
  unfold wHead at h ⊢
  cases he : o.ext with
  | nil =>
    cases hc : o.cls with
    | none =>
      rw [he, hc] at h
      rcases h with h | h
      · exact Starts.cat h
      · simp at h
    | some c => exact (h2 67 c (by decide)).cat
  | cons m l => exact (h2 101 m (by decide)).cat

theorem cat_flat (fs gs : List Wr) : ∀ w, cat (fs ++ [cat gs]) w = cat (fs ++ gs) w := by
  induction fs with
  | nil =>
    intro w
    simp only [List.nil_append, cat, lit]
    cases cat gs w with
    | none => rfl
    | some p => simp
  | cons f fs ih =>
    intro w
    simp only [List.cons_append, cat]
    cases f w with
    | none => rfl
    | some p => simp only [ih]

theorem EatsW.congr {α : Type} {m : Nat → M α} {f g : Wr} (h : EatsW m f) (he : ∀ w, g w = f w) : EatsW m g := by
  intro F w bs w' hw
  rw [he] at hw
  exact h F w bs w' hw

theorem wPairs_length (dv : Val → Wr) (ps : List (Sym × Val)) : (wPairs dv ps).length = ps.length := by simp [wPairs]

/-- The `I` wrapper. -/
theorem EatsV.wrapI {dv : Val → Wr} {o : Obj} {core : Wr} (h : EatsR E core) (hst : Starts core)
    (hd : ∀ v, EatsV E (dv v)) (ht : ∀ v, TFW (dv v)) : EatsV E (wrapI dv o core) := by
  unfold Marshal.wrapI
  split
  · exact EatsV.heads h o
  · have := EatsV.wrap (EatsV.heads h o) (Starts.heads (.inl hst)) (Entry.pairs (ps := o.ivars) hd ht)
    rw [wPairs_length] at this
    refine this.congr fun w => ?_
    have h2 := cat_flat (Marshal.lit [73] :: wHead o ++ [core]) (Marshal.lit (wLen o.ivars.length) :: wPairs dv o.ivars) w
    simpa [wIvars] using h2

/-- Strings and Regexps, with entries. -/
theorem EatsV.entries {o : Obj} {core : Wr} {es : List Wr} (h : EatsR E core) (he : ∀ e ∈ es, Entry E e)
    (hst : Starts core ∨ ∃ s : List UInt8, core = Marshal.lit (34 :: wLen s.length ++ s)) :
    EatsV E (cat (Marshal.lit [73] :: (wHead o ++ [core]) ++ Marshal.lit (wLen es.length) :: es)) := by
  by_cases hh : Starts core ∨ wHead o ≠ []
  · have := EatsV.wrap (EatsV.heads h o) (Starts.heads hh) he
    simpa using this
  · simp only [not_or, ne_eq, Decidable.not_not] at hh
    rcases hst with hst | ⟨s, rfl⟩
    · exact absurd hst hh.1
    · have := EatsV.strI (s := s) he
      simpa [hh.2] using this

theorem EatsV.str {dv : Val → Wr} {o : Obj} {s : List UInt8} {e : Enc} (hd : ∀ v, EatsV E (dv v)) (ht : ∀ v, TFW (dv v)) :
    EatsV E (wStr dv o s e) := by
  have hc : EatsR E (Marshal.lit (34 :: wLen s.length ++ s)) := EatsR.lit (rawStr_eats s)
  unfold wStr
  simp only
  split
  · unfold Marshal.wrapI
    split
    · exact EatsV.heads hc o
    · have := EatsV.entries (o := o) hc (Entry.pairs (ps := o.ivars) hd ht) (.inr ⟨s, rfl⟩)
      rw [wPairs_length] at this
      refine this.congr fun w => ?_
      have h2 := cat_flat (Marshal.lit [73] :: wHead o ++ [Marshal.lit (34 :: wLen s.length ++ s)])
        (Marshal.lit (wLen o.ivars.length) :: wPairs dv o.ivars) w
      simpa [wIvars] using h2
  · have := EatsV.entries (o := o) (es := encW e :: wPairs dv o.ivars) hc (fun f hf => by
      rcases List.mem_cons.mp hf with rfl | hf
      · exact Entry.enc e
      · exact Entry.pairs hd ht f hf) (.inr ⟨s, rfl⟩)
    rw [List.length_cons, wPairs_length, Nat.add_comm] at this
    simpa using this

theorem EatsV.regexp {dv : Val → Wr} {o : Obj} {s : List UInt8} {opt : UInt8} {e : Enc} (hd : ∀ v, EatsV E (dv v))
    (ht : ∀ v, TFW (dv v)) :
    EatsV E (cat (Marshal.lit [73] :: wHead o ++ [Marshal.lit (47 :: wLen s.length ++ s ++ [opt]),
      Marshal.lit (wLen (1 + o.ivars.length)), encW e] ++ wPairs dv o.ivars)) := by
  have hc : EatsR E (Marshal.lit (47 :: wLen s.length ++ s ++ [opt])) := by
    refine EatsR.lit (Eats.tag fun F => ?_)
    show Eats IsRef readRegexp (wLen s.length ++ s ++ [opt])
    exact Eats.lenBytes (.fin (Eats.byte opt).weak fun _ => .alloc' _)
  have := EatsV.entries (o := o) (es := encW e :: wPairs dv o.ivars) hc (fun f hf => by
    rcases List.mem_cons.mp hf with rfl | hf
    · exact Entry.enc e
    · exact Entry.pairs hd ht f hf) (.inl (Starts.lit (by decide)))
  rw [List.length_cons, wPairs_length, Nat.add_comm] at this
  simpa using this

theorem EatsV.arr {dv : Val → Wr} {vs : List Val} (hd : ∀ v, EatsV E (dv v)) (hp : ∀ v, Pos (dv v)) :
    EatsR E (cat (Marshal.lit (91 :: wLen vs.length) :: vs.map dv)) := by
  refine EatsR.tag fun F w bs w' hw => ?_
  show Eats IsRef (readArray (readV E F)) _
  unfold readArray
  refine .count (cat_length (fun v _ => hp v) hw) fun hk => ?_
  refine .fst (.withCapacity hk) fun _ => .new fun a => .fst (.pushObj _) fun _ => .fin ?_ fun vs => ?_
  · have := times_eats (m := readV E F) (fs := vs.map dv) (fun f hf w bs w' hw => by
      simp only [List.mem_map] at hf
      obtain ⟨v, -, rfl⟩ := hf
      exact hd v F w bs w' hw) w bs w' hw
    rwa [List.length_map] at this
  · exact .fst (.modify _ _) fun _ => .pure' ⟨a, rfl⟩

theorem EatsV.hash {dv : Val → Wr} {ps : List (Val × Val)} {d : Option Val} {i : Bool} (hd : ∀ v, EatsV E (dv v))
    (hp : ∀ v, Pos (dv v)) : EatsR E (wHashCore dv ps d i) := by
  have hpair : ∀ w bs w' F, cat (ps.map fun p => cat [dv p.1, dv p.2]) w = some (bs, w') →
      ps.length ≤ bs.length ∧
      Eats0 (times (do let k ← readV E F; let x ← readV E F; pure (k, x)) ps.length) bs := by
    intro w bs w' F hw
    refine ⟨cat_length (f := fun p : Val × Val => cat [dv p.1, dv p.2]) (fun p _ => (hp p.1).cat (by simp)) hw, ?_⟩
    have := times_eats (m := do let k ← readV E F; let x ← readV E F; pure (k, x))
      (fs := ps.map fun p => cat [dv p.1, dv p.2]) (fun f hf w bs w' hw => by
      simp only [List.mem_map] at hf
      obtain ⟨p, -, rfl⟩ := hf
      obtain ⟨b, w1, c, h1, h2, rfl⟩ := cat_cons hw
      exact .bind (hd p.1 F _ _ _ h1) fun k => .fin (hd p.2 F _ _ _ (cat_one h2)) fun x => .pure _) w bs w' hw
    rwa [List.length_map] at this
  have h0 : EatsR E (wHashCore dv ps d false) := by
    unfold wHashCore
    cases d with
    | none =>
      simp only [Bool.false_eq_true, if_false, List.nil_append, List.append_nil, List.cons_append]
      refine EatsR.tag (t := 123) fun F w bs w' hw => ?_
      obtain ⟨h1, h2⟩ := hpair w bs w' F hw
      show Eats IsRef (readHash (readV E F) false) _
      unfold readHash
      refine .count h1 fun _ => .new fun a => .fst (.pushObj _) fun _ => .fin h2 fun ps => .fst (.pure _) fun dv => ?_
      exact .fst (.upd (fun _ => ()) (fun r => { r with heap := r.heap.modify a _ }) fun _ => ⟨rfl, rfl⟩) fun _ => .pure' ⟨a, rfl⟩
    | some x =>
      simp only [Bool.false_eq_true, if_false, List.nil_append, List.cons_append]
      refine EatsR.tag (t := 125) fun F w bs w' hw => ?_
      obtain ⟨b, w1, c, h3, h4, rfl⟩ := cat_append hw
      obtain ⟨h1, h2⟩ := hpair w b w1 F h3
      show Eats IsRef (readHash (readV E F) true) _
      unfold readHash
      refine .count (by simp only [List.length_append]; omega) fun _ => .new fun a => .fst (.pushObj _) fun _ =>
        .bind h2 fun ps => .fin (.fin (hd x F _ _ _ (cat_one h4)) fun _ => .pure _) fun dv => ?_
      exact .fst (.upd (fun _ => ()) (fun r => { r with heap := r.heap.modify a _ }) fun _ => ⟨rfl, rfl⟩) fun _ => .pure' ⟨a, rfl⟩
  cases i with
  | false => exact h0
  | true =>
    have := EatsR.cls1 (s := asciiSym nHash) h0.one
    intro F w bs w' hw
    rw [hashCore_byId] at hw
    exact this F w bs w' hw

theorem EatsV.obj {dv : Val → Wr} {c : Sym} {es : List Wr} (he : ∀ e ∈ es, Entry E e) :
    EatsV E (cat (Marshal.lit [111] :: symW c :: Marshal.lit (wLen es.length) :: es)) := by
  refine EatsV.tag fun F w bs w' hw => ?_
  obtain ⟨b, w1, d, h1, h2, rfl⟩ := cat_cons hw
  obtain ⟨b2, w2, e, h3, h4, rfl⟩ := cat_cons h2
  obtain ⟨rfl, rfl⟩ := lit_some h3
  show Eats0 (readObject E (readV E F)) (b ++ (wLen es.length ++ e))
  unfold readObject
  refine .bind ((EatsW.sym c).2 F _ _ _ h1) fun c => .count (entries_length he h4) fun hk => ?_
  refine .fst (.get (fun r => r.objs.length)) fun i => ?_
  cases E.kind c.bytes with
  | none => exact .raise
  | some k =>
    refine .fst (.alloc _) fun v => .fst (.pushObj _) fun _ => .fst (.withCapacity hk) fun _ =>
      .fin (entries_eats he h4) fun ps => ?_
    split
    · exact .fst (.alloc _) fun w => .fst (.upd (fun _ => ()) (fun r => { r with objs := r.objs.set i w }) fun _ => ⟨rfl, rfl⟩)
        fun _ => .pure _
    · split
      · cases v with
        | ref a => exact .fst (.modify _ _) fun _ => .pure _
        | _ => exact .pure _
      · exact .raise

theorem EatsV.struct {c : Sym} {es : List Wr} (he : ∀ e ∈ es, Entry E e) :
    EatsV E (cat (Marshal.lit [83] :: symW c :: Marshal.lit (wLen es.length) :: es)) := by
  refine EatsV.tag fun F w bs w' hw => ?_
  obtain ⟨b, w1, d, h1, h2, rfl⟩ := cat_cons hw
  obtain ⟨b2, w2, e, h3, h4, rfl⟩ := cat_cons h2
  obtain ⟨rfl, rfl⟩ := lit_some h3
  show Eats0 (readStruct E (readV E F)) (b ++ (wLen es.length ++ e))
  unfold readStruct
  refine .bind ((EatsW.sym c).2 F _ _ _ h1) fun c => .count (entries_length he h4) fun hk => ?_
  split
  · split
    · exact .raise
    · refine .fst (.alloc _) fun v => .fst (.pushObj _) fun _ => .fin (entries_eats he h4) fun ps => ?_
      split
      · cases v with
        | ref a => exact .fst (.modify _ _) fun _ => .pure _
        | _ => exact .pure _
      · exact .raise
  · exact .raise

end Verif.Marshal
