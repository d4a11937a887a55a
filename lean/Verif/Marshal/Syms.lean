import Verif.Marshal.Prim

/-! # Reading back symbols (helper lemmas) -/

namespace Verif.Marshal

/-- After reading `bs`, with `rest` left and a new table of symbols. -/
def adv (r : RS) (bs rest : List UInt8) (syms : List Sym) : RS :=
  { r with inp := rest, pos := r.pos + bs.length, syms := syms }

@[simp] theorem adv_inp (r : RS) (a b : List UInt8) (s : List Sym) : (adv r a b s).inp = b := rfl
@[simp] theorem adv_syms (r : RS) (a b : List UInt8) (s : List Sym) : (adv r a b s).syms = s := rfl
@[simp] theorem adv_pos (r : RS) (a b : List UInt8) (s : List Sym) :
    (adv r a b s).pos = r.pos + a.length := rfl
@[simp] theorem adv_objs (r : RS) (a b : List UInt8) (s : List Sym) : (adv r a b s).objs = r.objs := rfl
@[simp] theorem adv_heap (r : RS) (a b : List UInt8) (s : List Sym) : (adv r a b s).heap = r.heap := rfl

theorem adv_adv (r : RS) (a b c d : List UInt8) (s t : List Sym) :
    adv (adv r a b s) c d t = adv r (a ++ c) d t := by
  simp [adv, Nat.add_assoc]

/-- The data is short enough for its lengths. -/
def Sized (r : RS) : Prop := r.pos + r.inp.length < 2 ^ 31

theorem Sized.adv {r : RS} (h : Sized r) {bs rest : List UInt8} (hin : r.inp = bs ++ rest)
    (s : List Sym) : Sized (adv r bs rest s) := by
  unfold Sized at *
  rw [hin] at h
  simp only [List.length_append] at h
  simp only [adv_pos, adv_inp]
  omega

theorem Sized.adv1 {r : RS} (h : Sized r) {b : UInt8} {rest : List UInt8} (hin : r.inp = b :: rest)
    (s : List Sym) : Sized (Marshal.adv r [b] rest s) := Sized.adv (bs := [b]) h hin s

theorem Sized.len {r : RS} (h : Sized r) {bs rest : List UInt8} (hin : r.inp = bs ++ rest) :
    r.pos + bs.length < 2 ^ 31 := by
  unfold Sized at h
  rw [hin] at h
  simp only [List.length_append] at h
  omega

theorem rd_byte {r : RS} {b : UInt8} {rest : List UInt8} (h : r.inp = b :: rest) :
    readByte r = .ok (b, adv r [b] rest r.syms) := by
  rw [readByte_cons h]; rfl

theorem rd_fix {r : RS} {n : Int} {rest : List UInt8} (h : r.inp = wFix n ++ rest)
    (h1 : -(2 ^ 31) ≤ n) (h2 : n < 2 ^ 31) (hB : Sized r) :
    readFix r = .ok (n, adv r (wFix n) rest r.syms) :=
  readFix_wFix h h1 h2 (by unfold Sized at hB; omega)

theorem rd_len {r : RS} {k : Nat} {rest : List UInt8} (h : r.inp = wLen k ++ rest)
    (hk : k < 2 ^ 31) (hB : Sized r) : readLen r = .ok (k, adv r (wLen k) rest r.syms) :=
  readLen_wLen h hk (by unfold Sized at hB; omega)

theorem rd_bytes {r : RS} {bs rest : List UInt8} (h : r.inp = bs ++ rest) (hB : Sized r) :
    readBytes bs.length r = .ok (bs, adv r bs rest r.syms) :=
  readBytes_append h rfl (by have := hB.len h; omega)

/-- A symbol the interpreter can hold, other than one in a named encoding. -/
def GoodSym (s : Sym) : Prop :=
  if ascii s.bytes then s.enc = .usAscii else s.enc = .binary ∨ s.enc = .utf8

theorem idxOf?_some {α : Type} [DecidableEq α] {l : List α} {a : α} {i : Nat}
    (h : l.idxOf? a = some i) : l[i]? = some a ∧ i < l.length := by
  rw [List.idxOf?, List.findIdx?_eq_some_iff_getElem] at h
  obtain ⟨hi, h1, _⟩ := h
  refine ⟨?_, hi⟩
  rw [List.getElem?_eq_getElem hi]
  simpa using h1

theorem idxOf?_none {α : Type} [DecidableEq α] {l : List α} {a : α}
    (h : l.idxOf? a = none) : a ∉ l := by
  simpa using h

theorem mem_idxOf? {α : Type} [DecidableEq α] {l : List α} {a : α} (h : a ∈ l) :
    ∃ i, l.idxOf? a = some i := by
  cases e : l.idxOf? a with
  | some i => exact ⟨i, rfl⟩
  | none => exact absurd h (idxOf?_none e)

theorem rd_newSym (E : Env) {r : RS} {bs rest : List UInt8}
    (h : r.inp = wLen bs.length ++ (bs ++ rest)) (hB : Sized r) :
    readNewSym E r = .ok (⟨bs, if ascii bs then .usAscii else .binary⟩,
      adv r (wLen bs.length ++ bs) rest (r.syms ++ [⟨bs, if ascii bs then .usAscii else .binary⟩])) := by
  unfold readNewSym
  have hB1 := hB.adv h r.syms
  have hl := hB1.len (rest := rest) rfl
  rw [bind_ok (rd_len h (by omega) hB), bind_ok (rd_bytes (rest := rest) rfl hB1), adv_adv]
  have hi : intern E bs (if ascii bs then .usAscii else .binary) =
      ⟨bs, if ascii bs then .usAscii else .binary⟩ := by
    unfold intern
    by_cases ha : ascii bs = true
    · simp [ha]
    · simp [ha]
  rw [hi]
  rfl

theorem rd_getSym {r : RS} {rest : List UInt8} {i : Nat} {s : Sym} (h : r.inp = wLen i ++ rest)
    (hs : r.syms[i]? = some s) (hi : i < 2 ^ 31) (hB : Sized r) :
    getSym r = .ok (s, adv r (wLen i) rest r.syms) := by
  unfold getSym
  rw [bind_ok (rd_len h hi hB)]
  simp [hs]

/-! What `read_value` and `read_symbol` do with a tag. -/

theorem readV_act (E : Env) (F : Nat) {r : RS} {b : UInt8} {rest : List UInt8} (h : r.inp = b :: rest) :
    readV E (F + 1) r = act E (readV E F) b.toNat (adv r [b] rest r.syms) := by
  show readTag E (readV E F) r = _
  unfold readTag
  rw [bind_ok (rd_byte h)]

/-- The same for `read_symbol`. -/
def actS (E : Env) (rv : M Val) (tag : Nat) : M Sym :=
  match tag with
  | 58 => readNewSym E
  | 59 => getSym
  | 73 => do
    unread 73
    let v ← rv
    match v with
    | .sym s => pure s
    | _ => raise
  | _ => raise

theorem readSymbol_act (E : Env) (rv : M Val) {r : RS} {b : UInt8} {rest : List UInt8}
    (h : r.inp = b :: rest) (hb : b = 58 ∨ b = 59 ∨ b = 73) :
    readSymbol E rv r = actS E rv b.toNat (adv r [b] rest r.syms) := by
  unfold readSymbol
  rw [bind_ok (rd_byte h)]
  rcases hb with hb | hb | hb <;> subst hb <;> rfl

theorem unread_adv {r : RS} {b : UInt8} {rest : List UInt8} (h : r.inp = b :: rest) :
    unread b (adv r [b] rest r.syms) = .ok ((), r) := by
  unfold unread adv
  simp only [List.length_singleton, Nat.add_sub_cancel, ← h]

/-- An ASCII name. -/
theorem rd_symAscii (E : Env) (rv : M Val) {s : Sym} {bs rest : List UInt8} {syms' : List Sym}
    {r : RS} (hw : wSymAscii s r.syms = (bs, syms')) (ha : ascii s.bytes = true) (he : s.enc = .usAscii)
    (hin : r.inp = bs ++ rest) (hs : r.syms.length ≤ r.pos) (hB : Sized r) :
    readSymbol E rv r = .ok (s, adv r bs rest syms') := by
  unfold wSymAscii at hw
  cases hi : r.syms.idxOf? s with
  | some i =>
    rw [hi] at hw
    simp only [Prod.mk.injEq] at hw
    obtain ⟨h1, h2⟩ := hw
    subst h1; subst h2
    obtain ⟨g1, g2⟩ := idxOf?_some hi
    rw [List.cons_append] at hin
    rw [readSymbol_act E rv hin (by simp)]
    show getSym _ = _
    have hB1 := hB.adv1 hin r.syms
    have := hB.len (bs := [59]) hin
    rw [rd_getSym (r := adv r [59] (wLen i ++ rest) r.syms) (i := i) (s := s) (rest := rest) rfl g1
      (by omega) hB1, adv_adv]
    rfl
  | none =>
    rw [hi] at hw
    simp only [Prod.mk.injEq] at hw
    obtain ⟨h1, h2⟩ := hw
    subst h1; subst h2
    simp only [List.cons_append, List.append_assoc] at hin
    rw [readSymbol_act E rv hin (by simp)]
    show readNewSym E _ = _
    have hB1 := hB.adv1 hin r.syms
    rw [rd_newSym E (bs := s.bytes) (rest := rest) rfl hB1, adv_adv, ha]
    obtain ⟨sb, se⟩ := s
    simp only at he ha ⊢
    subst he
    rfl

theorem wSymAscii_eq {s : Sym} (h : ascii s.bytes = true) (syms : List Sym) :
    wSymAscii s syms = wSym s syms := by
  unfold wSymAscii wSym
  cases syms.idxOf? s with
  | some i => rfl
  | none => simp [h]

theorem nE_good : ascii (asciiSym nE).bytes = true ∧ (asciiSym nE).enc = .usAscii := ⟨by decide, rfl⟩

/-- The encoding pair of a UTF-8 or US-ASCII string or symbol. -/
theorem rd_encPair (E : Env) (rv : M Val) {e : Enc} {syms' : List Sym} {bs rest : List UInt8}
    {r : RS} (hw : wEncPair e r.syms = (bs, syms')) (he : e = .utf8 ∨ e = .usAscii)
    (hin : r.inp = bs ++ rest) (hs : r.syms.length ≤ r.pos) (hB : Sized r)
    (acc : Enc × List (Sym × Val)) :
    readEncPair E rv acc r = .ok ((e, acc.2), adv r bs rest syms') := by
  cases hx : wSymAscii (asciiSym nE) r.syms with
  | mk b s1 =>
    have hw' : bs = b ++ [if e = .utf8 then 84 else 70] ∧ syms' = s1 := by
      rcases he with he | he <;> subst he <;> simp only [wEncPair, hx, Prod.mk.injEq] at hw <;>
        exact ⟨hw.1.symm, hw.2.symm⟩
    obtain ⟨h1, h2⟩ := hw'
    subst h1; subst h2
    rw [List.append_assoc] at hin
    unfold readEncPair
    rw [bind_ok (rd_symAscii E rv hx nE_good.1 nE_good.2 hin hs hB)]
    rw [if_pos (by rfl)]
    rw [bind_ok (rd_byte (r := adv r b ([if e = .utf8 then 84 else 70] ++ rest) syms') rfl)]
    rcases he with he | he <;> subst he <;> simp [adv_adv, pure_eq]

theorem rd_encOne (E : Env) (rv : M Val) {e : Enc} {syms' : List Sym} {bs rest : List UInt8}
    {r : RS} (hw : wEncPair e r.syms = (bs, syms')) (he : e = .utf8 ∨ e = .usAscii)
    (hin : r.inp = wLen 1 ++ (bs ++ rest)) (hs : r.syms.length ≤ r.pos) (hB : Sized r) :
    readEncIvars E rv r = .ok ((e, []), adv r (wLen 1 ++ bs) rest syms') := by
  unfold readEncIvars
  have hB1 := hB.adv hin r.syms
  rw [bind_ok (rd_len hin (by omega) hB)]
  simp only [readEncPairs]
  rw [bind_ok (rd_encPair E rv (rest := rest) (r := adv r (wLen 1) (bs ++ rest) r.syms) hw he rfl
    (by simp only [adv_syms, adv_pos]; omega) hB1 _), pure_eq, adv_adv]

theorem wSym_pos (s : Sym) (syms : List Sym) : 1 ≤ (wSym s syms).1.length := by
  unfold wSym
  split
  · simp
  · split
    · simp
    · simp

theorem encPair_hole {l : List Sym} {x y : Sym} (hx : x ≠ asciiSym nE) (hy : y ≠ asciiSym nE) :
    ∃ p t, wEncPair .utf8 (l ++ [x]) = (p, l ++ x :: t) ∧ wEncPair .utf8 (l ++ [y]) = (p, l ++ y :: t) := by
  have key : ∀ z : Sym, z ≠ asciiSym nE →
      (l ++ [z]).idxOf? (asciiSym nE) = l.idxOf? (asciiSym nE) := by
    intro z hz
    simp only [List.idxOf?, List.findIdx?_append]
    have : List.findIdx? (fun x => x == asciiSym nE) [z] = none := by
      simp [hz]
    rw [this]
    simp
  unfold wEncPair wSymAscii
  rw [key x hx, key y hy]
  cases l.idxOf? (asciiSym nE) with
  | some i => refine ⟨_, [], rfl, rfl⟩
  | none =>
    refine ⟨_, [asciiSym nE], Prod.ext rfl ?_, Prod.ext rfl ?_⟩ <;> simp

/-- A symbol as a value and as a name. -/
theorem rd_sym (E : Env) (F : Nat) {s : Sym} {syms' : List Sym} {bs rest : List UInt8}
    {r : RS} (hw : wSym s r.syms = (bs, syms')) (hg : GoodSym s)
    (hin : r.inp = bs ++ rest) (hs : r.syms.length ≤ r.pos) (hB : Sized r) :
    readV E (F + 1) r = .ok (.sym s, adv r bs rest syms') ∧
    readSymbol E (readV E (F + 1)) r = .ok (s, adv r bs rest syms') := by
  unfold wSym at hw
  cases hi : r.syms.idxOf? s with
  | some i =>
    rw [hi] at hw
    simp only [Prod.mk.injEq] at hw
    obtain ⟨h1, h2⟩ := hw
    subst h1; subst h2
    obtain ⟨g1, g2⟩ := idxOf?_some hi
    rw [List.cons_append] at hin
    have hB1 := hB.adv1 hin r.syms
    have := hB.len (bs := [59]) hin
    have hgs : getSym (adv r [59] (wLen i ++ rest) r.syms) = .ok (s, adv r (59 :: wLen i) rest r.syms) := by
      rw [rd_getSym (r := adv r [59] (wLen i ++ rest) r.syms) (i := i) (s := s) (rest := rest) rfl g1
        (by omega) hB1, adv_adv]
      rfl
    constructor
    · rw [readV_act E F hin]
      show (getSym >>= fun s => pure (Val.sym s)) _ = _
      rw [bind_ok hgs, pure_eq]
    · rw [readSymbol_act E _ hin (by simp)]
      exact hgs
  | none =>
    rw [hi] at hw
    simp only at hw
    split at hw
    · rename_i hc
      simp only [Prod.mk.injEq] at hw
      obtain ⟨h1, h2⟩ := hw
      subst h1; subst h2
      simp only [List.cons_append, List.append_assoc] at hin
      have hB1 := hB.adv1 hin r.syms
      have hsym : (⟨s.bytes, if ascii s.bytes then .usAscii else .binary⟩ : Sym) = s := by
        obtain ⟨sb, se⟩ := s
        unfold GoodSym at hg
        simp only at hg hc ⊢
        by_cases ha : ascii sb = true
        · rw [if_pos ha] at hg ⊢; rw [hg]
        · rw [if_neg ha] at hg ⊢
          simp only [ha, Bool.false_or, decide_eq_true_eq] at hc
          rw [hc]
      have hns : readNewSym E (adv r [58] (wLen s.bytes.length ++ (s.bytes ++ rest)) r.syms) =
          .ok (s, adv r (58 :: wLen s.bytes.length ++ s.bytes) rest (r.syms ++ [s])) := by
        rw [rd_newSym E (bs := s.bytes) (rest := rest) rfl hB1, adv_adv, hsym]
        rfl
      constructor
      · rw [readV_act E F hin]
        show (readNewSym E >>= fun s => pure (Val.sym s)) _ = _
        rw [bind_ok hns, pure_eq]
      · rw [readSymbol_act E _ hin (by simp)]
        exact hns
    · rename_i hc
      cases hx : wEncPair s.enc (r.syms ++ [s]) with
      | mk p s1 =>
      rw [hx] at hw
      simp only [Prod.mk.injEq] at hw
      obtain ⟨h1, h2⟩ := hw
      subst h1; subst h2
      have hna : ascii s.bytes = false := by
        cases h : ascii s.bytes with
        | true => simp [h] at hc
        | false => rfl
      have hu : s.enc = .utf8 := by
        unfold GoodSym at hg
        rw [hna] at hg
        simp only [Bool.false_eq_true, if_false] at hg
        rcases hg with h | h
        · simp [h] at hc
        · exact h
      have hin1 : r.inp = 73 :: 58 :: (wLen s.bytes.length ++ (s.bytes ++ (wLen 1 ++ (p ++ rest)))) := by
        rw [hin]; simp
      have hv : ∀ F, readV E (F + 1) r = .ok (.sym s, adv r (73 :: 58 :: wLen s.bytes.length ++ s.bytes ++
          wLen 1 ++ p) rest s1) := by
        intro F
        rw [readV_act E F hin1]
        show readIvarWrapped E _ _ = _
        unfold readIvarWrapped
        have hB1 := hB.adv1 hin1 r.syms
        rw [bind_ok (rd_byte (r := adv r [73] _ _) rfl)]
        have hB2 := hB1.adv1 (b := 58) rfl r.syms
        simp only [adv_syms]
        have hB3 := hB2.adv (bs := wLen s.bytes.length) rfl r.syms
        have hl := hB3.len (bs := s.bytes) rfl
        have hB4 := hB3.adv (bs := s.bytes) rfl (r.syms ++ [asciiSym []])
        show (readLen >>= fun n => _) _ = _
        rw [bind_ok (rd_len (r := adv (adv r [73] _ _) [58] _ _) rfl (by omega) hB2)]
        simp only [adv_syms]
        rw [bind_ok (rd_bytes (r := adv (adv (adv r [73] _ _) [58] _ _) _ _ _) rfl hB3)]
        simp only [adv_syms]
        have hne : s ≠ asciiSym nE := by
          intro h; rw [h] at hna; revert hna; decide
        obtain ⟨p', t, e1, e2⟩ := encPair_hole (l := r.syms) hne
          (y := asciiSym []) (by decide)
        rw [hu, e1] at hx
        simp only [Prod.mk.injEq] at hx
        obtain ⟨hx1, hx2⟩ := hx
        subst hx1; subst hx2
        have hei := rd_encOne E (readV E F) (rest := rest) (e := .utf8)
          (r := adv (adv (adv (adv r [73] (58 :: (wLen s.bytes.length ++ (s.bytes ++ (wLen 1 ++
            (p' ++ rest))))) r.syms) [58] (wLen s.bytes.length ++ (s.bytes ++ (wLen 1 ++ (p' ++ rest))))
              r.syms) (wLen s.bytes.length) (s.bytes ++ (wLen 1 ++ (p' ++ rest))) r.syms) s.bytes
            (wLen 1 ++ (p' ++ rest)) (r.syms ++ [asciiSym []])) e2 (Or.inl rfl) rfl
          (by
            have := wLen_pos s.bytes.length
            simp only [adv_syms, adv_pos, List.length_append, List.length_singleton]; omega) hB4
        have hget : ∀ r : RS, (fun r => Res.ok (r.syms.length, r) : M Nat) r = .ok (r.syms.length, r) :=
          fun _ => rfl
        rw [bind_ok (hget _)]
        have hpush : ∀ (r : RS) (a b : List UInt8) (s : List Sym) (x : Sym),
            pushSym x (adv r a b s) = .ok ((), adv r a b (s ++ [x])) := fun _ _ _ _ _ => rfl
        rw [bind_ok (hpush _ _ _ _ _)]
        rw [bind_ok hei]
        have hint : intern E s.bytes .utf8 = s := by
          unfold intern
          rw [hna]
          obtain ⟨sb, se⟩ := s
          simp only at hu
          subst hu
          simp
        simp only [bind, M.bind, pure, M.pure, hint, adv_syms]
        simp only [adv_adv]
        refine congrArg Res.ok (Prod.ext rfl ?_)
        simp [adv]
      refine ⟨hv F, ?_⟩
      rw [readSymbol_act E _ hin1 (by simp)]
      show (unread 73 >>= fun _ => readV E (F + 1) >>= _) _ = _
      rw [bind_ok (unread_adv hin1), bind_ok (hv F)]
      rfl

end Verif.Marshal
