import Verif.Text.SuccModel
import Mathlib.Tactic.SplitIfs
import Mathlib.Tactic.Linarith
import Mathlib.Tactic.Ring

/-! Lemmas about `String#succ` and ranges of strings. -/

namespace Verif.Text

/-- an ASCII letter or digit -/
def Alnum (c : Nat) : Prop := (48 ≤ c ∧ c ≤ 57) ∨ (65 ≤ c ∧ c ≤ 90) ∨ (97 ≤ c ∧ c ≤ 122)

instance (c : Nat) : Decidable (Alnum c) := by unfold Alnum; infer_instance

/-- first character of its kind: `0`, `A` or `a` -/
def lo (c : Nat) : Nat := if c ≤ 57 then 48 else if c ≤ 90 then 65 else 97
/-- last character of its kind: `9`, `Z` or `z` -/
def hi (c : Nat) : Nat := if c ≤ 57 then 57 else if c ≤ 90 then 90 else 122
/-- what goes in front when every character was the last of its kind: `1`, `A` or `a` -/
def lead (c : Nat) : Nat := if c ≤ 57 then 49 else lo c

theorem alnum_lt {c : Nat} (h : Alnum c) : c < 123 := by unfold Alnum at h; omega
theorem alnum_pos {c : Nat} (h : Alnum c) : 48 ≤ c := by unfold Alnum at h; omega

theorem alnum_asciiCat {c : Nat} (h : c < 128) : (asciiCat c ≠ .other) ↔ Alnum c := by
  unfold asciiCat Alnum
  split_ifs <;> simp <;> omega

theorem chSucc_ascii {c : Nat} (h : c < 1000) : chSucc c = some (c + 1) := by
  unfold chSucc isScalar
  have : c + 1 < 0xD800 := by omega
  simp [this]

theorem runStart_congr {f g : Nat → Cat} (h : ∀ c < 128, f c = g c) (k : Cat) (n c : Nat)
    (hc : c < 128) : runStart f k n c = runStart g k n c := by
  induction n generalizing c with
  | zero => rfl
  | succ n ih =>
    simp only [runStart, h c hc]
    split_ifs
    · unfold chPred
      split_ifs
      · rfl
      · exact ih _ (by omega)
      · rfl
    · rfl

theorem succChar_congr {f g : Nat → Cat} (h : ∀ c < 128, f c = g c) {c : Nat} (hc : c < 126) :
    succChar f c = succChar g c := by
  unfold succChar
  rw [chSucc_ascii (by omega)]
  simp only [Option.bind_some]
  rw [chSucc_ascii (by omega)]
  simp only [Option.bind_some, h c (by omega), h (c + 1) (by omega), h (c + 1 + 1) (by omega)]
  rw [runStart_congr h _ _ _ (by omega)]

theorem succChar_table : ∀ c < 123, Alnum c →
    succChar asciiCat c = some (if c = hi c then (lo c, true) else (c + 1, false)) := by
  decide +kernel

theorem succChar_alnum {cat : Nat → Cat} (h : ∀ c < 128, cat c = asciiCat c) {c : Nat}
    (hc : Alnum c) : succChar cat c = some (if c = hi c then (lo c, true) else (c + 1, false)) := by
  rw [succChar_congr h (by have := alnum_lt hc; omega)]
  exact succChar_table c (alnum_lt hc) hc

theorem cat_alnum {cat : Nat → Cat} (h : ∀ c < 128, cat c = asciiCat c) {c : Nat} (hc : Alnum c) :
    cat c ≠ .other := by
  have := alnum_lt hc
  rw [h c (by omega)]
  exact (alnum_asciiCat (by omega)).2 hc

/-- the reversed string stepped, and whether a carry is left -/
def odo : List Nat → List Nat × Bool
  | [] => ([], true)
  | c :: t => if c = hi c then (lo c :: (odo t).1, (odo t).2) else ((c + 1) :: t, false)

/-- once the carry is gone the rest is copied -/
theorem succLoop_copy (cat : Nat → Cat) (st : SuccSt) (l : List Nat) (h : st.carry = false) :
    succLoop cat st l = some { st with buf := st.buf ++ l } := by
  induction l generalizing st with
  | nil => simp [succLoop]
  | cons c t ih =>
    rw [succLoop]
    have : succStep cat st c = some { st with buf := st.buf ++ [c] } := by
      simp [succStep, h]
    rw [this, Option.bind_some, ih { st with buf := st.buf ++ [c] } h]
    simp

theorem succStep_alnum {cat : Nat → Cat} (h : ∀ c < 128, cat c = asciiCat c) (st : SuccSt) {c : Nat}
    (hc : Alnum c) (hk : st.carry = true) (hf : st.finish = false)
    (hp : st.pad = true → st.state = .notDetermined) :
    ∃ st', succStep cat st c = some st' ∧
      st'.buf = st.buf ++ [if c = hi c then lo c else c + 1] ∧
      st'.carry = decide (c = hi c) ∧ st'.finish = false ∧ st'.pad = false ∧
      (c = hi c → st'.lastAlnum = st.buf.length) := by
  have hne := cat_alnum h hc
  have hfirst : (st.pad && ((cat c = .digit && st.state = .alpha) ||
      (cat c = .alpha && st.state = .digit))) = false := by
    cases hpad : st.pad with
    | false => rfl
    | true => rw [hp hpad]; simp
  unfold succStep
  simp only [hk, hf, Bool.not_true, Bool.or_self, Bool.false_eq_true, if_false, hne, hfirst,
    succChar_alnum h hc, Option.map_some]
  refine ⟨_, rfl, ?_⟩
  by_cases hh : c = hi c
  · rw [if_pos hh]
    simp only [if_pos hh, if_true, decide_eq_true hh]
    by_cases hpad : st.pad = true
    · simp [hpad, hk, hf]
    · have : st.pad = false := by simpa using hpad
      simp [this, hk, hf]
  · rw [if_neg hh]
    simp only [if_neg hh, Bool.false_eq_true, if_false, decide_eq_false hh]
    by_cases hpad : st.pad = true
    · simp [hpad, hf, hh]
    · have : st.pad = false := by simpa using hpad
      simp [this, hf, hh]

theorem succLoop_alnum {cat : Nat → Cat} (h : ∀ c < 128, cat c = asciiCat c) (l : List Nat)
    (hl : ∀ c ∈ l, Alnum c) (st : SuccSt) (hk : st.carry = true) (hf : st.finish = false)
    (hp : st.pad = true → st.state = .notDetermined) :
    ∃ st', succLoop cat st l = some st' ∧ st'.buf = st.buf ++ (odo l).1 ∧
      st'.carry = (odo l).2 ∧ (st'.carry = true → l ≠ [] →
        st'.lastAlnum = st.buf.length + l.length - 1) := by
  induction l generalizing st with
  | nil => exact ⟨st, rfl, by simp [odo], by simp [odo, hk], fun _ h => absurd rfl h⟩
  | cons c t ih =>
    obtain ⟨s1, e1, b1, k1, f1, p1, a1⟩ := succStep_alnum h st (hl c List.mem_cons_self) hk hf hp
    rw [succLoop, e1, Option.bind_some]
    by_cases hh : c = hi c
    · have hk1 : s1.carry = true := by rw [k1]; simpa using hh
      obtain ⟨s2, e2, b2, k2, a2⟩ := ih (fun x hx => hl x (List.mem_cons_of_mem _ hx)) s1 hk1 f1
        (by rw [p1]; simp)
      rw [if_pos hh] at b1
      refine ⟨s2, e2, ?_, ?_, ?_⟩
      · rw [b2, b1, odo, if_pos hh]; simp
      · rw [k2, odo, if_pos hh]
      · intro hc _
        by_cases ht : t = []
        · subst ht
          simp only [succLoop, Option.some.injEq] at e2
          rw [← e2, a1 hh]
          simp
        · rw [a2 hc ht, b1]
          simp only [List.length_append, List.length_cons, List.length_nil]
          omega
    · have hk1 : s1.carry = false := by rw [k1]; simpa using hh
      rw [succLoop_copy cat s1 t hk1]
      rw [if_neg hh] at b1
      refine ⟨_, rfl, ?_, ?_, ?_⟩
      · simp only [b1, odo, if_neg hh]; simp
      · simp only [odo, if_neg hh]; exact hk1
      · intro hc; simp only [hk1] at hc; simp at hc

theorem odo_length (l : List Nat) : (odo l).1.length = l.length := by
  induction l with
  | nil => rfl
  | cons c t ih => rw [odo]; split_ifs <;> simp [ih]

theorem odo_carry (l : List Nat) :
    (odo l).2 = true ↔ ∀ c ∈ l, c = hi c := by
  induction l with
  | nil => simp [odo]
  | cons c t ih =>
    rw [odo]
    split_ifs with h
    · simp only [ih, List.forall_mem_cons]
      exact ⟨fun x => ⟨h, x⟩, fun x => x.2⟩
    · simp only [List.forall_mem_cons, h, false_and, Bool.false_eq_true]

theorem odo_all_hi (l : List Nat) (h : ∀ c ∈ l, c = hi c) : (odo l).1 = l.map lo := by
  induction l with
  | nil => rfl
  | cons c t ih =>
    rw [odo, if_pos (h c List.mem_cons_self), List.map_cons,
      ih fun x hx => h x (List.mem_cons_of_mem _ hx)]

theorem odo_split (l : List Nat) (h : (odo l).2 = false) :
    ∃ q c p, l = q ++ c :: p ∧ (∀ x ∈ q, x = hi x) ∧ c ≠ hi c ∧
      (odo l).1 = q.map lo ++ (c + 1) :: p := by
  induction l with
  | nil => simp [odo] at h
  | cons c t ih =>
    rw [odo] at h ⊢
    split_ifs at h ⊢ with hc
    · obtain ⟨q, d, p, e, hq, hd, ho⟩ := ih h
      refine ⟨c :: q, d, p, by rw [e]; rfl, ?_, hd, by rw [ho]; rfl⟩
      intro x hx
      rcases List.mem_cons.1 hx with rfl | hx
      · exact hc
      · exact hq x hx
    · exact ⟨[], c, t, rfl, by simp, hc, rfl⟩

/-- the result for a string of letters and digits with anything pushed before (the trailing
characters that are neither) -/
theorem succFinish_alnum {cat : Nat → Cat} (h : ∀ c < 128, cat c = asciiCat c) (l : List Nat)
    (hl : ∀ c ∈ l, Alnum c) (hne : l ≠ []) (st : SuccSt) (hk : st.carry = true)
    (hf : st.finish = false) (hp : st.pad = true → st.state = .notDetermined) :
    (succLoop cat st l).bind (succFinish cat) =
      some ((st.buf ++ (odo l).1 ++
        (if (odo l).2 then [lead (l.getLastD 0)] else [])).reverse) := by
  obtain ⟨st', e, b, k, a⟩ := succLoop_alnum h l hl st hk hf hp
  rw [e, Option.bind_some]
  unfold succFinish
  rw [k]
  cases ho : (odo l).2 with
  | false => simp [b]
  | true =>
    have hall := (odo_carry l).1 ho
    have hla := a (by rw [k, ho]) hne
    have hlen := odo_length l
    have hpos : 0 < l.length := List.length_pos_iff.2 hne
    simp only [if_true]
    have hlast : l.getLastD 0 ∈ l := by
      cases l with
      | nil => exact absurd rfl hne
      | cons x t =>
        rw [List.getLastD_cons, ← List.getLast_eq_getLastD (a := x) (l := t)]
        · exact List.getLast_mem _
        · simp
    have hget : st'.buf.getD st'.lastAlnum 0 = lo (l.getLastD 0) := by
      rw [b, hla, odo_all_hi l hall]
      rw [List.getD_eq_getElem?_getD, List.getElem?_append_right (by omega)]
      have : st.buf.length + l.length - 1 - st.buf.length = l.length - 1 := by omega
      rw [this]
      have hlt : l.length - 1 < (l.map lo).length := by rw [List.length_map]; omega
      rw [List.getElem?_eq_getElem hlt, Option.getD_some, List.getElem_map]
      congr 1
      rw [← List.getLast_eq_getElem hne]
      rw [List.getLastD_eq_getLast?, List.getLast?_eq_some_getLast hne]
      rfl
    have hins : ∀ x, insertAt st'.buf (st'.lastAlnum + 1) x = st'.buf ++ [x] := by
      intro x
      have hfull : st'.lastAlnum + 1 = st'.buf.length := by
        rw [hla, b, List.length_append, hlen]; omega
      unfold insertAt
      rw [hfull, List.take_length, List.drop_length]
    rw [hget, hins]
    have hal := hl _ hlast
    have hlo : Alnum (lo (l.getLastD 0)) := by
      unfold lo Alnum; split_ifs <;> simp
    have hlolt : lo (l.getLastD 0) < 128 := by have := alnum_lt hlo; omega
    rw [h _ hlolt]
    by_cases hd : l.getLastD 0 ≤ 57
    · have e1 : lo (l.getLastD 0) = 48 := by unfold lo; rw [if_pos hd]
      have e2 : succChar cat 48 = some (49, false) := by
        rw [succChar_alnum h (by decide)]; rfl
      rw [e1]
      simp only [show asciiCat 48 = Cat.digit from rfl, if_true]
      rw [e2]
      simp only [Option.map_some, hins]
      rw [b, show lead (l.getLastD 0) = 49 by unfold lead; rw [if_pos hd]]
    · have e1 : asciiCat (lo (l.getLastD 0)) ≠ Cat.digit := by
        unfold lo; rw [if_neg hd]; split_ifs <;> decide
      rw [if_neg e1, b, show lead (l.getLastD 0) = lo (l.getLastD 0) by
        unfold lead; rw [if_neg hd]]

theorem strNext_alnum {cat : Nat → Cat} (h : ∀ c < 128, cat c = asciiCat c) (s : List Nat)
    (hs : ∀ c ∈ s, Alnum c) (hne : s ≠ []) :
    strNext cat s = some ((if (odo s.reverse).2 then [lead (s.headD 0)] else []) ++
      (odo s.reverse).1.reverse) := by
  unfold strNext
  rw [if_neg hne]
  have hnot : ¬(s.all fun c => cat c = .other) = true := by
    cases s with
    | nil => exact absurd rfl hne
    | cons c t =>
      simp only [List.all_cons, Bool.and_eq_true, decide_eq_true_eq]
      intro hx
      exact cat_alnum h (hs c List.mem_cons_self) hx.1
  rw [if_neg hnot]
  have := succFinish_alnum h s.reverse (fun c hc => hs c (by simpa using hc)) (by simpa using hne)
    {} rfl rfl (by simp)
  rw [this]
  have hd : s.reverse.getLastD 0 = s.headD 0 := by
    cases s with
    | nil => rfl
    | cons c t => simp
  rw [hd]
  congr 1
  split_ifs <;> simp

/-- The three forms of the result. -/
theorem strNext_odometer {cat : Nat → Cat} (h : ∀ c < 128, cat c = asciiCat c) (s : List Nat)
    (hs : ∀ c ∈ s, Alnum c) (hne : s ≠ []) :
    (∃ p c q, s = p ++ c :: q ∧ c ≠ hi c ∧ (∀ x ∈ q, x = hi x) ∧
      strNext cat s = some (p ++ (c + 1) :: q.map lo)) ∨
    ((∀ x ∈ s, x = hi x) ∧ strNext cat s = some (lead (s.headD 0) :: s.map lo)) := by
  rw [strNext_alnum h s hs hne]
  cases ho : (odo s.reverse).2 with
  | false =>
    obtain ⟨q, c, p, e, hq, hc, hr⟩ := odo_split s.reverse ho
    left
    have e' : s = p.reverse ++ c :: q.reverse := by
      have := congrArg List.reverse e
      simpa using this
    refine ⟨p.reverse, c, q.reverse, e', hc, fun x hx => hq x (by simpa using hx), ?_⟩
    rw [hr]
    simp
  | true =>
    right
    have hall := (odo_carry s.reverse).1 ho
    have hall' : ∀ x ∈ s, x = hi x := fun x hx => hall x (by simpa using hx)
    refine ⟨hall', ?_⟩
    rw [odo_all_hi _ hall]
    simp

theorem alnum_lo {c : Nat} (_ : Alnum c) : Alnum (lo c) := by
  unfold lo Alnum; split_ifs <;> simp

theorem alnum_lead {c : Nat} (_ : Alnum c) : Alnum (lead c) := by
  unfold lead lo Alnum; split_ifs <;> simp

theorem alnum_succ {c : Nat} (h : Alnum c) (hc : c ≠ hi c) : Alnum (c + 1) := by
  unfold hi at hc; unfold Alnum at *
  split_ifs at hc <;> omega

theorem strNext_closed {cat : Nat → Cat} (h : ∀ c < 128, cat c = asciiCat c) (s : List Nat)
    (hs : ∀ c ∈ s, Alnum c) (hne : s ≠ []) :
    ∃ r, strNext cat s = some r ∧ (∀ c ∈ r, Alnum c) ∧ r ≠ [] := by
  rcases strNext_odometer h s hs hne with ⟨p, c, q, e, hc, hq, hr⟩ | ⟨hall, hr⟩
  · refine ⟨_, hr, ?_, by simp⟩
    subst e
    intro x hx
    rcases List.mem_append.1 hx with hx | hx
    · exact hs x (by simp [hx])
    · rcases List.mem_cons.1 hx with rfl | hx
      · exact alnum_succ (hs c (by simp)) hc
      · obtain ⟨y, hy, rfl⟩ := List.mem_map.1 hx
        exact alnum_lo (hs y (by simp [hy]))
  · refine ⟨_, hr, ?_, by simp⟩
    intro x hx
    rcases List.mem_cons.1 hx with rfl | hx
    · cases s with
      | nil => exact absurd rfl hne
      | cons c t => exact alnum_lead (hs c List.mem_cons_self)
    · obtain ⟨y, hy, rfl⟩ := List.mem_map.1 hx
      exact alnum_lo (hs y hy)

/-! ## The order of strings -/

theorem strCmp_refl (s : List Nat) : strCmp s s = .eq := by
  induction s with
  | nil => rfl
  | cons a t ih => simp [strCmp, ih]

theorem strCmp_prefix (p s t : List Nat) : strCmp (p ++ s) (p ++ t) = strCmp s t := by
  induction p with
  | nil => rfl
  | cons a p ih => simp [strCmp, ih]

theorem strCmp_eq {s t : List Nat} (h : strCmp s t = .eq) : s = t := by
  induction s generalizing t with
  | nil => cases t with
    | nil => rfl
    | cons _ _ => cases h
  | cons a s ih => cases t with
    | nil => cases h
    | cons b t =>
      rw [strCmp] at h
      split_ifs at h with h1 h2
      rw [ih h, show a = b by omega]

/-- length first, then character by character -/
def Before (s t : List Nat) : Prop := s.length < t.length ∨ (s.length = t.length ∧ strCmp s t = .lt)

/-- a number that grows with the order `Before` on short-alphabet strings -/
def key : List Nat → Nat
  | [] => 0
  | c :: t => (c + 1) * 129 ^ t.length + key t

theorem key_lt (s : List Nat) (h : ∀ c ∈ s, c < 128) : key s < 129 ^ s.length := by
  induction s with
  | nil => simp [key]
  | cons c t ih =>
    have h1 := ih fun x hx => h x (List.mem_cons_of_mem _ hx)
    have h2 := h c List.mem_cons_self
    rw [key, List.length_cons, Nat.pow_succ]
    have : (c + 1) * 129 ^ t.length ≤ 128 * 129 ^ t.length := Nat.mul_le_mul_right _ (by omega)
    omega

theorem key_before {s t : List Nat} (hs : ∀ c ∈ s, c < 128) (ht : ∀ c ∈ t, c < 128)
    (h : Before s t) : key s < key t := by
  rcases h with h | ⟨hl, h⟩
  · have h1 := key_lt s hs
    cases t with
    | nil => simp at h
    | cons c t =>
      rw [key]
      have h2 : 129 ^ s.length ≤ 129 ^ t.length :=
        Nat.pow_le_pow_right (by omega) (by simp at h; omega)
      have h3 : 1 * 129 ^ t.length ≤ (c + 1) * 129 ^ t.length := Nat.mul_le_mul_right _ (by omega)
      omega
  · induction s generalizing t with
    | nil => cases t with
      | nil => cases h
      | cons _ _ => simp at hl
    | cons a s ih => cases t with
      | nil => simp at hl
      | cons b t =>
        have hl' : s.length = t.length := by simpa using hl
        rw [strCmp] at h
        rw [key, key, hl']
        split_ifs at h with h1
        · have h2 := key_lt s fun x hx => hs x (List.mem_cons_of_mem _ hx)
          rw [hl'] at h2
          have h3 : (a + 1 + 1) * 129 ^ t.length ≤ (b + 1) * 129 ^ t.length :=
            Nat.mul_le_mul_right _ (by omega)
          have h4 : (a + 1 + 1) * 129 ^ t.length = (a + 1) * 129 ^ t.length + 129 ^ t.length := by
            rw [Nat.add_mul (a + 1), Nat.one_mul]
          omega
        · have hab : a = b := by omega
          have := ih (fun x hx => hs x (List.mem_cons_of_mem _ hx))
            (fun x hx => ht x (List.mem_cons_of_mem _ hx)) hl' h
          rw [hab]
          omega

theorem strNext_before {cat : Nat → Cat} (h : ∀ c < 128, cat c = asciiCat c) (s r : List Nat)
    (hs : ∀ c ∈ s, Alnum c) (hne : s ≠ []) (hr : strNext cat s = some r) : Before s r := by
  rcases strNext_odometer h s hs hne with ⟨p, c, q, e, _, _, hr'⟩ | ⟨_, hr'⟩
  · rw [hr'] at hr
    cases hr
    subst e
    right
    refine ⟨by simp, ?_⟩
    rw [strCmp_prefix, strCmp, if_pos (by omega)]
  · rw [hr'] at hr
    cases hr
    left
    simp

/-! ## Decimal strings -/

def Digit (c : Nat) : Prop := 48 ≤ c ∧ c ≤ 57

instance (c : Nat) : Decidable (Digit c) := by unfold Digit; infer_instance

theorem Digit.alnum {c : Nat} (h : Digit c) : Alnum c := Or.inl h

theorem foldl_num (s : List Nat) (a : Nat) :
    s.foldl (fun acc c => 10 * acc + (c - 48)) a = a * 10 ^ s.length + numVal s := by
  induction s generalizing a with
  | nil => simp [numVal]
  | cons c t ih =>
    have : numVal (c :: t) = (10 * 0 + (c - 48)) * 10 ^ t.length + numVal t := by
      rw [numVal, List.foldl_cons, ih]
    rw [List.foldl_cons, ih, this, List.length_cons, Nat.pow_succ]
    ring

theorem numVal_append (s t : List Nat) : numVal (s ++ t) = numVal s * 10 ^ t.length + numVal t := by
  rw [numVal, List.foldl_append, foldl_num]
  rfl

theorem numVal_cons (c : Nat) (t : List Nat) :
    numVal (c :: t) = (c - 48) * 10 ^ t.length + numVal t := by
  have := numVal_append [c] t
  simpa [numVal] using this

theorem numVal_nines (q : List Nat) (h : ∀ x ∈ q, x = hi x) (hd : ∀ x ∈ q, Digit x) :
    numVal q + 1 = 10 ^ q.length := by
  induction q with
  | nil => rfl
  | cons c t ih =>
    have h1 := ih (fun x hx => h x (List.mem_cons_of_mem _ hx))
      (fun x hx => hd x (List.mem_cons_of_mem _ hx))
    have h2 := h c List.mem_cons_self
    have h3 := hd c List.mem_cons_self
    have : c = 57 := by unfold hi at h2; rw [if_pos h3.2] at h2; exact h2
    rw [numVal_cons, this, List.length_cons, Nat.pow_succ]
    omega

theorem numVal_zeros (q : List Nat) (hd : ∀ x ∈ q, Digit x) : numVal (q.map lo) = 0 := by
  induction q with
  | nil => rfl
  | cons c t ih =>
    have h3 := hd c List.mem_cons_self
    rw [List.map_cons, numVal_cons, ih fun x hx => hd x (List.mem_cons_of_mem _ hx)]
    unfold lo
    rw [if_pos h3.2]
    simp

theorem numVal_lt (s : List Nat) (hd : ∀ x ∈ s, Digit x) : numVal s < 10 ^ s.length := by
  induction s with
  | nil => simp [numVal]
  | cons c t ih =>
    have h1 := ih fun x hx => hd x (List.mem_cons_of_mem _ hx)
    have h2 := hd c List.mem_cons_self
    rw [numVal_cons, List.length_cons, Nat.pow_succ]
    have : (c - 48) * 10 ^ t.length ≤ 9 * 10 ^ t.length :=
      Nat.mul_le_mul_right _ (by unfold Digit at h2; omega)
    omega

theorem numVal_inj {s t : List Nat} (hs : ∀ x ∈ s, Digit x) (ht : ∀ x ∈ t, Digit x)
    (hl : s.length = t.length) (h : numVal s = numVal t) : s = t := by
  induction s generalizing t with
  | nil => cases t with
    | nil => rfl
    | cons _ _ => simp at hl
  | cons a s ih => cases t with
    | nil => simp at hl
    | cons b t =>
      have hl' : s.length = t.length := by simpa using hl
      have hs' : ∀ x ∈ s, Digit x := fun x hx => hs x (List.mem_cons_of_mem _ hx)
      have ht' : ∀ x ∈ t, Digit x := fun x hx => ht x (List.mem_cons_of_mem _ hx)
      have h1 := numVal_lt s hs'
      have h2 := numVal_lt t ht'
      have ha := hs a List.mem_cons_self
      have hb := ht b List.mem_cons_self
      unfold Digit at ha hb
      rw [numVal_cons, numVal_cons, hl'] at h
      rw [hl'] at h1
      have hab : a - 48 = b - 48 := by
        by_contra hne
        rcases Nat.lt_or_gt_of_ne hne with hlt | hlt
        · have : (a - 48 + 1) * 10 ^ t.length ≤ (b - 48) * 10 ^ t.length :=
            Nat.mul_le_mul_right _ hlt
          rw [Nat.add_mul] at this
          omega
        · have : (b - 48 + 1) * 10 ^ t.length ≤ (a - 48) * 10 ^ t.length :=
            Nat.mul_le_mul_right _ hlt
          rw [Nat.add_mul] at this
          omega
      rw [hab] at h
      rw [ih hs' ht' hl' (by omega), show a = b by omega]

theorem strNext_digits {cat : Nat → Cat} (h : ∀ c < 128, cat c = asciiCat c) (s : List Nat)
    (hs : ∀ c ∈ s, Digit c) (hne : s ≠ []) :
    ∃ r, strNext cat s = some r ∧ (∀ c ∈ r, Digit c) ∧ numVal r = numVal s + 1 ∧
      r.length = s.length + (if numVal s + 1 = 10 ^ s.length then 1 else 0) := by
  rcases strNext_odometer h s (fun c hc => (hs c hc).alnum) hne with ⟨p, c, q, e, hc, hq, hr⟩ | ⟨hall, hr⟩
  · subst e
    have hq' : ∀ x ∈ q, Digit x := fun x hx => hs x (by simp [hx])
    have hcd : Digit c := hs c (by simp)
    have hc' : c ≠ 57 := by unfold hi at hc; rw [if_pos hcd.2] at hc; exact hc
    have hv : numVal (p ++ (c + 1) :: q.map lo) = numVal (p ++ c :: q) + 1 := by
      rw [numVal_append, numVal_append, numVal_cons, numVal_cons, numVal_zeros q hq']
      have := numVal_nines q hq hq'
      simp only [List.length_cons, List.length_map]
      have e1 : c + 1 - 48 = (c - 48) + 1 := by unfold Digit at hcd; omega
      rw [e1, Nat.add_mul]
      omega
    have hdig : ∀ x ∈ p ++ (c + 1) :: q.map lo, Digit x := by
      intro x hx
      rcases List.mem_append.1 hx with hx | hx
      · exact hs x (by simp [hx])
      · rcases List.mem_cons.1 hx with rfl | hx
        · unfold Digit at *; omega
        · obtain ⟨y, hy, rfl⟩ := List.mem_map.1 hx
          have := hq' y hy
          unfold lo Digit at *
          rw [if_pos this.2]; omega
    refine ⟨_, hr, hdig, hv, ?_⟩
    have := numVal_lt _ hdig
    rw [hv] at this
    have hlen : (p ++ (c + 1) :: q.map lo).length = (p ++ c :: q).length := by simp
    rw [hlen] at this ⊢
    rw [if_neg (by omega)]
    rfl
  · have hv : numVal s + 1 = 10 ^ s.length := numVal_nines s hall hs
    refine ⟨_, hr, ?_, ?_, ?_⟩
    · intro x hx
      rcases List.mem_cons.1 hx with rfl | hx
      · cases s with
        | nil => exact absurd rfl hne
        | cons c t =>
          have := hs c List.mem_cons_self
          simp only [List.headD_cons]
          unfold lead Digit at *
          rw [if_pos this.2]; omega
      · obtain ⟨y, hy, rfl⟩ := List.mem_map.1 hx
        have := hs y hy
        unfold lo Digit at *
        rw [if_pos this.2]; omega
    · rw [numVal_cons, numVal_zeros s hs, hv]
      cases s with
      | nil => exact absurd rfl hne
      | cons c t =>
        have := hs c List.mem_cons_self
        simp only [List.headD_cons, List.length_map]
        unfold lead
        rw [if_pos this.2]
        simp
    · rw [if_pos hv]; simp

theorem numVal_decimal (n : Nat) : numVal (decimal n) = n := by
  induction n using Nat.strongRecOn with
  | ind n ih =>
    rw [decimal]
    split_ifs with h
    · simp [numVal]
    · rw [numVal_append, ih (n / 10) (by omega)]
      simp [numVal]
      omega

theorem digit_decimal (n : Nat) : ∀ x ∈ decimal n, Digit x := by
  induction n using Nat.strongRecOn with
  | ind n ih =>
    rw [decimal]
    split_ifs with h
    · intro x hx
      simp only [List.mem_singleton] at hx
      unfold Digit; omega
    · intro x hx
      rcases List.mem_append.1 hx with hx | hx
      · exact ih _ (by omega) x hx
      · simp only [List.mem_singleton] at hx
        unfold Digit; omega

theorem decimal_length_le (w n : Nat) (hw : 0 < w) (h : n < 10 ^ w) : (decimal n).length ≤ w := by
  induction w generalizing n with
  | zero => omega
  | succ w ih =>
    rw [decimal]
    split_ifs with h10
    · simp
    · have h' : n / 10 < 10 ^ w := by
        rw [Nat.pow_succ] at h
        exact Nat.div_lt_of_lt_mul (by omega)
      have hw' : 0 < w := by
        by_contra hz
        have : w = 0 := by omega
        subst this
        simp at h; omega
      have := ih (n / 10) hw' h'
      simp only [List.length_append, List.length_cons, List.length_nil]
      omega

theorem numVal_replicate (k : Nat) (s : List Nat) :
    numVal (List.replicate k 48 ++ s) = numVal s := by
  induction k with
  | zero => rfl
  | succ k ih => rw [List.replicate_succ, List.cons_append, numVal_cons, ih]; simp

/-- the zero-padded decimal of `digitRun` -/
def padded (w n : Nat) : List Nat := List.replicate (w - (decimal n).length) 48 ++ decimal n

theorem numVal_padded (w n : Nat) : numVal (padded w n) = n := by
  rw [padded, numVal_replicate, numVal_decimal]

theorem digit_padded (w n : Nat) : ∀ x ∈ padded w n, Digit x := by
  intro x hx
  rcases List.mem_append.1 hx with hx | hx
  · rw [List.eq_of_mem_replicate hx]; decide
  · exact digit_decimal n x hx

theorem padded_length (w n : Nat) (hw : 0 < w) (h : n < 10 ^ w) : (padded w n).length = w := by
  have := decimal_length_le w n hw h
  simp only [padded, List.length_append, List.length_replicate]
  omega

theorem padded_next {cat : Nat → Cat} (h : ∀ c < 128, cat c = asciiCat c) (w n : Nat) (hw : 0 < w)
    (hn : n + 1 < 10 ^ w) : strNext cat (padded w n) = some (padded w (n + 1)) := by
  have hl := padded_length w n hw (by omega)
  obtain ⟨r, hr, hd, hv, hlen⟩ := strNext_digits h (padded w n) (digit_padded w n)
    (by intro e; rw [e] at hl; simp at hl; omega)
  rw [hr]
  congr 1
  refine numVal_inj hd (digit_padded _ _) ?_ ?_
  · rw [hlen, numVal_padded, hl, if_neg (by omega), padded_length w (n + 1) hw hn]
    rfl
  · rw [hv, numVal_padded, numVal_padded]

/-! ## Walks -/

/-- each string is followed by its `succ` -/
inductive Chain (succ : List Nat → Option (List Nat)) : List (List Nat) → Prop
  | one (x) : Chain succ [x]
  | step (x y l) : succ x = some y → Chain succ (y :: l) → Chain succ (x :: y :: l)

theorem before_of_key {s t : List Nat} (hs : ∀ c ∈ s, c < 128) (ht : ∀ c ∈ t, c < 128)
    (h : key s < key t) : Before s t := by
  rcases Nat.lt_trichotomy s.length t.length with hl | hl | hl
  · exact Or.inl hl
  · refine Or.inr ⟨hl, ?_⟩
    cases hc : strCmp s t with
    | lt => rfl
    | eq => rw [strCmp_eq hc] at h; omega
    | gt =>
      have hgt : strCmp t s = .lt := by
        clear h hs ht hl
        induction s generalizing t with
        | nil => cases t <;> cases hc
        | cons a s ih => cases t with
          | nil => rfl
          | cons b t =>
            rw [strCmp] at hc ⊢
            split_ifs at hc with h1 h2
            · rw [if_pos h2]
            · rw [if_neg h2, if_neg h1]
              exact ih hc
      have := key_before ht hs (Or.inr ⟨hl.symm, hgt⟩)
      omega
  · have := key_before ht hs (Or.inl hl)
    omega

theorem alnum128 {s : List Nat} (h : ∀ c ∈ s, Alnum c) : ∀ c ∈ s, c < 128 := fun c hc => by
  have := alnum_lt (h c hc); omega

theorem chain_key {cat : Nat → Cat} (h : ∀ c < 128, cat c = asciiCat c) (l : List (List Nat)) :
    ∀ x, Chain (strNext cat) (x :: l) → (∀ c ∈ x, Alnum c) → x ≠ [] →
      (∀ y ∈ x :: l, (∀ c ∈ y, Alnum c) ∧ y ≠ []) ∧ ∀ y ∈ l, key x < key y := by
  induction l with
  | nil =>
    intro x _ hx hne
    refine ⟨?_, by simp⟩
    intro y hy
    simp only [List.mem_singleton] at hy
    subst hy; exact ⟨hx, hne⟩
  | cons z l ih =>
    intro x hc hx hne
    cases hc with
    | step _ _ _ e hc =>
      obtain ⟨r, hr, hra, hrn⟩ := strNext_closed h x hx hne
      rw [e] at hr
      cases hr
      obtain ⟨h1, h2⟩ := ih z hc hra hrn
      have hb := key_before (alnum128 hx) (alnum128 hra) (strNext_before h x z hx hne e)
      refine ⟨?_, ?_⟩
      · intro y hy
        rcases List.mem_cons.1 hy with rfl | hy
        · exact ⟨hx, hne⟩
        · exact h1 y hy
      · intro y hy
        rcases List.mem_cons.1 hy with rfl | hy
        · exact hb
        · exact Nat.lt_trans hb (h2 y hy)

theorem eachLoop_chain {cat : Nat → Cat} (h : ∀ c < 128, cat c = asciiCat c) (excl : Bool)
    (e : List Nat) (l : List (List Nat)) : ∀ x fuel, Chain (strNext cat) (x :: l) →
      (x :: l).getLast? = some e → (∀ c ∈ x, Alnum c) → x ≠ [] → l.length < fuel →
      eachLoop (strNext cat) excl e fuel x =
        .done (if excl then (x :: l).dropLast else x :: l) := by
  induction l with
  | nil =>
    intro x fuel _ hl _ _ hf
    simp only [List.getLast?_singleton, Option.some.injEq] at hl
    subst hl
    obtain ⟨n, rfl⟩ : ∃ n, fuel = n + 1 := ⟨fuel - 1, by simp at hf; omega⟩
    rw [eachLoop]
    simp only [Nat.lt_irrefl, if_false, gt_iff_lt, strCmp_refl]
    cases excl <;> simp
  | cons z l ih =>
    intro x fuel hc hl hx hne hf
    obtain ⟨n, rfl⟩ : ∃ n, fuel = n + 1 := ⟨fuel - 1, by simp at hf; omega⟩
    obtain ⟨h1, h2⟩ := chain_key h (z :: l) x hc hx hne
    have hmem : e ∈ z :: l := by
      rw [List.getLast?_cons_cons] at hl
      exact List.mem_of_getLast? hl
    have hea := (h1 e (List.mem_cons_of_mem _ hmem)).1
    have hb := before_of_key (alnum128 hx) (alnum128 hea) (h2 e hmem)
    cases hc with
    | step _ _ _ es hc =>
      have hz := h1 z (by simp)
      rw [List.getLast?_cons_cons] at hl
      have hih := ih z n hc hl hz.1 hz.2 (by simp at hf; omega)
      rw [eachLoop, es]
      simp only [hih]
      rcases hb with hb | ⟨hb, hlt⟩
      · rw [if_neg (by omega), if_pos hb]
        cases excl <;> simp [Walk.cons]
      · rw [if_neg (by omega), if_neg (by omega), hlt]
        cases excl <;> simp [Walk.cons]

theorem uptoLoop_chain {cat : Nat → Cat} (h : ∀ c < 128, cat c = asciiCat c) (excl : Bool)
    (e : List Nat) (l : List (List Nat)) : ∀ x fuel, Chain (strNext cat) (x :: l) →
      (x :: l).getLast? = some e → (∀ c ∈ x, Alnum c) → x ≠ [] → l.length + 1 < fuel →
      (∀ y ∈ x :: l, y.length = e.length) →
      uptoLoop (strNext cat) excl e fuel x =
        .done (if excl then (x :: l).dropLast else x :: l) := by
  induction l with
  | nil =>
    intro x fuel _ hl hx hne hf _
    simp only [List.getLast?_singleton, Option.some.injEq] at hl
    subst hl
    obtain ⟨n, rfl⟩ : ∃ n, fuel = n + 1 + 1 := ⟨fuel - 2, by simp at hf; omega⟩
    rw [uptoLoop]
    cases excl with
    | true => simp [strCmp_refl]
    | false =>
      obtain ⟨r, hr, hra, hrn⟩ := strNext_closed h x hx hne
      have hb := strNext_before h x r hx hne hr
      simp only [Bool.false_eq_true, if_false, strCmp_refl, Nat.le_refl, and_true, ne_eq,
        reduceCtorEq, not_false_eq_true, if_true, hr]
      rw [uptoLoop]
      have : ¬((if false = true then strCmp r x = .lt else strCmp r x ≠ .gt) ∧ r.length ≤ x.length) := by
        simp only [Bool.false_eq_true, if_false]
        rintro ⟨h1, h2⟩
        have hk := key_before (alnum128 hx) (alnum128 hra) hb
        have : ¬ key r ≤ key x := by omega
        apply this
        cases hc : strCmp r x with
        | gt => exact absurd hc h1
        | eq => rw [strCmp_eq hc]
        | lt =>
          have hle : r.length = x.length := by
            rcases hb with hb | ⟨hb, _⟩ <;> omega
          exact Nat.le_of_lt (key_before (alnum128 hra) (alnum128 hx) (Or.inr ⟨hle, hc⟩))
      rw [if_neg this]
      rfl
  | cons z l ih =>
    intro x fuel hc hl hx hne hf hlen
    obtain ⟨n, rfl⟩ : ∃ n, fuel = n + 1 := ⟨fuel - 1, by simp at hf; omega⟩
    obtain ⟨h1, h2⟩ := chain_key h (z :: l) x hc hx hne
    have hmem : e ∈ z :: l := by
      rw [List.getLast?_cons_cons] at hl
      exact List.mem_of_getLast? hl
    have hea := (h1 e (List.mem_cons_of_mem _ hmem)).1
    have hb := before_of_key (alnum128 hx) (alnum128 hea) (h2 e hmem)
    have hxl := hlen x (by simp)
    cases hc with
    | step _ _ _ es hc =>
      have hz := h1 z (by simp)
      rw [List.getLast?_cons_cons] at hl
      have hih := ih z n hc hl hz.1 hz.2 (by simp at hf; omega)
        (fun y hy => hlen y (List.mem_cons_of_mem _ hy))
      rw [uptoLoop, es]
      simp only [hih]
      rcases hb with hb | ⟨hb, hlt⟩
      · omega
      · rw [hlt]
        cases excl <;> simp [Walk.cons, hb]

/-- what a walk from `x` may yield -/
def Within (excl : Bool) (e y : List Nat) : Prop := Before y e ∨ (excl = false ∧ y = e)

theorem eachLoop_ends {cat : Nat → Cat} (h : ∀ c < 128, cat c = asciiCat c) (excl : Bool)
    (e : List Nat) : ∀ fuel x, (∀ c ∈ x, Alnum c) → x ≠ [] →
      129 ^ e.length < fuel + key x → 0 < fuel →
      ∃ l, eachLoop (strNext cat) excl e fuel x = .done l ∧ (∀ y ∈ l, Within excl e y) ∧
        (l = [] ∨ (Chain (strNext cat) l ∧ l.head? = some x)) := by
  intro fuel
  induction fuel with
  | zero => intro x _ _ _ h0; omega
  | succ n ih =>
    intro x hx hne hk _
    have hkx := key_lt x (alnum128 hx)
    obtain ⟨r, hr, hra, hrn⟩ := strNext_closed h x hx hne
    have hb := key_before (alnum128 hx) (alnum128 hra) (strNext_before h x r hx hne hr)
    rw [eachLoop, hr]
    by_cases hl : x.length > e.length
    · rw [if_pos hl]; exact ⟨[], rfl, by simp, Or.inl rfl⟩
    rw [if_neg hl]
    have hp : 129 ^ x.length ≤ 129 ^ e.length := Nat.pow_le_pow_right (by omega) (by omega)
    obtain ⟨l, e1, e2, e3⟩ := ih r hra hrn (by omega) (by omega)
    have hchain : Chain (strNext cat) (x :: l) := by
      rcases e3 with rfl | ⟨hc, hh⟩
      · exact Chain.one x
      · cases l with
        | nil => exact Chain.one x
        | cons z l =>
          simp only [List.head?_cons, Option.some.injEq] at hh
          subst hh
          exact Chain.step _ _ _ hr hc
    have fin : ∀ (_ : Within excl e x), ∃ l', (Walk.cons x (eachLoop (strNext cat) excl e n r)) = .done l' ∧
        (∀ y ∈ l', Within excl e y) ∧ (l' = [] ∨ (Chain (strNext cat) l' ∧ l'.head? = some x)) := by
      intro hw
      refine ⟨x :: l, by rw [e1]; rfl, ?_, Or.inr ⟨hchain, rfl⟩⟩
      intro y hy
      rcases List.mem_cons.1 hy with rfl | hy
      · exact hw
      · exact e2 y hy
    by_cases hl2 : x.length < e.length
    · rw [if_pos hl2]
      exact fin (Or.inl (Or.inl hl2))
    rw [if_neg hl2]
    have hle : x.length = e.length := by omega
    cases hc : strCmp x e with
    | lt =>
      have hw : Within excl e x := Or.inl (Or.inr ⟨hle, hc⟩)
      cases excl <;> simpa using fin hw
    | eq =>
      cases excl with
      | true => exact ⟨[], by simp, by simp, Or.inl rfl⟩
      | false =>
        refine ⟨[x], by simp, ?_, Or.inr ⟨Chain.one x, rfl⟩⟩
        intro y hy
        simp only [List.mem_singleton] at hy
        subst hy
        exact Or.inr ⟨rfl, strCmp_eq hc⟩
    | gt =>
      refine ⟨[], ?_, by simp, Or.inl rfl⟩
      cases excl <;> simp

/-- one run of characters of the same kind -/
theorem charRun_succ (a b : Nat) (h : a ≤ b) : charRun a b = [a] :: charRun (a + 1) b := by
  unfold charRun
  have e1 : b + 1 - a = (b + 1 - (a + 1)) + 1 := by omega
  rw [e1, List.range_succ_eq_map, List.map_cons, List.map_map]
  congr 1
  apply List.map_congr_left
  intro k _
  simp only [Function.comp]
  congr 1
  omega

end Verif.Text
