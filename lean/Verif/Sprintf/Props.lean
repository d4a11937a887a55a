import Verif.Sprintf.Lemmas

/-!
# C156: Kernel#format lays numbers and strings out as its directives say
-/

namespace Verif.Sprintf

/-! ### What a directive asks for, independently of the code -/

/-- Head (sign, prefix, dots), then digits, filled to a width. -/
def layout (left zero : Bool) (head : List Char) (fill : Char) (core : List Char) (width : Nat) : List Char :=
  let gap := width - (head.length + core.length)
  if left then head ++ core ++ List.replicate gap ' '
  else if zero then head ++ List.replicate gap fill ++ core
  else List.replicate gap ' ' ++ head ++ core

def base : Conv → Nat
  | .d => 10
  | .b _ => 2
  | .o => 8
  | .x _ => 16
  | .s => 10

def upperOf : Conv → Bool
  | .b u => u
  | .x u => u
  | _ => false

/-- Shown as two's complement: negative, not in decimal, and no sign asked for. -/
def twos (c : Conv) (f : Flags) (n : Int) : Bool := n < 0 && c != .d && !f.plus && !f.space

/-- The digits, filled up to the precision. -/
def core (c : Conv) (f : Flags) (prec : Option Nat) (n : Int) : List Char :=
  let tc := twos c f n
  let fill := if tc then dchar (upperOf c) (base c - 1) else '0'
  let raw := ((if tc then negDigits (base c) n.natAbs else digs (base c) n.natAbs)).map (dchar (upperOf c))
  match prec with
  | none => raw
  | some p =>
    if n = 0 ∧ p = 0 then [] else List.replicate ((if tc then p - 2 else p) - raw.length) fill ++ raw

/-- The prefix the `#` flag asks for. -/
def prefixOf (c : Conv) (f : Flags) (prec : Option Nat) (n : Int) : List Char :=
  if !f.hash then []
  else match c with
    | .b u => if n = 0 then [] else ['0', if u then 'B' else 'b']
    | .x u => if n = 0 then [] else ['0', if u then 'X' else 'x']
    | .o => if twos c f n ∨ (core c f prec n).head? = some '0' then [] else ['0']
    | _ => []

/-- The whole field. -/
def specInt (c : Conv) (f : Flags) (width : Nat) (prec : Option Nat) (n : Int) : List Char :=
  let tc := twos c f n
  let sign := if tc then [] else if n < 0 then ['-'] else if f.plus then ['+'] else if f.space then [' '] else []
  layout f.minus (f.zero && prec.isNone) (sign ++ prefixOf c f prec n ++ (if tc then ['.', '.'] else []))
    (if tc then dchar (upperOf c) (base c - 1) else '0') (core c f prec n) width

/-! ### Auxiliary -/

theorem intWithPrefix_layout {neg : Bool} {ds pre : List Char} {width : Nat} {f : Flags}
    (hd : Ascii ds) (hp : Ascii pre) (hz : f.zero = true → f.minus = false) :
    intWithPrefix neg ds pre width f = layout f.minus f.zero (signOf neg f ++ pre) '0' ds width := by
  have hl : blen (signOf neg f ++ pre ++ ds) = (signOf neg f).length + pre.length + ds.length := by
    rw [blen_ascii (((ascii_sign neg f).append hp).append hd)]; simp [Nat.add_assoc]
  simp only [intWithPrefix, layout, applyWidth, hl, List.length_append]
  generalize signOf neg f = sg
  cases hzz : f.zero with
  | true =>
    rw [hz hzz]
    by_cases hw : width > sg.length + pre.length + ds.length
    · simp only [hw, and_self, if_true, Bool.false_eq_true, if_false]
      congr 3
      omega
    · have : width - (sg.length + pre.length + ds.length) = 0 := by omega
      simp [hw, this]
  | false =>
    simp only [Bool.false_eq_true, false_and, if_false]
    by_cases hw : sg.length + pre.length + ds.length ≥ width
    · have : width - (sg.length + pre.length + ds.length) = 0 := by omega
      rw [if_pos hw, this]
      cases f.minus <;> simp
    · rw [if_neg hw]
      cases f.minus <;> simp

theorem negTc_layout {n b : Nat} {up : Bool} {prec : Option Nat} {pre : List Char} {width : Nat} {f : Flags}
    (hb : 2 ≤ b) (hb' : b ≤ 16) (hn : 0 < n) (hp : Ascii pre) (hz : f.zero = true → f.minus = false) :
    negTc n b up prec pre width f = layout f.minus f.zero (pre ++ ['.', '.']) (dchar up (b - 1))
      (match prec with
        | none => (negDigits b n).map (dchar up)
        | some p => List.replicate (p - 2 - ((negDigits b n).map (dchar up)).length) (dchar up (b - 1)) ++
            (negDigits b n).map (dchar up)) width := by
  have ha : Ascii ((negDigits b n).map (dchar up)) := ascii_digits hb' (negDigits_spec hb hn).2.1 up
  have key : ∀ ds : List Char, Ascii ds →
      (if f.zero ∧ !f.minus ∧ width > pre.length + 2 + ds.length then
        pre ++ ['.', '.'] ++ List.replicate (width - (pre.length + 2 + ds.length)) (dchar up (b - 1)) ++ ds
      else applyWidth (pre ++ ['.', '.'] ++ ds) width f.minus) =
      layout f.minus f.zero (pre ++ ['.', '.']) (dchar up (b - 1)) ds width := by
    intro ds hd
    have hdot : Ascii ['.', '.'] := by intro c hc; simp at hc; subst hc; decide
    have hl : blen (pre ++ ['.', '.'] ++ ds) = pre.length + 2 + ds.length := by
      rw [blen_ascii ((hp.append hdot).append hd)]; simp [Nat.add_assoc]; omega
    have hl2 : (pre ++ ['.', '.']).length = pre.length + 2 := by simp
    simp only [layout, applyWidth, hl, hl2]
    cases hzz : f.zero with
    | true =>
      rw [hz hzz]
      by_cases hw : width > pre.length + 2 + ds.length
      · simp [hw]
      · have : width - (pre.length + 2 + ds.length) = 0 := by omega
        simp [hw, this]
    | false =>
      simp only [Bool.false_eq_true, false_and, if_false]
      by_cases hw : pre.length + 2 + ds.length ≥ width
      · have : width - (pre.length + 2 + ds.length) = 0 := by omega
        rw [if_pos hw, this]
        cases f.minus <;> simp
      · rw [if_neg hw]
        cases f.minus <;> simp
  cases prec with
  | none => exact key _ ha
  | some p =>
    simp only [negTc]
    rw [key _ ((ascii_replicate (dchar_ascii up _ (by omega)) _).append ha)]
    congr 3
    omega

theorem applyPrec_digits {b : Nat} (hb : 2 ≤ b) (hb' : b ≤ 16) (n : Int) (up : Bool) (prec : Option Nat) :
    applyPrec ((digs b n.natAbs).map (dchar up)) prec =
      (match prec with
        | none => (digs b n.natAbs).map (dchar up)
        | some p => if n = 0 ∧ p = 0 then [] else
            List.replicate (p - ((digs b n.natAbs).map (dchar up)).length) '0' ++
              (digs b n.natAbs).map (dchar up)) := by
  cases prec with
  | none => rfl
  | some p =>
    obtain ⟨h1, h2, h3, h4⟩ := digs_spec hb n.natAbs
    have : (digs b n.natAbs).map (dchar up) = ['0'] ↔ n = 0 := by
      constructor
      · intro h
        cases hq : digs b n.natAbs with
        | nil => exact absurd hq h3
        | cons x y =>
          rw [hq] at h
          simp only [List.map_cons, List.cons.injEq, List.map_eq_nil_iff] at h
          have hx := dchar_zero up x (Nat.lt_of_lt_of_le (h2 x (by simp [hq])) hb') h.1
          rw [hq, hx, h.2] at h1
          simp [val] at h1
          omega
      · intro h
        subst h
        rw [show (0 : Int).natAbs = 0 from rfl, digs, dif_pos (.inr (by omega))]
        cases up <;> rfl
    simp only [applyPrec, this, and_comm]

theorem ascii_core {b : Nat} (hb : 2 ≤ b) (hb' : b ≤ 16) (m : Nat) (up : Bool) (prec : Option Nat) :
    Ascii (applyPrec ((digs b m).map (dchar up)) prec) := by
  have ha : Ascii ((digs b m).map (dchar up)) := ascii_digits hb' (digs_spec hb m).2.1 up
  cases prec with
  | none => exact ha
  | some p =>
    simp only [applyPrec]
    split
    · intro c hc; simp at hc
    · exact (ascii_replicate (by decide) _).append ha

theorem base_ok (c : Conv) : 2 ≤ base c ∧ base c ≤ 16 := by cases c <;> simp [base]

theorem core_sm {c : Conv} {f : Flags} {prec : Option Nat} {n : Int} (h : twos c f n = false) :
    core c f prec n = applyPrec ((digs (base c) n.natAbs).map (dchar (upperOf c))) prec := by
  rw [applyPrec_digits (base_ok c).1 (base_ok c).2]
  simp only [core, h, Bool.false_eq_true, if_false]

theorem core_tc {c : Conv} {f : Flags} {prec : Option Nat} {n : Int} (h : twos c f n = true) :
    core c f prec n = (match prec with
        | none => (negDigits (base c) n.natAbs).map (dchar (upperOf c))
        | some p => List.replicate (p - 2 - ((negDigits (base c) n.natAbs).map (dchar (upperOf c))).length)
            (dchar (upperOf c) (base c - 1)) ++ (negDigits (base c) n.natAbs).map (dchar (upperOf c))) := by
  have hn : n ≠ 0 := by
    intro h0; subst h0; simp [twos] at h
  cases prec with
  | none => simp only [core, h, if_true]
  | some p => simp only [core, h, if_true, hn, false_and, if_false]

/-- The digits of a number other than zero are not `"0"`, whatever the precision. -/
theorem isZero_iff {b : Nat} (hb : 2 ≤ b) (hb' : b ≤ 16) {n : Int} {up : Bool} {prec : Option Nat}
    (h0 : n = 0 → ∀ p, prec = some p → p ≤ 1) :
    ((applyPrec ((digs b n.natAbs).map (dchar up)) prec).isEmpty ||
      applyPrec ((digs b n.natAbs).map (dchar up)) prec == ['0']) = decide (n = 0) := by
  obtain ⟨h1, h2, h3, h4⟩ := digs_spec hb n.natAbs
  by_cases hn : n = 0
  · subst hn
    rw [show (0 : Int).natAbs = 0 from rfl, digs, dif_pos (.inr (by omega))]
    cases prec with
    | none => cases up <;> rfl
    | some p =>
      have := h0 rfl p rfl
      have : p = 0 ∨ p = 1 := by omega
      rcases this with rfl | rfl <;> cases up <;> rfl
  · have hne : ∀ k, ¬ (List.replicate k '0' ++ (digs b n.natAbs).map (dchar up) = ['0']) := by
      intro k h
      cases hq : digs b n.natAbs with
      | nil => exact absurd hq h3
      | cons x y =>
        have hl := congrArg List.length h
        simp only [List.length_append, List.length_replicate, List.length_map, hq, List.length_cons,
          List.length_nil] at hl
        have hk : k = 0 := by omega
        have hy : y = [] := List.length_eq_zero_iff.1 (by omega)
        subst hk; subst hy
        rw [hq] at h
        simp at h
        have hx := dchar_zero up x (Nat.lt_of_lt_of_le (h2 x (by simp [hq])) hb') h
        rw [hq, hx] at h1
        simp [val] at h1
        omega
    have hme : (digs b n.natAbs).map (dchar up) ≠ [] := by simpa using h3
    have hd : decide (n = 0) = false := by simpa using hn
    rw [hd, applyPrec_digits hb hb']
    cases prec with
    | none =>
      have := hne 0
      simp only [List.replicate_zero, List.nil_append] at this
      simp only [Bool.or_eq_false_iff, List.isEmpty_eq_false_iff, beq_eq_false_iff_ne]
      exact ⟨hme, this⟩
    | some p =>
      simp only [hn, false_and, if_false, Bool.or_eq_false_iff, List.isEmpty_eq_false_iff,
        beq_eq_false_iff_ne]
      exact ⟨by simp [h3], hne _⟩

theorem ascii_pre (x : Char) (h : x.utf8Size = 1) (p : Bool) : Ascii (if p then ['0', x] else []) := by
  intro c hc
  split at hc
  · simp at hc
    rcases hc with rfl | rfl
    · decide
    · exact h
  · simp at hc

/-! ### Digits -/

/-- The digits written for a magnitude are those of the number: digits of the base, worth the number,
without a leading zero. -/
theorem C156_digits {b : Nat} (hb : 2 ≤ b) (n : Nat) :
    val b (digs b n) = n ∧ (∀ d ∈ digs b n, d < b) ∧ (n ≠ 0 → (digs b n).head? ≠ some 0) :=
  ⟨(digs_spec hb n).1, (digs_spec hb n).2.1, (digs_spec hb n).2.2.2⟩

/-- The digits written behind `..` for a negative number: they begin with the digit that goes on forever to
the left, they are worth the number modulo the power of the base, and no shorter list will do. -/
theorem C156_twos_complement {b n : Nat} (hb : 2 ≤ b) (hn : 0 < n) :
    (negDigits b n).head? = some (b - 1) ∧ (∀ d ∈ negDigits b n, d < b) ∧
    val b (negDigits b n) + n = b ^ (negDigits b n).length ∧
    ∀ es : List Nat, es.head? = some (b - 1) → (∀ d ∈ es, d < b) → val b es + n = b ^ es.length →
      (negDigits b n).length ≤ es.length := by
  obtain ⟨h1, h2, h3, h4⟩ := negDigits_spec hb hn
  refine ⟨h3, h2, h1, ?_⟩
  intro es e1 e2 e3
  refine Nat.le_of_not_lt fun hlt => ?_
  obtain ⟨k, hk⟩ : ∃ k, (negDigits b n).length = k + 1 + es.length :=
    ⟨(negDigits b n).length - es.length - 1, by omega⟩
  have hr := deficit_replicate hb n es e3 (k + 1)
  have heq : negDigits b n = List.replicate (k + 1) (b - 1) ++ es := by
    refine val_inj h2 ?_ (by simp [hk]) ?_
    · intro d hd
      rcases List.mem_append.1 hd with hd | hd
      · rw [(List.mem_replicate.1 hd).2]; omega
      · exact e2 d hd
    · rw [hk] at h1; omega
  rw [heq] at h4
  apply h4
  rw [List.replicate_succ, List.cons_append, List.tail_cons]
  cases k with
  | zero => simpa using e1
  | succ k => simp [List.replicate_succ]

/-! ### A directive for an Integer -/

/-- The field written for an Integer is the one the directive asks for: sign or two's complement, prefix,
digits filled to the precision, and the field filled to the width on the side and with the character the
flags say.  Not covered (see `C156_zero_precision_fails`, `C156_octal_prefix_fails`): the `0` flag together
with a precision; `#` with a negative number shown in octal with a sign and a precision; `#` with zero and a
precision above one.  `zero` and `minus` are settled before this is reached. -/
theorem C156_int_partial (c : Conv) (hc : c ≠ .s) (f : Flags) (width : Nat) (prec : Option Nat) (n : Int)
    (hz : f.zero = true → f.minus = false) (hzp : f.zero = true → prec = none)
    (ho : c = .o → f.hash = true → n < 0 → (f.plus || f.space) = true → prec = none)
    (h0 : n = 0 → f.hash = true → ∀ p, prec = some p → p ≤ 1) :
    emitInt c f width prec n = specInt c f width prec n := by
  have hzz : (f.zero && prec.isNone) = f.zero := by
    cases hf : f.zero with
    | false => rfl
    | true => rw [hzp hf]; rfl
  have hsm : ∀ (neg : Bool) (pre : List Char), neg = decide (n < 0) → twos c f n = false → Ascii pre →
      pre = prefixOf c f prec n →
      intWithPrefix neg (applyPrec ((digs (base c) n.natAbs).map (dchar (upperOf c))) prec) pre width f =
        specInt c f width prec n := by
    intro neg pre hneg ht hp hpe
    rw [intWithPrefix_layout (ascii_core (base_ok c).1 (base_ok c).2 _ _ _) hp hz]
    simp only [specInt, ht, hzz, core_sm ht, hpe, Bool.false_eq_true, if_false, List.append_nil]
    subst hneg
    simp only [signOf, decide_eq_true_eq]
  have htc : ∀ (pre : List Char), twos c f n = true → Ascii pre → pre = prefixOf c f prec n →
      negTc n.natAbs (base c) (upperOf c) prec pre width f = specInt c f width prec n := by
    intro pre ht hp hpe
    have hn : 0 < n.natAbs := by simp [twos] at ht; omega
    rw [negTc_layout (base_ok c).1 (base_ok c).2 hn hp hz]
    simp only [specInt, ht, hzz, core_tc ht, hpe, if_true, List.nil_append]
  have radix : ∀ p x, (c = .b (upperOf c) ∨ c = .x (upperOf c)) → p = ['0', x] → x.utf8Size = 1 →
      (prefixOf c f prec n = if f.hash && !decide (n = 0) then p else []) →
      (if n < 0 then
        if f.plus || f.space then
          intWithPrefix true (applyPrec ((digs (base c) n.natAbs).map (dchar (upperOf c))) prec)
            (if f.hash then p else []) width f
        else negTc n.natAbs (base c) (upperOf c) prec (if f.hash then p else []) width f
      else
        intWithPrefix false (applyPrec ((digs (base c) n.natAbs).map (dchar (upperOf c))) prec)
          (if f.hash && !((applyPrec ((digs (base c) n.natAbs).map (dchar (upperOf c))) prec).isEmpty ||
            applyPrec ((digs (base c) n.natAbs).map (dchar (upperOf c))) prec == ['0']) then p else [])
          width f) = specInt c f width prec n := by
    intro p x hcc hp hx hpre
    have hcd : (c != .d) = true := by rcases hcc with h | h <;> rw [h] <;> rfl
    subst hp
    by_cases hn : n < 0
    · have hn0 : n ≠ 0 := by omega
      simp only [hn0, decide_false, Bool.not_false, Bool.and_true] at hpre
      rw [if_pos hn]
      cases hps : (f.plus || f.space) with
      | true =>
        simp only [if_true]
        refine hsm _ _ (by simp [hn]) ?_ (ascii_pre x hx _) hpre.symm
        simp [twos]
        intro _ _ hpl
        simpa [hpl] using hps
      | false =>
        simp only [Bool.false_eq_true, if_false]
        refine htc _ ?_ (ascii_pre x hx _) hpre.symm
        simp only [Bool.or_eq_false_iff] at hps
        simp [twos, hn, hcd, hps.1, hps.2]
    · rw [if_neg hn]
      refine hsm _ _ (by simp [hn]) (by simp [twos, hn]) (ascii_pre x hx _) ?_
      rw [hpre]
      cases hh : f.hash with
      | false => simp
      | true => rw [isZero_iff (base_ok c).1 (base_ok c).2 (fun h => h0 h hh)]
  cases c with
  | s => exact absurd rfl hc
  | d =>
    refine hsm _ _ rfl (by simp [twos]) (by intro c hc; simp at hc) ?_
    simp [prefixOf]
  | b u =>
    refine radix _ (if u then 'B' else 'b') (.inl rfl) (by cases u <;> rfl) (by cases u <;> decide) ?_
    simp only [prefixOf]
    cases f.hash <;> by_cases hn : n = 0 <;> cases u <;> simp [hn]
  | x u =>
    refine radix _ (if u then 'X' else 'x') (.inr rfl) (by cases u <;> rfl) (by cases u <;> decide) ?_
    simp only [prefixOf]
    cases f.hash <;> by_cases hn : n = 0 <;> cases u <;> simp [hn]
  | o =>
    have hz1 : ∀ p : Bool, Ascii (if p then ['0'] else []) := by
      intro p c hc
      cases p <;> simp at hc
      subst hc; decide
    simp only [emitInt]
    by_cases hn : n < 0
    · rw [if_pos hn]
      cases hps : (f.plus || f.space) with
      | true =>
        have ht : twos .o f n = false := by
          simp [twos]
          intro _ hpl
          simpa [hpl] using hps
        simp only [if_true]
        refine hsm _ _ (by simp [hn]) ht (hz1 _) ?_
        simp only [prefixOf, ht]
        cases hh : f.hash with
        | false => simp
        | true =>
          have hpn := ho rfl hh hn hps
          have hhd : (core .o f prec n).head? ≠ some '0' := by
            rw [core_sm ht, hpn]
            obtain ⟨h1, h2, h3, h4⟩ := digs_spec (b := 8) (by decide) n.natAbs
            simp only [applyPrec, base]
            cases hq : digs 8 n.natAbs with
            | nil => exact absurd hq h3
            | cons x y =>
              simp only [List.map_cons, List.head?_cons, ne_eq, Option.some.injEq]
              intro hx
              have := dchar_zero _ x (Nat.lt_trans (h2 x (by simp [hq])) (by decide)) hx
              apply h4 (by omega)
              rw [hq, this]; rfl
          simp [hhd]
      | false =>
        simp only [Bool.false_eq_true, if_false]
        have ht : twos .o f n = true := by
          simp only [Bool.or_eq_false_iff] at hps
          simp [twos, hn, hps.1, hps.2]
        refine htc _ ht (by intro c hc; simp at hc) ?_
        simp [prefixOf, ht]
    · rw [if_neg hn]
      have ht : twos .o f n = false := by simp [twos, hn]
      refine hsm _ _ (by simp [hn]) ht (hz1 _) ?_
      simp only [prefixOf, ht, core_sm ht]
      cases f.hash with
      | false => simp
      | true =>
        simp only [base, upperOf, Bool.true_and, Bool.not_true, Bool.false_eq_true, if_false, false_or]
        by_cases hq : (applyPrec ((digs 8 n.natAbs).map (dchar false)) prec).head? = some '0'
        · simp [hq]
        · have : ((applyPrec ((digs 8 n.natAbs).map (dchar false)) prec).head? != some '0') = true := by
            simpa using hq
          simp [hq]

/-- `"%08x" % -255` -/
example : emitInt (.x false) { zero := true } 8 none (-255) = "..ffff01".toList := by
  simp [emitInt, negTc, negDigits, digs, addOne]; decide

example : emitInt (.x true) { hash := true, minus := true } 8 (some 5) 255 = "0X000FF ".toList := by
  simp [emitInt, digs]; decide

/-- A precision does not turn the `0` flag off: `"%010.5d" % 42` is `"0000000042"`, not `"     00042"`. -/
theorem C156_zero_precision_fails :
    emitInt .d { zero := true } 10 (some 5) 42 = "0000000042".toList ∧
    specInt .d { zero := true } 10 (some 5) 42 = "     00042".toList := by
  constructor
  · simp [emitInt, digs]; decide
  · simp [specInt, core, twos, base, digs]; decide

/-- `"%+#.5o" % -8` has six digits: the prefix is put in front of zeros the precision brought. -/
theorem C156_octal_prefix_fails :
    emitInt .o { plus := true, hash := true } 0 (some 5) (-8) = "-000010".toList ∧
    specInt .o { plus := true, hash := true } 0 (some 5) (-8) = "-00010".toList := by
  constructor
  · simp [emitInt, digs]; decide
  · simp [specInt, prefixOf, core, twos, base, digs]; decide

/-! ### A directive for a String -/

/-- An ASCII string is cut to the precision and filled to the width, in characters. -/
theorem C156_str_partial (f : Flags) (width : Nat) (prec : Option Nat) (cs : List Char) (ha : Ascii cs) :
    emitStr f width prec cs =
      layout f.minus false [] ' ' (match prec with | none => cs | some p => cs.take p) width := by
  have key : ∀ s, Ascii s → applyWidth s width f.minus = layout f.minus false [] ' ' s width := by
    intro s hs
    simp only [applyWidth, blen_ascii hs, layout, List.length_nil, Nat.zero_add, List.nil_append,
      Bool.false_eq_true, if_false, List.append_nil]
    by_cases h : s.length ≥ width
    · have : width - s.length = 0 := by omega
      rw [if_pos h, this]
      cases f.minus <;> simp
    · rw [if_neg h]
  cases prec with
  | none => exact key _ ha
  | some p =>
    simp only [emitStr]
    by_cases h : cs.length > p
    · rw [if_pos h]
      exact key _ (fun c hc => ha c (List.mem_of_mem_take hc))
    · rw [if_neg h, List.take_of_length_le (by omega)]
      exact key _ ha

example : emitStr { minus := true } 5 (some 2) "hello".toList = "he   ".toList := by decide

/-- The width counts bytes: `"%5s" % "é"` has three spaces, not four. -/
theorem C156_width_fails :
    emitStr {} 5 none ['é'] = [' ', ' ', ' ', 'é'] ∧
    layout false false [] ' ' ['é'] 5 = [' ', ' ', ' ', ' ', 'é'] := by
  constructor <;> decide +kernel

end Verif.Sprintf
