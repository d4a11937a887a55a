import Verif.Text.NumModel
import Mathlib.Tactic.SplitIfs
import Mathlib.Tactic.Linarith
import Mathlib.Data.Nat.Bitwise

/-! # C133: numbers in strings -/

namespace Verif.Text

/-- the number written by digits -/
def numOf (r : Nat) (ds : List Nat) : Nat := ds.foldl (fun acc c => acc * r + (toDigit r c).getD 0) 0

/-- a digit of the radix -/
def IsDigit (r c : Nat) : Prop := ∃ d, toDigit r c = some d

/-- a number of digits in groups, one underscore between two -/
def Groups (r : Nat) (gs : List (List Nat)) : Prop :=
  gs ≠ [] ∧ ∀ g ∈ gs, g ≠ [] ∧ ∀ c ∈ g, IsDigit r c

/-- the text after a number does not continue it -/
def Ends (r : Nat) (rest : List Nat) : Prop :=
  ∀ c t, rest = c :: t → ¬ IsDigit r c ∧ (c = 95 → ∀ d u, t = d :: u → ¬ IsDigit r d)

theorem toDigit_ne {r c d : Nat} (h : toDigit r c = some d) :
    c ≠ 95 ∧ c ≠ 45 ∧ c ≠ 43 ∧ asciiWs c = false ∧ d < r ∧ uniWs c = false := by
  have hd : d < r := by
    unfold toDigit at h
    simp only at h
    split at h
    · split_ifs at h
      cases h; assumption
    · cases h
  have hc : (48 ≤ c ∧ c ≤ 57) ∨ (97 ≤ c ∧ c ≤ 122) ∨ (65 ≤ c ∧ c ≤ 90) := by
    unfold toDigit at h
    by_contra hc
    rw [if_neg (by omega), if_neg (by omega), if_neg (by omega)] at h
    cases h
  refine ⟨by omega, by omega, by omega, ?_, hd, ?_⟩
  · simp only [asciiWs, Bool.or_eq_false_iff, decide_eq_false_iff_not]; omega
  · simp only [uniWs, Bool.or_eq_false_iff, Bool.and_eq_false_iff, decide_eq_false_iff_not]; omega

theorem toDigit_95 (r : Nat) : toDigit r 95 = none := by
  cases h : toDigit r 95 with
  | none => rfl
  | some d => exact absurd rfl (toDigit_ne h).1

/-- digits, then `rest` -/
theorem scan_digits (r : Nat) (lim : Option Nat) (ds rest : List Nat) (hd : ∀ c ∈ ds, IsDigit r c)
    (sg : Bool) (und : Bool) (acc : Nat) :
    scan r lim (some sg) und acc (ds ++ rest) =
      if (∀ k, k < ds.length → lim.all ((ds.take (k + 1)).foldl (fun a c => a * r + (toDigit r c).getD 0) acc ≤ ·) = true)
      then scan r lim (some sg) (und || !ds.isEmpty)
        (ds.foldl (fun a c => a * r + (toDigit r c).getD 0) acc) rest
      else none := by
  induction ds generalizing und acc with
  | nil => simp
  | cons c t ih =>
    obtain ⟨d, hdc⟩ := hd c (by simp)
    have hne := toDigit_ne hdc
    rw [List.cons_append, scan, if_neg (by simp [hne.1]), if_neg (by simp), if_neg (by simp)]
    simp only [reduceCtorEq, if_false, hdc]
    by_cases hl : lim.all (acc * r + d ≤ ·) = true
    · rw [if_pos hl, ih (fun x hx => hd x (by simp [hx]))]
      have hiff : (∀ k, k < t.length → lim.all ((t.take (k + 1)).foldl
            (fun a c => a * r + (toDigit r c).getD 0) (acc * r + d) ≤ ·) = true) ↔
          (∀ k, k < (c :: t).length → lim.all (((c :: t).take (k + 1)).foldl
            (fun a c => a * r + (toDigit r c).getD 0) acc ≤ ·) = true) := by
        constructor
        · intro h k hk
          cases k with
          | zero => simpa [hdc] using hl
          | succ k =>
            have := h k (by simpa using hk)
            simpa [hdc] using this
        · intro h k hk
          have := h (k + 1) (by simpa using hk)
          simpa [hdc] using this
      simp only [hiff]
      split_ifs
      · simp [hdc]
      · rfl
    · rw [if_neg hl, if_neg]
      intro h
      apply hl
      have := h 0 (by simp)
      simpa [hdc] using this

theorem foldl_ge (r : Nat) (hr : 0 < r) (ds : List Nat) (acc : Nat) :
    acc ≤ ds.foldl (fun a c => a * r + (toDigit r c).getD 0) acc := by
  induction ds generalizing acc with
  | nil => exact Nat.le_refl _
  | cons c t ih =>
    refine Nat.le_trans ?_ (ih _)
    have := Nat.le_mul_of_pos_right acc hr
    show acc ≤ acc * r + (toDigit r c).getD 0
    omega

/-- without a limit -/
theorem scan_digits_none (r : Nat) (ds rest : List Nat) (hd : ∀ c ∈ ds, IsDigit r c)
    (sg : Bool) (und : Bool) (acc : Nat) :
    scan r none (some sg) und acc (ds ++ rest) = scan r none (some sg) (und || !ds.isEmpty)
        (ds.foldl (fun a c => a * r + (toDigit r c).getD 0) acc) rest := by
  rw [scan_digits r none ds rest hd, if_pos (by intro k _; rfl)]

/-- with a limit -/
theorem scan_digits_some (r : Nat) (hr : 0 < r) (m : Nat) (ds rest : List Nat) (hd : ∀ c ∈ ds, IsDigit r c)
    (sg : Bool) (und : Bool) (acc : Nat) (hne : ds ≠ []) :
    scan r (some m) (some sg) und acc (ds ++ rest) =
      if ds.foldl (fun a c => a * r + (toDigit r c).getD 0) acc ≤ m then
        scan r (some m) (some sg) true (ds.foldl (fun a c => a * r + (toDigit r c).getD 0) acc) rest
      else none := by
  have hlen : 0 < ds.length := List.length_pos_iff.2 hne
  rw [scan_digits r (some m) ds rest hd]
  have hiff : (∀ k, k < ds.length → (some m).all ((ds.take (k + 1)).foldl
      (fun a c => a * r + (toDigit r c).getD 0) acc ≤ ·) = true) ↔
      ds.foldl (fun a c => a * r + (toDigit r c).getD 0) acc ≤ m := by
    simp only [Option.all_some, decide_eq_true_eq]
    constructor
    · intro h
      have := h (ds.length - 1) (by omega)
      rwa [Nat.sub_add_cancel hlen, List.take_length] at this
    · intro h k _
      refine Nat.le_trans ?_ h
      conv_rhs => rw [← List.take_append_drop (k + 1) ds]
      rw [List.foldl_append]
      exact foldl_ge r hr _ _
  simp only [hiff]
  have : ds.isEmpty = false := by cases ds; exact absurd rfl hne; rfl
  rw [this]
  simp

theorem scan_ends (r : Nat) (lim : Option Nat) (rest : List Nat) (h : Ends r rest) (sg : Bool)
    (acc : Nat) : scan r lim (some sg) true acc rest = some (acc, some sg) := by
  have stop : ∀ und (c : Nat) (t : List Nat), ¬ IsDigit r c → ¬ (und = true ∧ c = 95) →
      scan r lim (some sg) und acc (c :: t) = some (acc, some sg) := by
    intro und c t hc hu
    rw [scan, if_neg hu, if_neg (by simp), if_neg (by simp)]
    cases hdc : toDigit r c with
    | some d => exact absurd ⟨d, hdc⟩ hc
    | none => simp
  cases rest with
  | nil => rfl
  | cons c t =>
    obtain ⟨h1, h2⟩ := h c t rfl
    by_cases hc : c = 95
    · rw [scan, if_pos ⟨rfl, hc⟩]
      cases t with
      | nil => rfl
      | cons d u => exact stop false d u (h2 hc d u rfl) (by simp)
    · exact stop true c t h1 (by simp [hc])

theorem numOf_append (r : Nat) (a b : List Nat) :
    numOf r (a ++ b) = b.foldl (fun acc c => acc * r + (toDigit r c).getD 0) (numOf r a) := by
  unfold numOf
  rw [List.foldl_append]

theorem intercalate_two' (s a b : List Nat) (l : List (List Nat)) :
    List.intercalate s (a :: b :: l) = a ++ (s ++ List.intercalate s (b :: l)) := by
  simp [List.intercalate, List.intersperse]

/-- a whole number in groups, with the value so far -/
theorem scan_groups (r : Nat) (hr : 0 < r) (lim : Option Nat) (gs : List (List Nat)) (rest : List Nat)
    (hg : Groups r gs) (he : Ends r rest) (sg und : Bool) (acc : Nat) :
    scan r lim (some sg) und acc (List.intercalate [95] gs ++ rest) =
      if lim.all (gs.flatten.foldl (fun a c => a * r + (toDigit r c).getD 0) acc ≤ ·) = true then
        some (gs.flatten.foldl (fun a c => a * r + (toDigit r c).getD 0) acc, some sg)
      else none := by
  obtain ⟨hne, hg⟩ := hg
  induction gs generalizing acc und with
  | nil => exact absurd rfl hne
  | cons g l ih =>
    obtain ⟨hg1, hg2⟩ := hg g (by simp)
    cases l with
    | nil =>
      have : List.intercalate [95] [g] = g := by simp [List.intercalate]
      rw [this]
      simp only [List.flatten_cons, List.flatten_nil, List.append_nil]
      cases lim with
      | none =>
        rw [scan_digits_none r g rest hg2]
        have : (und || !g.isEmpty) = true := by cases g; exact absurd rfl hg1; simp
        rw [this, scan_ends r none rest he]
        simp
      | some m =>
        rw [scan_digits_some r hr m g rest hg2 sg und acc hg1, scan_ends r (some m) rest he]
        simp
    | cons b l =>
      rw [intercalate_two', List.append_assoc, List.append_assoc, List.flatten_cons, List.foldl_append]
      have ih' := fun und acc => ih und acc (by simp) (fun x hx => hg x (by simp [hx]))
      have hstep : ∀ acc, scan r lim (some sg) true acc ([95] ++ (List.intercalate [95] (b :: l) ++ rest)) =
          scan r lim (some sg) false acc (List.intercalate [95] (b :: l) ++ rest) := by
        intro acc
        rw [List.cons_append, scan, if_pos ⟨rfl, rfl⟩]
        rfl
      cases lim with
      | none =>
        rw [scan_digits_none r g _ hg2]
        have : (und || !g.isEmpty) = true := by cases g; exact absurd rfl hg1; simp
        rw [this, hstep, ih']
      | some m =>
        rw [scan_digits_some r hr m g _ hg2 sg und acc hg1, hstep, ih']
        by_cases hle : g.foldl (fun a c => a * r + (toDigit r c).getD 0) acc ≤ m
        · rw [if_pos hle]
        · rw [if_neg hle, if_neg]
          simp only [Option.all_some, decide_eq_true_eq]
          intro hx
          exact hle (Nat.le_trans (foldl_ge r hr _ _) hx)

theorem groups_head {r : Nat} {gs : List (List Nat)} (hg : Groups r gs) :
    ∃ c t, List.intercalate [95] gs = c :: t ∧ IsDigit r c := by
  obtain ⟨hne, hg⟩ := hg
  cases gs with
  | nil => exact absurd rfl hne
  | cons g l =>
    obtain ⟨hg1, hg2⟩ := hg g (by simp)
    cases g with
    | nil => exact absurd rfl hg1
    | cons c t =>
      cases l with
      | nil => exact ⟨c, t, by simp [List.intercalate], hg2 c (by simp)⟩
      | cons b l => exact ⟨c, t ++ ([95] ++ List.intercalate [95] (b :: l)),
          by rw [intercalate_two']; rfl, hg2 c (by simp)⟩

/-- the first step, which settles the sign -/
theorem scan_first {r : Nat} {lim : Option Nat} {c : Nat} {t : List Nat} (h : IsDigit r c) (acc : Nat) :
    scan r lim none false acc (c :: t) = scan r lim (some false) false acc (c :: t) := by
  obtain ⟨d, hd⟩ := h
  have hne := toDigit_ne hd
  simp [scan, hne.2.1, hne.2.2.1]

theorem parseIntValue_groups (r : Nat) (hr : 0 < r) (gs : List (List Nat)) (rest : List Nat)
    (hg : Groups r gs) (he : Ends r rest) (neg : Bool) :
    parseIntValue (List.intercalate [95] gs ++ rest) r neg =
      if neg then -(numOf r gs.flatten : Int) else numOf r gs.flatten := by
  obtain ⟨c, t, hc, hd⟩ := groups_head hg
  have hdrop : (List.intercalate [95] gs ++ rest).dropWhile asciiWs = List.intercalate [95] gs ++ rest := by
    obtain ⟨d, hd⟩ := hd
    rw [hc, List.cons_append, List.dropWhile_cons_of_neg]
    rw [(toDigit_ne hd).2.2.2.1]
    simp
  have hscan : ∀ lim, scan r lim none false 0 (List.intercalate [95] gs ++ rest) =
      scan r lim (some false) false 0 (List.intercalate [95] gs ++ rest) := by
    intro lim
    rw [hc, List.cons_append]
    exact scan_first hd 0
  unfold parseIntValue parseI64 parseBigint
  rw [hdrop, hscan, hscan, scan_groups r hr _ gs rest hg he, scan_groups r hr _ gs rest hg he]
  simp only [Option.all_none, if_true]
  by_cases hle : (some (2 ^ 63 - 1)).all ((gs.flatten.foldl (fun a c => a * r + (toDigit r c).getD 0) 0) ≤ ·) = true
  · rw [if_pos hle]; rfl
  · rw [if_neg hle]
    simp only [Option.map_none, Option.some.injEq, Bool.false_eq_true, if_false]
    rfl

/-- a sign, or nothing -/
def signText : Option Bool → List Nat
  | none => []
  | some true => [45]
  | some false => [43]

theorem toI_sign (ws : List Nat) (hws : ∀ c ∈ ws, uniWs c = true) (sg : Option Bool) (c : Nat) (t : List Nat)
    (r : Nat) (hc : IsDigit r c) :
    stripSign ((ws ++ signText sg ++ c :: t).dropWhile uniWs) = (c :: t, decide (sg = some true)) := by
  obtain ⟨d, hd⟩ := hc
  have hne := toDigit_ne hd
  rw [List.append_assoc, List.dropWhile_append_of_pos hws]
  rcases sg with _ | _ | _
  · simp only [signText, List.nil_append]
    rw [List.dropWhile_cons_of_neg (by simp [hne.2.2.2.2.2])]
    unfold stripSign
    split
    · rename_i heq; simp at heq; exact absurd heq.1 hne.2.1
    · rename_i heq; simp at heq; exact absurd heq.1 hne.2.2.1
    · simp
  · simp only [signText, List.cons_append, List.nil_append]
    rw [List.dropWhile_cons_of_neg (by decide)]
    simp [stripSign]
  · simp only [signText, List.cons_append, List.nil_append]
    rw [List.dropWhile_cons_of_neg (by decide)]
    simp [stripSign]

theorem signed_digit {r c : Nat} (t : List Nat) (h : IsDigit r c) : signed (c :: t) = false := by
  obtain ⟨d, hd⟩ := h
  have hne := toDigit_ne hd
  simp [signed, hne.2.1, hne.2.2.1]

/-- no prefix of a radix in front -/
def NoPrefix (s : List Nat) : Prop := ∀ c t, s = 48 :: c :: t → c ∉ [66, 68, 79, 88, 98, 100, 111, 120]

theorem stripPre_none {s : List Nat} (h : NoPrefix s) (l : Nat) (hl : l ∈ [98, 100, 111, 120]) :
    stripPre l s = none := by
  unfold stripPre
  split
  · rename_i c t
    have := h c t rfl
    rw [if_neg]
    simp only [List.mem_cons, List.not_mem_nil, or_false, not_or] at this hl
    omega
  · rfl

theorem stripIntPrefix_none {s : List Nat} (h : NoPrefix s) (radix : Nat) (hr : radix ≠ 0) :
    stripIntPrefix s radix = (s, radix) := by
  unfold stripIntPrefix tryStrip
  simp only [stripPre_none h 120 (by simp), stripPre_none h 98 (by simp), stripPre_none h 100 (by simp),
    stripPre_none h 111 (by simp), ite_self, hr, if_false]

/-- C133: `to_i(radix)` of white space, a sign, digits in groups with underscores, and a rest that
does not continue the number, is that number, however large. -/
theorem C133_to_i (r : Nat) (hr : 2 ≤ r) (ws : List Nat) (hws : ∀ c ∈ ws, uniWs c = true)
    (sg : Option Bool) (gs : List (List Nat)) (hg : Groups r gs) (rest : List Nat) (he : Ends r rest)
    (hp : NoPrefix (List.intercalate [95] gs ++ rest)) :
    toI (ws ++ signText sg ++ (List.intercalate [95] gs ++ rest)) r =
      if sg = some true then -(numOf r gs.flatten : Int) else numOf r gs.flatten := by
  obtain ⟨c, t, hc, hd⟩ := groups_head hg
  have hcr : List.intercalate [95] gs ++ rest = c :: (t ++ rest) := by rw [hc]; rfl
  unfold toI toITail
  rw [hcr, toI_sign ws hws sg c (t ++ rest) r hd]
  simp only [signed_digit _ hd, Bool.false_eq_true, if_false]
  rw [← hcr, stripIntPrefix_none hp r (by omega)]
  simp only
  rw [hcr, signed_digit _ hd, ← hcr]
  simp only [Bool.false_eq_true, if_false]
  rw [parseIntValue_groups r (by omega) gs rest hg he]
  simp

-- " -12_3x" in base 10
example : toI [32, 45, 49, 50, 95, 51, 120] 10 = -123 := by decide +kernel

/-- C133: with the prefix of its radix, `0x1f`, `0b11`, `0o17`, `0d9`, in radix 0 and in the radix
the prefix names. -/
theorem C133_prefix (l base : Nat) (hl : (l, base) ∈ [(120, 16), (98, 2), (100, 10), (111, 8)])
    (up : Bool) (radix : Nat) (hr : radix = 0 ∨ radix = base)
    (ws : List Nat) (hws : ∀ c ∈ ws, uniWs c = true) (sg : Option Bool)
    (gs : List (List Nat)) (hg : Groups base gs) (rest : List Nat) (he : Ends base rest) :
    toI (ws ++ signText sg ++ (48 :: (if up then l - 32 else l) :: (List.intercalate [95] gs ++ rest))) radix =
      if sg = some true then -(numOf base gs.flatten : Int) else numOf base gs.flatten := by
  obtain ⟨c, t, hc, hd⟩ := groups_head hg
  have hcr : List.intercalate [95] gs ++ rest = c :: (t ++ rest) := by rw [hc]; rfl
  have h0 : IsDigit 10 48 := ⟨0, rfl⟩
  unfold toI toITail
  rw [toI_sign ws hws sg 48 _ 10 h0]
  simp only [signed_digit _ h0, Bool.false_eq_true, if_false]
  generalize hX : List.intercalate [95] gs ++ rest = X at hcr
  have hpre : stripIntPrefix (48 :: (if up then l - 32 else l) :: X) radix = (X, base) := by
    simp only [List.mem_cons, Prod.mk.injEq, List.not_mem_nil, or_false] at hl
    rcases hl with ⟨rfl, rfl⟩ | ⟨rfl, rfl⟩ | ⟨rfl, rfl⟩ | ⟨rfl, rfl⟩ <;> cases up <;>
      rcases hr with rfl | rfl <;> rfl
  rw [hpre]
  simp only
  rw [hcr, signed_digit _ hd, ← hcr, ← hX]
  simp only [Bool.false_eq_true, if_false]
  have hb : 0 < base := by
    simp only [List.mem_cons, Prod.mk.injEq, List.not_mem_nil, or_false] at hl; omega
  rw [parseIntValue_groups base hb gs rest hg he]
  simp

example : toI [48, 120, 49, 102] 16 = 31 ∧ toI [48, 98, 49, 49] 0 = 3 := by decide +kernel

/-- C133: a string whose first character after white space and a sign is no digit is 0. -/
theorem C133_no_digits (r : Nat) (hr : 2 ≤ r) (ws : List Nat) (hws : ∀ c ∈ ws, uniWs c = true)
    (sg : Option Bool) (c : Nat) (t : List Nat) (hc : ¬ IsDigit r c) (hw : uniWs c = false)
    (hs : sg = none → c ≠ 45 ∧ c ≠ 43) :
    toI (ws ++ signText sg ++ c :: t) r = 0 := by
  have haw : asciiWs c = false := by
    simp only [uniWs, Bool.or_eq_false_iff, Bool.and_eq_false_iff, decide_eq_false_iff_not] at hw
    simp only [asciiWs, Bool.or_eq_false_iff, decide_eq_false_iff_not]
    omega
  have h48 : c ≠ 48 := by
    rintro rfl
    apply hc
    refine ⟨0, ?_⟩
    simp [toDigit]; omega
  have key : ∀ neg, signed (c :: t) = false → parseIntValue (c :: t) r neg = 0 := by
    intro neg hs
    simp only [signed, List.head?_cons, Option.some.injEq, Bool.or_eq_false_iff, decide_eq_false_iff_not] at hs
    unfold parseIntValue parseI64
    rw [List.dropWhile_cons_of_neg (by simp [haw]), scan, if_neg (by simp), if_neg (by simp [hs.2]),
      if_neg (by simp [hs.1])]
    cases hdc : toDigit r c with
    | some d => exact absurd ⟨d, hdc⟩ hc
    | none => simp
  have hnp : NoPrefix (c :: t) := by
    intro d u h
    simp at h
    exact absurd h.1 h48
  have fin : ∀ neg, toITail (c :: t, neg) r = 0 := by
    intro neg
    unfold toITail
    by_cases hs : signed (c :: t) = true
    · rw [if_pos hs]
    · rw [if_neg hs, stripIntPrefix_none hnp r (by omega)]
      simp only
      rw [if_neg hs, key neg (by simpa using hs)]
  unfold toI
  rw [List.append_assoc, List.dropWhile_append_of_pos hws]
  rcases sg with _ | _ | _
  · simp only [signText, List.nil_append]
    rw [List.dropWhile_cons_of_neg (by simp [hw])]
    obtain ⟨h1, h2⟩ := hs rfl
    have : stripSign (c :: t) = (c :: t, false) := by
      unfold stripSign
      split
      · rename_i heq; simp at heq; exact absurd heq.1 h1
      · rename_i heq; simp at heq; exact absurd heq.1 h2
      · rfl
    rw [this]
    exact fin false
  · simp only [signText, List.cons_append, List.nil_append]
    rw [List.dropWhile_cons_of_neg (by decide)]
    exact fin false
  · simp only [signText, List.cons_append, List.nil_append]
    rw [List.dropWhile_cons_of_neg (by decide)]
    exact fin true

example : toI [45, 120] 10 = 0 ∧ toI [95, 49] 10 = 0 := by decide +kernel

theorem toDigit_digit (r d : Nat) (hr : r ≤ 36) (hd : d < r) :
    toDigit r (if d < 10 then 48 + d else 87 + d) = some d := by
  unfold toDigit
  by_cases h : d < 10
  · rw [if_pos h, if_pos (by omega)]
    simp only [Nat.add_sub_cancel_left, if_pos hd]
  · rw [if_neg h, if_neg (by omega), if_pos (by omega)]
    have : 87 + d - 97 + 10 = d := by omega
    simp only [this, if_pos hd]

theorem digitsRev_spec (r : Nat) (hr : 2 ≤ r) (hr' : r ≤ 36) (f n : Nat) (hf : n < f) :
    (∀ c ∈ digitsRev r f n, IsDigit r c) ∧ digitsRev r f n ≠ [] ∧
      numOf r (digitsRev r f n).reverse = n ∧
      (0 < n → ∀ t, (digitsRev r f n).reverse ≠ 48 :: t) ∧ (n < r → (digitsRev r f n).length = 1) := by
  induction f generalizing n with
  | zero => omega
  | succ f ih =>
    have hmod : n % r < r := Nat.mod_lt _ (by omega)
    have hdig := toDigit_digit r (n % r) hr' hmod
    rw [digitsRev]
    by_cases hn : n < r
    · rw [if_pos hn]
      have hm : n % r = n := Nat.mod_eq_of_lt hn
      rw [hm] at hdig ⊢
      refine ⟨?_, by simp, ?_, ?_, fun _ => rfl⟩
      · intro c hc
        simp only [List.mem_singleton] at hc
        subst hc
        exact ⟨n, hdig⟩
      · simp [numOf, hdig]
      · intro hp t
        simp only [List.reverse_singleton, ne_eq, List.cons.injEq, not_and]
        intro h
        split_ifs at h <;> omega
    · rw [if_neg hn]
      have hlt : n / r < n := Nat.div_lt_self (by omega) (by omega)
      have hpos : 0 < n / r := Nat.div_pos (by omega) (by omega)
      obtain ⟨h1, h2, h3, h4, _⟩ := ih (n / r) (by omega)
      refine ⟨?_, by simp, ?_, ?_, fun h => absurd h hn⟩
      · intro c hc
        rcases List.mem_cons.1 hc with rfl | hc
        · exact ⟨_, hdig⟩
        · exact h1 c hc
      · rw [List.reverse_cons, numOf_append, h3]
        simp only [List.foldl_cons, List.foldl_nil, hdig, Option.getD_some]
        exact Nat.div_add_mod' n r
      · intro _ t
        rw [List.reverse_cons]
        intro h
        cases hrev : (digitsRev r f (n / r)).reverse with
        | nil => simp at hrev; exact h2 hrev
        | cons a u =>
          rw [hrev, List.cons_append] at h
          have : a = 48 := by simpa using (List.cons.inj h).1
          exact h4 hpos u (by rw [hrev, this])

/-- C133: what `to_s(radix)` writes, `to_i(radix)` reads back: for every Integer, bignums included,
and every radix. -/
theorem C133_round_trip (r : Nat) (hr : 2 ≤ r) (hr' : r ≤ 36) (n : Int) : toI (intToS r n) r = n := by
  obtain ⟨h1, h2, h3, h4, h5⟩ := digitsRev_spec r hr hr' (n.natAbs + 1) n.natAbs (Nat.lt_succ_self _)
  generalize hD : (digitsRev r (n.natAbs + 1) n.natAbs).reverse = D at h3 h4
  have hDne : D ≠ [] := by rw [← hD]; simpa using h2
  have hDd : ∀ c ∈ D, IsDigit r c := by
    intro c hc
    rw [← hD] at hc
    exact h1 c (by simpa using hc)
  have hlen : n.natAbs < r → D.length = 1 := by
    intro h
    rw [← hD, List.length_reverse]
    exact h5 h
  have hp : NoPrefix (List.intercalate [95] [D] ++ []) := by
    intro c t h
    have hDe : D = 48 :: c :: t := by simpa [List.intercalate] using h
    by_cases h0 : 0 < n.natAbs
    · exact absurd hDe (h4 h0 _)
    · have := hlen (by omega)
      rw [hDe] at this
      simp at this
  have hg : Groups r [D] := ⟨by simp, by intro g hg; simp at hg; subst hg; exact ⟨hDne, hDd⟩⟩
  have he : Ends r [] := by intro c t h; cases h
  have key := C133_to_i r hr [] (by simp) (if n < 0 then some true else none) [D] hg [] he hp
  have hint : List.intercalate [95] [D] ++ [] = D := by simp [List.intercalate]
  rw [hint] at key
  have hS : intToS r n = [] ++ signText (if n < 0 then some true else none) ++ D := by
    unfold intToS
    rw [hD]
    split_ifs <;> rfl
  rw [hS, key]
  simp only [List.flatten_cons, List.flatten_nil, List.append_nil, h3]
  by_cases hn : n < 0
  · simp only [hn, if_true]
    omega
  · simp only [hn, if_false, reduceCtorEq]
    omega

example : intToS 16 (-255) = [45, 102, 102] ∧ toI (intToS 36 (2 ^ 80)) 36 = 2 ^ 80 := by decide +kernel

/-- C133: white space after the sign is taken for white space before it (`"- 5".to_i` is 0 in
Ruby), and after a prefix (`"0x 5".to_i(16)`); the ideographic space counts as white space. -/
theorem C133_space_fails :
    toI [45, 32, 53] 10 = -5 ∧ toI [48, 120, 32, 53] 16 = 5 ∧ hex [48, 120, 32, 53] = 5 ∧
      toI [0x3000, 53] 10 = 5 := by decide +kernel

/-- C133: two signs with a space between: the second is dropped in a small number and counted in a
large one, so that a number and the same number with a digit more get different signs. -/
theorem C133_signs_fails :
    toI [45, 32, 45, 53] 10 = -5 ∧
      toI ([45, 32, 45] ++ List.replicate 20 57) 10 = 99999999999999999999 := by decide +kernel

/-- C133: `hex` reads digits with a sign and with or without `0x`. -/
theorem C133_hex (up : Option Bool) (ws : List Nat) (hws : ∀ c ∈ ws, uniWs c = true) (sg : Option Bool)
    (gs : List (List Nat)) (hg : Groups 16 gs) (rest : List Nat) (he : Ends 16 rest)
    (hp : up = none → NoPrefix (List.intercalate [95] gs ++ rest)) :
    hex (ws ++ signText sg ++ ((match up with | none => [] | some true => [48, 88] | some false => [48, 120]) ++
        (List.intercalate [95] gs ++ rest))) =
      if sg = some true then -(numOf 16 gs.flatten : Int) else numOf 16 gs.flatten := by
  obtain ⟨c, t, hc, hd⟩ := groups_head hg
  have hcr : List.intercalate [95] gs ++ rest = c :: (t ++ rest) := by rw [hc]; rfl
  have h0 : IsDigit 10 48 := ⟨0, rfl⟩
  have fin : ∀ neg, (if signed (List.intercalate [95] gs ++ rest) = true then (0 : Int) else
      parseIntValue (List.intercalate [95] gs ++ rest) 16 neg) =
      if neg then -(numOf 16 gs.flatten : Int) else numOf 16 gs.flatten := by
    intro neg
    rw [if_neg (by rw [hcr, signed_digit _ hd]; simp), parseIntValue_groups 16 (by omega) gs rest hg he]
  have hdec : ∀ a b : Int, (if decide (sg = some true) = true then a else b) = if sg = some true then a else b := by
    intro a b; simp
  unfold hex
  rcases up with _ | _ | _
  · have hn := hp rfl
    rw [List.nil_append]
    have hs := toI_sign ws hws sg c (t ++ rest) 16 hd
    rw [← hcr] at hs
    rw [hs]
    simp only [stripPre_none hn 120 (by simp), Option.getD_none]
    rw [fin, hdec]
  · have hs := toI_sign ws hws sg 48 (120 :: (List.intercalate [95] gs ++ rest)) 10 h0
    simp only [List.cons_append, List.nil_append] at hs ⊢
    rw [hs]
    have : stripPre 120 (48 :: 120 :: (List.intercalate [95] gs ++ rest)) = some (List.intercalate [95] gs ++ rest) := by
      simp [stripPre]
    simp only [this, Option.getD_some]
    rw [fin, hdec]
  · have hs := toI_sign ws hws sg 48 (88 :: (List.intercalate [95] gs ++ rest)) 10 h0
    simp only [List.cons_append, List.nil_append] at hs ⊢
    rw [hs]
    have : stripPre 120 (48 :: 88 :: (List.intercalate [95] gs ++ rest)) = some (List.intercalate [95] gs ++ rest) := by
      simp [stripPre]
    simp only [this, Option.getD_some]
    rw [fin, hdec]

example : hex [45, 48, 88, 102] = -15 ∧ hex [102, 102, 103] = 255 := by decide +kernel

/-- C133: `oct` reads base 8, unless a prefix says otherwise. -/
theorem C133_oct (ws : List Nat) (hws : ∀ c ∈ ws, uniWs c = true) (sg : Option Bool)
    (gs : List (List Nat)) (hg : Groups 8 gs) (rest : List Nat) (he : Ends 8 rest)
    (hp : NoPrefix (List.intercalate [95] gs ++ rest)) :
    oct (ws ++ signText sg ++ (List.intercalate [95] gs ++ rest)) =
      if sg = some true then -(numOf 8 gs.flatten : Int) else numOf 8 gs.flatten := by
  obtain ⟨c, t, hc, hd⟩ := groups_head hg
  have hcr : List.intercalate [95] gs ++ rest = c :: (t ++ rest) := by rw [hc]; rfl
  unfold oct
  have hs := toI_sign ws hws sg c (t ++ rest) 8 hd
  rw [← hcr] at hs
  rw [hs]
  have hpre : octPrefix (List.intercalate [95] gs ++ rest) = (List.intercalate [95] gs ++ rest, 8) := by
    unfold octPrefix
    rw [stripPre_none hp 120 (by simp), stripPre_none hp 98 (by simp), stripPre_none hp 100 (by simp),
      stripPre_none hp 111 (by simp)]
  simp only [hpre]
  rw [if_neg (by rw [hcr, signed_digit _ hd]; simp), parseIntValue_groups 8 (by omega) gs rest hg he]
  simp

example : oct [45, 49, 55, 56] = -15 := by decide +kernel

/-- C133: `oct` with a prefix reads the radix of the prefix. -/
theorem C133_oct_prefix (l base : Nat) (hl : (l, base) ∈ [(120, 16), (98, 2), (100, 10), (111, 8)])
    (up : Bool) (ws : List Nat) (hws : ∀ c ∈ ws, uniWs c = true) (sg : Option Bool)
    (gs : List (List Nat)) (hg : Groups base gs) (rest : List Nat) (he : Ends base rest) :
    oct (ws ++ signText sg ++ (48 :: (if up then l - 32 else l) :: (List.intercalate [95] gs ++ rest))) =
      if sg = some true then -(numOf base gs.flatten : Int) else numOf base gs.flatten := by
  obtain ⟨c, t, hc, hd⟩ := groups_head hg
  have hcr : List.intercalate [95] gs ++ rest = c :: (t ++ rest) := by rw [hc]; rfl
  have h0 : IsDigit 10 48 := ⟨0, rfl⟩
  unfold oct
  rw [toI_sign ws hws sg 48 _ 10 h0]
  generalize hX : List.intercalate [95] gs ++ rest = X at hcr
  have hpre : octPrefix (48 :: (if up then l - 32 else l) :: X) = (X, base) := by
    simp only [List.mem_cons, Prod.mk.injEq, List.not_mem_nil, or_false] at hl
    rcases hl with ⟨rfl, rfl⟩ | ⟨rfl, rfl⟩ | ⟨rfl, rfl⟩ | ⟨rfl, rfl⟩ <;> cases up <;> rfl
  simp only [hpre]
  rw [if_neg (by rw [hcr, signed_digit _ hd]; simp), ← hX]
  have hb : 0 < base := by
    simp only [List.mem_cons, Prod.mk.injEq, List.not_mem_nil, or_false] at hl; omega
  rw [parseIntValue_groups base hb gs rest hg he]
  simp

example : oct [48, 120, 49, 102] = 31 := by decide +kernel

/-- C133: the digits of a radix are `0` to `9`, then `a` to `z` in either case, as far as the radix
goes. -/
theorem C133_digits (r : Nat) (hr : 2 ≤ r) (d : Nat) (hd : d < 36) :
    (d < 10 → toI [48 + d] r = if d < r then (d : Int) else 0) ∧
    (10 ≤ d → toI [97 + (d - 10)] r = if d < r then (d : Int) else 0) ∧
    (10 ≤ d → toI [65 + (d - 10)] r = if d < r then (d : Int) else 0) := by
  have one : ∀ c, toDigit r c = (if d < r then some d else none) → c ≠ 95 → c ≠ 45 → c ≠ 43 → uniWs c = false →
      toI [c] r = if d < r then (d : Int) else 0 := by
    intro c hc h95 h45 h43 hws
    by_cases h : d < r
    · rw [if_pos h] at hc ⊢
      have := C133_to_i r hr [] (by simp) none [[c]] ⟨by simp, by simp [IsDigit, hc]⟩ [] (by intro _ _ h; cases h)
        (by intro _ _ h; simp at h)
      simpa [signText, numOf, hc] using this
    · rw [if_neg h] at hc ⊢
      have := C133_no_digits r hr [] (by simp) none c [] (by
        rintro ⟨y, hy⟩; rw [hc] at hy; cases hy) hws (fun _ => ⟨h45, h43⟩)
      simpa [signText] using this
  refine ⟨fun h => one _ ?_ ?_ ?_ ?_ ?_, fun h => one _ ?_ ?_ ?_ ?_ ?_, fun h => one _ ?_ ?_ ?_ ?_ ?_⟩
  all_goals first
    | omega
    | (unfold toDigit
       first
         | (rw [if_pos (by omega)]; simp; done)
         | (rw [if_neg (by omega), if_pos (by omega)]
            have : 97 + (d - 10) - 97 + 10 = d := by omega
            simp only [this]; done)
         | (rw [if_neg (by omega), if_neg (by omega), if_pos (by omega)]
            have : 65 + (d - 10) - 65 + 10 = d := by omega
            simp only [this]; done))
    | (simp only [uniWs, Bool.or_eq_false_iff, Bool.and_eq_false_iff, decide_eq_false_iff_not]; omega)

theorem intercalate_two (a c : Nat) (g : List Nat) (gs : List (List Nat)) :
    ∃ X, List.intercalate [95] ((a :: c :: g) :: gs) = a :: c :: X := by
  cases gs with
  | nil => exact ⟨g, by simp [List.intercalate]⟩
  | cons h t => exact ⟨_, by simp [List.intercalate, List.intersperse]; rfl⟩

/-- C133: in radix 0 a number that begins with `0` and a digit is octal, and one that begins with
another digit decimal. -/
theorem C133_radix_zero (base a c : Nat) (g : List Nat) (gs : List (List Nat))
    (hb : (base = 8 ∧ a = 48) ∨ (base = 10 ∧ a ≠ 48)) (hg : Groups base ((a :: c :: g) :: gs))
    (ws : List Nat) (hws : ∀ c ∈ ws, uniWs c = true) (sg : Option Bool)
    (rest : List Nat) (he : Ends base rest) :
    toI (ws ++ signText sg ++ (List.intercalate [95] ((a :: c :: g) :: gs) ++ rest)) 0 =
      if sg = some true then -(numOf base ((a :: c :: g) :: gs).flatten : Int)
      else numOf base ((a :: c :: g) :: gs).flatten := by
  obtain ⟨X, hX⟩ := intercalate_two a c g gs
  have hda : IsDigit base a := (hg.2 _ List.mem_cons_self).2 a List.mem_cons_self
  have hdc : IsDigit base c := (hg.2 _ List.mem_cons_self).2 c (List.mem_cons_of_mem _ List.mem_cons_self)
  have hc : 48 ≤ c ∧ c ≤ 57 := by
    obtain ⟨x, hx⟩ := hdc
    unfold toDigit at hx
    simp only at hx
    split at hx
    · rename_i y hy
      split_ifs at hx hy <;> simp at hx hy <;> omega
    · simp at hx
  have hcr : List.intercalate [95] ((a :: c :: g) :: gs) ++ rest = a :: c :: (X ++ rest) := by rw [hX]; rfl
  have hp : NoPrefix (a :: c :: (X ++ rest)) := by
    intro x t hx
    simp only [List.cons.injEq] at hx
    obtain ⟨_, rfl, _⟩ := hx
    simp only [List.mem_cons, List.not_mem_nil, or_false]
    omega
  have hpre : stripIntPrefix (a :: c :: (X ++ rest)) 0 = (a :: c :: (X ++ rest), base) := by
    unfold stripIntPrefix tryStrip
    simp only [stripPre_none hp 120 (by simp), stripPre_none hp 98 (by simp), stripPre_none hp 100 (by simp),
      stripPre_none hp 111 (by simp), ite_self, if_true]
    rcases hb with ⟨rfl, rfl⟩ | ⟨rfl, ha⟩
    · simp [hc.1, hc.2]
    · split
      · rename_i heq
        simp only [List.cons.injEq] at heq
        exact absurd heq.1 ha
      · rfl
  unfold toI toITail
  rw [hcr, toI_sign ws hws sg a _ base hda]
  simp only [signed_digit _ hda, Bool.false_eq_true, if_false]
  rw [hpre]
  simp only
  rw [signed_digit _ hda, ← hcr]
  simp only [Bool.false_eq_true, if_false]
  rw [parseIntValue_groups base (by omega) _ rest hg he]
  simp

-- "-017", "0_17" and "19" in radix 0; the second is decimal
example : toI [45, 48, 49, 55] 0 = -15 ∧ toI [48, 95, 49, 55] 0 = 17 ∧ toI [49, 57] 0 = 19 := by decide +kernel

theorem foldl_add_sum (l : List Nat) (a : Nat) : l.foldl (· + ·) a = a + l.sum := by
  induction l generalizing a with
  | nil => simp
  | cons x t ih => rw [List.foldl_cons, ih, List.sum_cons, Nat.add_assoc]

/-- C133: `sum(bits)` is the sum of the bytes modulo `2 ** bits`, for 1 to 63 bits; in Ruby it is
the whole sum for 0 bits, and for 64 and more it is still modulo `2 ** bits`. -/
theorem C133_sum_partial (bs : List Nat) (bits : Int) (h : 0 < bits) (h' : bits < 64) :
    sum bs bits = bs.sum % 2 ^ bits.toNat := by
  unfold sum
  rw [foldl_add_sum, Nat.zero_add, Int.emod_eq_of_lt (by omega) h', Nat.and_two_pow_sub_one_eq_mod]

example : sum [255, 255] 8 = 254 := by decide +kernel

/-- C133: `sum(0)` is 0, not the whole sum. -/
theorem C133_sum_fails : sum [1, 2] 0 = 0 ∧ sum [1, 2] 64 = 0 := by decide +kernel

end Verif.Text
