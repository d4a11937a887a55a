import Verif.Pack.Props

/-!
# C34, C48: text encodings of bytes
-/

namespace Verif.Pack

/-! ## Specification of the formats -/

/-- The bits of a byte, most significant first. -/
def bitsOf (b : Nat) : List Nat :=
  [b / 128 % 2, b / 64 % 2, b / 32 % 2, b / 16 % 2, b / 8 % 2, b / 4 % 2, b / 2 % 2, b % 2]

/-- The alphabet of RFC 4648, table 1. -/
def rfcAlphabet : List Nat :=
  "ABCDEFGHIJKLMNOPQRSTUVWXYZabcdefghijklmnopqrstuvwxyz0123456789+/".toList.map Char.toNat

/-- The characters of a bit string: six at a time, the last group filled with zero bits. -/
def sextets : List Nat → List Nat
  | a :: b :: c :: d :: e :: f :: rest =>
    rfcAlphabet.getD (32 * a + 16 * b + 8 * c + 4 * d + 2 * e + f) 0 :: sextets rest
  | [] => []
  | short => [rfcAlphabet.getD (32 * short.getD 0 0 + 16 * short.getD 1 0 + 8 * short.getD 2 0 +
      4 * short.getD 3 0 + 2 * short.getD 4 0) 0]

/-- Base64 of RFC 4648, section 4: the data as one bit string, six bits a character, filled with
`=` to a multiple of four. -/
def rfc4648 (data : List Nat) : List Nat :=
  let s := sextets (data.flatMap bitsOf)
  s ++ List.replicate ((4 - s.length % 4) % 4) 61

/-- `s` in lines of `n` bytes, each encoded by `f` and ended with a newline. -/
def inLines (n : Nat) (f : List Nat → List Nat) : List Nat → Nat → List Nat
  | _, 0 => []
  | [], _ => []
  | s, fuel + 1 => f (s.take n) ++ [10] ++ inLines n f (s.drop n) fuel

/-- The digits of a byte in base 16. -/
def hexDigits (high : Bool) (b : Nat) : List Nat :=
  let d := fun v => if v < 10 then 48 + v else 87 + v
  if high then [d (b / 16), d (b % 16)] else [d (b % 16), d (b / 16)]

/-! ## C34: round trips -/

/-- `m`, `u`, `M` with no count, `*` or a count. -/
inductive Suffix where
  | none | star | count (n : Nat)

def Suffix.text : Suffix → String
  | .none => ""
  | .star => "*"
  | .count n => toString n

def Suffix.Ok : Suffix → Prop
  | .count n => n < 2 ^ 63
  | _ => True

/-- The count and whether it is explicit. -/
def Suffix.rep : Suffix → Option Nat × Bool
  | .none => (some 1, false)
  | .star => (Option.none, true)
  | .count n => (some n, true)

theorem parse_suffix {d : String} {t : Template} {big : Bool} (h : IsDirective d t big) (s : Suffix)
    (hs : s.Ok) : parse (d ++ s.text) = .ok [⟨t, big, s.rep.1, s.rep.2⟩] := by
  cases s with
  | none =>
    rw [show d ++ Suffix.none.text = d by simp [Suffix.text]]
    exact parse_single h
  | star => exact parse_star h
  | count n => exact parse_counted h n hs

theorem lineLen_ok (n : Node) : lineLen n = 0 ∨ 3 ≤ lineLen n := by
  unfold lineLen
  split
  · split
    · left; rfl
    · split
      · right; assumption
      · right; omega
    · right; omega
  · right; omega

/-- Base64, for every line length. -/
theorem C34_base64_roundtrip (data : List Nat) (h : ∀ b ∈ data, b < 256) (s : Suffix) (hs : s.Ok) :
    ∃ bs, pack [.str data] ("m" ++ s.text) = .ok bs ∧
      unpack bs ("m" ++ s.text) = .ok [.str data] := by
  have hp := parse_suffix isDir_m s hs
  refine ⟨_, pack_one hp (by simp) (by simp) (more := []) rfl, ?_⟩
  refine unpack_one hp ?_
  simp only [unpackNode, It.rem, List.drop_zero, b64_roundtrip _ data h]
  rfl

/-- Uuencode. -/
theorem C34_uu_roundtrip (data : List Nat) (h : ∀ b ∈ data, b < 256) (s : Suffix) (hs : s.Ok) :
    ∃ bs, pack [.str data] ("u" ++ s.text) = .ok bs ∧
      unpack bs ("u" ++ s.text) = .ok [.str data] := by
  have hp := parse_suffix isDir_u s hs
  refine ⟨_, pack_one hp (by simp) (by simp) (more := []) rfl, ?_⟩
  refine unpack_one hp ?_
  simp only [unpackNode, It.rem, List.drop_zero, uu_roundtrip _ (lineLen_ok _) data h]
  rfl

/-- Quoted-printable. -/
theorem C34_qp_roundtrip (data : List Nat) (h : ∀ b ∈ data, b < 256) (s : Suffix) (hs : s.Ok) :
    ∃ bs, pack [.str data] ("M" ++ s.text) = .ok bs ∧
      unpack bs ("M" ++ s.text) = .ok [.str data] := by
  have hp := parse_suffix isDir_big_m s hs
  refine ⟨_, pack_one hp (by simp) (by simp) (more := []) rfl, ?_⟩
  refine unpack_one hp ?_
  simp only [unpackNode, It.rem, List.drop_zero, qp_roundtrip _ data h]
  rfl

example : pack [.str [97, 32, 10, 61, 255]] "M" = .ok
    [97, 32, 61, 10, 10, 61, 51, 68, 61, 70, 70, 61, 10] := rfl

/-- Every byte string is the packing of its hex digits, both orders. -/
theorem C34_hex_roundtrip (data : List Nat) (h : ∀ b ∈ data, b < 256) (high : Bool) :
    ∃ s, unpack data (if high then "H*" else "h*") = .ok [.str s] ∧
      s = data.flatMap (hexDigits high) ∧
      pack [.str s] (if high then "H*" else "h*") = .ok data := by
  have hp : parse (if high then "H*" else "h*") = .ok [⟨.hex, high, none, true⟩] := by
    cases high
    · exact parse_star isDir_h
    · exact parse_star isDir_big_h
  refine ⟨hexUnpackAll high data, ?_, ?_, ?_⟩
  · exact unpack_one hp (by simp only [unpackNode, It.rem, List.drop_zero]; rfl)
  · unfold hexUnpackAll
    rw [List.flatMap_def]
    congr 1
    apply List.map_congr_left
    intro b hb
    have hb := h b hb
    cases high
    · exact of_decide_eq_true (lt_all (n := 256) (p := fun b => decide (
        [lowHex (hexByte false b >>> 4), lowHex (hexByte false b &&& 0x0f)] = hexDigits false b))
        (by decide +kernel) hb)
    · exact of_decide_eq_true (lt_all (n := 256) (p := fun b => decide (
        [lowHex (hexByte true b >>> 4), lowHex (hexByte true b &&& 0x0f)] = hexDigits true b))
        (by decide +kernel) hb)
  · refine pack_one hp (by simp) (by simp) (more := []) ?_
    simp only [packOut, oneString, packString, Option.getD_none, padded_self, hex_bytes high data h]

/-- Every byte string is the packing of its bits, both orders. -/
theorem C34_bits_roundtrip (data : List Nat) (h : ∀ b ∈ data, b < 256) (high : Bool) :
    ∃ s, unpack data (if high then "B*" else "b*") = .ok [.str s] ∧
      s = data.flatMap (fun b => ((if high then bitsOf b else (bitsOf b).reverse)).map (48 + ·)) ∧
      pack [.str s] (if high then "B*" else "b*") = .ok data := by
  have hp : parse (if high then "B*" else "b*") = .ok [⟨.bitString, high, none, true⟩] := by
    cases high
    · exact parse_star isDir_b
    · exact parse_star isDir_big_b
  refine ⟨bitUnpackAll high data, ?_, ?_, ?_⟩
  · exact unpack_one hp (by simp only [unpackNode, It.rem, List.drop_zero]; rfl)
  · unfold bitUnpackAll
    rw [List.flatMap_def]
    congr 1
    apply List.map_congr_left
    intro b hb
    have hb := h b hb
    cases high
    · exact of_decide_eq_true (lt_all (n := 256) (p := fun b => decide (
        byteBits false 8 b = ((bitsOf b).reverse).map (48 + ·))) (by decide +kernel) hb)
    · exact of_decide_eq_true (lt_all (n := 256) (p := fun b => decide (
        byteBits true 8 b = (bitsOf b).map (48 + ·))) (by decide +kernel) hb)
  · refine pack_one hp (by simp) (by simp) (more := []) ?_
    simp only [packOut, oneString, packString, Option.getD_none, padded_self,
      bits_bytes high data h]

example : unpack [0xa5, 1] "B*" = .ok [.str [49, 48, 49, 48, 48, 49, 48, 49,
  48, 48, 48, 48, 48, 48, 48, 49]] := rfl

/-! ## C48: the format of Base64 -/

theorem alphabet_eq {v : Nat} (h : v < 64) : b64char v = rfcAlphabet.getD v 0 :=
  of_decide_eq_true (lt_all (n := 64)
    (p := fun v => decide (b64char v = rfcAlphabet.getD v 0)) (by decide +kernel) h)

theorem shr (n k : Nat) : n >>> k = n / 2 ^ k := Nat.shiftRight_eq_div_pow n k

theorem group3 {a b c : Nat} (ha : a < 256) (hb : b < 256) (hc : c < 256) (l : List Nat) :
    b64group [a, b, c] ++ sextets l = sextets (bitsOf a ++ (bitsOf b ++ (bitsOf c ++ l))) := by
  simp only [b64group, triple, List.getD_cons_zero, List.getD_cons_succ, triple3 hb hc, and3f, shr,
    List.length_cons, List.length_nil, bitsOf, List.cons_append, List.nil_append, sextets]
  rw [if_pos (by omega), if_pos (by omega), alphabet_eq (by omega), alphabet_eq (by omega),
    alphabet_eq (by omega), alphabet_eq (by omega)]
  norm_num
  refine ⟨?_, ?_, ?_, ?_⟩ <;> congr 2 <;> omega

theorem group2 {a b : Nat} (ha : a < 256) (hb : b < 256) :
    b64group [a, b] = sextets (bitsOf a ++ bitsOf b) ++ [61] := by
  have h3 := triple3 (a := a) hb (show 0 < 256 by omega)
  simp only [b64group, triple, List.getD_cons_zero, List.getD_cons_succ, List.getD_nil, h3, and3f,
    shr, List.length_cons, List.length_nil, bitsOf, List.cons_append, List.nil_append, sextets]
  rw [if_pos (by omega), if_neg (by omega), alphabet_eq (by omega), alphabet_eq (by omega),
    alphabet_eq (by omega)]
  norm_num
  refine ⟨?_, ?_, ?_⟩ <;> congr 2 <;> omega

theorem group1 {a : Nat} (ha : a < 256) :
    b64group [a] = sextets (bitsOf a) ++ [61, 61] := by
  have h3 := triple3 (a := a) (show 0 < 256 by omega) (show 0 < 256 by omega)
  simp only [b64group, triple, List.getD_cons_zero, List.getD_cons_succ, List.getD_nil, h3, and3f,
    shr, List.length_cons, List.length_nil, bitsOf, List.cons_append, List.nil_append, sextets]
  rw [if_neg (by omega), if_neg (by omega), alphabet_eq (by omega), alphabet_eq (by omega)]
  norm_num
  refine ⟨?_, ?_⟩ <;> congr 2 <;> omega

theorem b64Loop_zero (col : Nat) (cs : List (List Nat)) :
    b64Loop 0 col cs = (cs.map b64group).flatten := by
  induction cs generalizing col with
  | nil => simp [b64Loop]
  | cons c cs ih =>
    unfold b64Loop
    rw [if_neg (by omega), ih]
    simp

theorem b64_zero (data : List Nat) : b64Encode 0 data = ((chunks 3 data).map b64group).flatten := by
  unfold b64Encode
  rw [if_pos rfl, b64Loop_zero]

theorem rfc_step {a b c : Nat} (ha : a < 256) (hb : b < 256) (hc : c < 256) (l : List Nat) :
    rfc4648 (a :: b :: c :: l) = b64group [a, b, c] ++ rfc4648 l := by
  unfold rfc4648
  simp only [List.flatMap_cons]
  rw [← group3 ha hb hc]
  have : (b64group [a, b, c]).length = 4 := rfl
  simp only [List.append_assoc, List.length_append, this]
  rw [show (4 + (sextets (List.flatMap bitsOf l)).length) % 4
    = (sextets (List.flatMap bitsOf l)).length % 4 by omega]

theorem b64_rfc (data : List Nat) (h : ∀ b ∈ data, b < 256) :
    ((chunks 3 data).map b64group).flatten = rfc4648 data := by
  induction hl : data.length using Nat.strong_induction_on generalizing data with
  | _ m ih =>
    subst hl
    match data, h with
    | [], _ => rfl
    | [a], h =>
      rw [show chunks 3 [a] = [[a]] from rfl]
      simp only [List.map_cons, List.map_nil, List.flatten_cons, List.flatten_nil, List.append_nil]
      rw [group1 (h a (by simp))]
      rfl
    | [a, b], h =>
      rw [show chunks 3 [a, b] = [[a, b]] from rfl]
      simp only [List.map_cons, List.map_nil, List.flatten_cons, List.flatten_nil, List.append_nil]
      rw [group2 (h a (by simp)) (h b (by simp))]
      rfl
    | a :: b :: c :: rest, h =>
      rw [chunks_cons (by omega) (by simp), rfc_step (h a (by simp)) (h b (by simp)) (h c (by simp))]
      simp only [List.take, List.drop, List.map_cons, List.flatten_cons]
      rw [ih rest.length (by simp; omega) rest (fun x hx => h x (by simp [hx])) rfl]

/-- `pack("m0")` is the Base64 of RFC 4648. -/
theorem C48_base64_is_rfc4648 (data : List Nat) (h : ∀ b ∈ data, b < 256) :
    pack [.str data] "m0" = .ok (rfc4648 data) := by
  have hp : parse "m0" = .ok [⟨.base64, false, some 0, true⟩] := parse_counted isDir_m 0 (by omega)
  refine pack_one hp (by simp) (by simp) (more := []) ?_
  simp only [packOut, oneString, packStringStrict, lineLen, if_true, b64_zero, b64_rfc data h]

/-- "Ma" is "TWE=" (the example of the encoding everyone knows). -/
example : pack [.str [77, 97]] "m0" = .ok [84, 87, 69, 61] := rfl

theorem loop_line (k : Nat) (hk : 0 < k) (cs : List (List Nat)) (j : Nat) (hj : j < k) :
    b64Loop (4 * k) (4 * j) cs =
      if cs = [] then (if 0 < j then [10] else [])
      else ((cs.take (k - j)).map b64group).flatten ++ 10 :: b64Loop (4 * k) 0 (cs.drop (k - j)) := by
  induction cs generalizing j with
  | nil =>
    rw [if_pos rfl]
    unfold b64Loop
    by_cases h0 : 0 < j
    · rw [if_pos (by omega), if_pos h0]
    · rw [if_neg (by omega), if_neg h0]
  | cons c cs ih =>
    rw [if_neg (by simp)]
    conv_lhs => unfold b64Loop
    by_cases hlast : j + 1 = k
    · rw [if_pos (by omega), show k - j = 1 by omega]
      simp
    · rw [if_neg (by omega), show 4 * j + 4 = 4 * (j + 1) by ring, ih (j + 1) (by omega),
        show k - j = (k - (j + 1)) + 1 by omega]
      split
      · rename_i h0
        subst h0
        rw [if_pos (by omega)]
        simp [b64Loop]
      · simp

theorem chunks_take (k : Nat) (data : List Nat) :
    (chunks 3 data).take k = chunks 3 (data.take (3 * k)) ∧
      (chunks 3 data).drop k = chunks 3 (data.drop (3 * k)) := by
  induction k generalizing data with
  | zero => simp [chunks_nil]
  | succ k ih =>
    by_cases h : data = []
    · subst h; simp [chunks_nil]
    · have hpos : 0 < data.length := List.length_pos_iff.2 h
      have hne : data.take (3 * (k + 1)) ≠ [] := by
        intro h0
        have := congrArg List.length h0
        rw [List.length_take, List.length_nil] at this
        omega
      rw [chunks_cons (by omega) h, chunks_cons (l := data.take (3 * (k + 1))) (by omega) hne]
      obtain ⟨h1, h2⟩ := ih (data.drop 3)
      constructor
      · rw [List.take_succ_cons, h1, List.take_take, List.drop_take,
          show min 3 (3 * (k + 1)) = 3 by omega, show 3 * (k + 1) - 3 = 3 * k by omega]
      · rw [List.drop_succ_cons, h2, List.drop_drop, show 3 + 3 * k = 3 * (k + 1) by ring]

theorem lines_of (k : Nat) (hk : 0 < k) (fuel : Nat) (data : List Nat) (hf : data.length ≤ fuel)
    (h : ∀ b ∈ data, b < 256) :
    b64Loop (4 * k) 0 (chunks 3 data) = inLines (3 * k) rfc4648 data fuel := by
  induction fuel generalizing data with
  | zero =>
    have : data = [] := List.eq_nil_of_length_eq_zero (by omega)
    subst this
    simp [chunks_nil, b64Loop, inLines]
  | succ fuel ih =>
    cases data with
    | nil => simp [chunks_nil, b64Loop, inLines]
    | cons a l =>
      have hl := loop_line k hk (chunks 3 (a :: l)) 0 hk
      rw [Nat.mul_zero, if_neg (by rw [chunks_cons (by omega) (by simp)]; simp), Nat.sub_zero,
        (chunks_take k _).1, (chunks_take k _).2] at hl
      rw [hl, b64_rfc _ fun b hb => h b (List.mem_of_mem_take hb),
        ih _ (by simp only [List.length_drop, List.length_cons] at hf ⊢; omega)
          fun b hb => h b (List.mem_of_mem_drop hb)]
      simp only [inLines, List.append_assoc, List.singleton_append]

/-- The bytes of a line of `pack("mN")`. -/
def Suffix.lineBytes : Suffix → Nat
  | .count n => if 3 ≤ n then 3 * ((n + 2) / 3) else 45
  | _ => 45

/-- `pack("mN")`: lines of `N` bytes, rounded *up* to a multiple of three, each in Base64 with a
newline; 45 when no count, `*`, or a count of 1 or 2 is given. -/
theorem C48_lines_exact (data : List Nat) (h : ∀ b ∈ data, b < 256) (s : Suffix) (hs : s.Ok)
    (h0 : s ≠ .count 0) :
    pack [.str data] ("m" ++ s.text) = .ok (inLines
      s.lineBytes rfc4648 data data.length) := by
  have hp := parse_suffix isDir_m s hs
  have key : ∀ n, 0 < n → b64Encode n data = inLines (3 * ((n + 2) / 3)) rfc4648 data data.length := by
    intro n hn
    unfold b64Encode
    rw [if_neg (by omega), ← lines_of _ (by omega) _ _ (Nat.le_refl _) h]
    congr 1
    split <;> omega
  refine pack_one hp (by simp) (by simp) (more := []) ?_
  simp only [packOut, oneString, packStringStrict]
  cases s with
  | none => exact congrArg (fun x => Except.ok (x, [])) (key 45 (by omega))
  | star => exact congrArg (fun x => Except.ok (x, [])) (key 45 (by omega))
  | count n =>
    have hn0 : n ≠ 0 := by rintro rfl; exact h0 rfl
    obtain ⟨m, rfl⟩ := Nat.exists_eq_succ_of_ne_zero hn0
    simp only [Suffix.rep, Suffix.lineBytes, lineLen, if_true]
    split
    · rw [key _ (by omega)]
    · rw [key 45 (by omega)]

/-- Documented: a count is rounded *down* to a multiple of three.  That holds when it is one.
Missing: the other counts, which are rounded up (`C48_count_rounded_up`). -/
theorem C48_line_length_partial (data : List Nat) (h : ∀ b ∈ data, b < 256) (n : Nat) (hn : 3 ≤ n)
    (hn' : n < 2 ^ 63) (h3 : n % 3 = 0) :
    pack [.str data] ("m" ++ toString n) =
      .ok (inLines (n / 3 * 3) rfc4648 data data.length) := by
  have := C48_lines_exact data h (.count n) hn' (by intro h0; cases h0; omega)
  rw [show (Suffix.count n).text = toString n from rfl] at this
  rw [this]
  unfold Suffix.lineBytes
  dsimp only
  rw [if_pos hn, show 3 * ((n + 2) / 3) = n / 3 * 3 by omega]

theorem rfc_append (x y : List Nat) (h3 : x.length % 3 = 0) (h : ∀ b ∈ x, b < 256) :
    rfc4648 (x ++ y) = rfc4648 x ++ rfc4648 y := by
  induction hl : x.length using Nat.strong_induction_on generalizing x with
  | _ m ih =>
    subst hl
    match x, h3, h with
    | [], _, _ => rfl
    | [a], h3, _ => simp at h3
    | [a, b], h3, _ => simp at h3
    | a :: b :: c :: rest, h3, h =>
      simp only [List.cons_append]
      rw [rfc_step (h a (by simp)) (h b (by simp)) (h c (by simp)),
        rfc_step (h a (by simp)) (h b (by simp)) (h c (by simp)),
        ih rest.length (by simp; omega) rest (by simp at h3 ⊢; omega)
          (fun x hx => h x (by simp [hx])) rfl, List.append_assoc]

theorem rfc_head (x : List Nat) (hne : x ≠ []) (h : ∀ b ∈ x, b < 256) :
    ∃ a l, rfc4648 x = a :: l ∧ a ≠ 10 := by
  rw [← b64_rfc x h, chunks_cons (by omega) hne]
  refine ⟨_, _, rfl, ?_⟩
  rw [and3f]
  exact of_decide_eq_true (lt_all (n := 64)
    (p := fun v => decide (b64char v ≠ 10)) (by decide +kernel) (Nat.mod_lt _ (by omega)))

/-- **Finding.** For every other count the line is three bytes too long: whatever the data, if it
does not fit one line as documented, the output is not the documented one. -/
theorem C48_count_rounded_up (data : List Nat) (h : ∀ b ∈ data, b < 256) (n : Nat) (hn : 3 ≤ n)
    (hn' : n < 2 ^ 63) (h3 : n % 3 ≠ 0) (hlong : n / 3 * 3 < data.length) :
    ∃ bs, pack [.str data] ("m" ++ toString n) = .ok bs ∧
      bs ≠ inLines (n / 3 * 3) rfc4648 data data.length := by
  have := C48_lines_exact data h (.count n) hn' (by intro h0; cases h0; omega)
  rw [show (Suffix.count n).text = toString n from rfl] at this
  refine ⟨_, this, ?_⟩
  clear this
  unfold Suffix.lineBytes
  dsimp only
  rw [if_pos hn, show 3 * ((n + 2) / 3) = 3 * (n / 3 + 1) by omega,
    show n / 3 * 3 = 3 * (n / 3) by omega]
  rw [show n / 3 * 3 = 3 * (n / 3) by omega] at hlong
  have hk : 0 < n / 3 := by omega
  generalize n / 3 = k at *
  intro heq
  cases hd : data.length with
  | zero => omega
  | succ fuel =>
    rw [hd] at heq
    cases hdd : data with
    | nil => rw [hdd] at hd; simp at hd
    | cons a l =>
      have hsplit : (a :: l).take (3 * (k + 1)) =
          (a :: l).take (3 * k) ++ ((a :: l).drop (3 * k)).take 3 := by
        rw [show 3 * (k + 1) = 3 * k + 3 by ring, List.take_add]
      have hshort : ((a :: l).take (3 * k)).length = 3 * k := by
        rw [List.length_take, ← hdd]; omega
      rw [hdd] at heq
      simp only [inLines] at heq
      rw [hsplit, rfc_append _ _ (by rw [hshort]; omega)
        (fun b hb => h b (by rw [hdd]; exact List.mem_of_mem_take hb))] at heq
      rw [List.append_assoc, List.append_assoc, List.append_assoc, List.append_cancel_left_eq] at heq
      have hne : ((a :: l).drop (3 * k)).take 3 ≠ [] := by
        intro h0
        have := congrArg List.length h0
        rw [List.length_take, List.length_drop, ← hdd] at this
        simp at this
        omega
      obtain ⟨x, xs, hx, hx10⟩ := rfc_head _ hne (by
        intro b hb
        exact h b (by rw [hdd]; exact List.mem_of_mem_drop (List.mem_of_mem_take hb)))
      rw [hx] at heq
      simp at heq
      exact hx10 heq.1

/-- `["abcd"].pack("m4")` is `"YWJjZA==\n"`, not `"YWJj\nZA==\n"`. -/
example : pack [.str [97, 98, 99, 100]] "m4" = .ok [89, 87, 74, 106, 90, 65, 61, 61, 10] ∧
    inLines 3 rfc4648 [97, 98, 99, 100] 4 = [89, 87, 74, 106, 10, 90, 65, 61, 61, 10] :=
  ⟨rfl, by decide +kernel⟩

end Verif.Pack
