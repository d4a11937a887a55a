import Verif.Pack.PrefixLemmas

/-!
# C32, C33, C35, C47: pack and unpack of integers, code points and records

Everything is stated about `pack` and `unpack` given template strings.
-/

namespace Verif.Pack

/-! ## Single directives -/

theorem pack_one {t : String} {n : Node} (hp : parse t = .ok [n]) (hb : n.template ≠ .back)
    (ha : n.template ≠ .atPos) {args more : List PV} {bs : List Nat}
    (h : packOut n args = .ok (bs, more)) : pack args t = .ok bs := by
  unfold pack
  rw [hp]
  simp only [packNodes]
  have : packNode n [] args = .ok (bs, more) := by
    unfold packNode
    split
    · exact absurd (by assumption) hb
    · exact absurd (by assumption) ha
    · rw [h]; rfl
  rw [this]

theorem unpack_one {t : String} {n : Node} (hp : parse t = .ok [n]) {bs : List Nat}
    {vs : List PV} (h : (unpackNode n ⟨bs, 0⟩).map Prod.fst = .ok vs) :
    unpack bs t = .ok vs := by
  unfold unpack
  rw [hp]
  cases hu : unpackNode n ⟨bs, 0⟩ with
  | error e => rw [hu] at h; simp [Except.map] at h
  | ok r =>
    obtain ⟨vs', it⟩ := r
    rw [hu] at h
    simp only [Except.map, Except.ok.injEq] at h
    simp only [unpackNodes, hu, List.append_nil, h]

/-! ## C32: fixed width -/

/-- The bytes of one Integer under a directive of `w` bytes: the `j`-th is the digit of weight
`256 ^ j` (little-endian) or `256 ^ (w - 1 - j)` (big-endian), of the number and not of a
representation. -/
theorem C32_byte_order {d : String} {w : Nat} {signed big : Bool}
    (h : (d, w, signed, big) ∈ fixedDirectives) (i : Int) :
    ∃ bs, pack [.int i] d = .ok bs ∧ bs.length = w ∧
      ∀ j < w, bs[j]? = some (i / 256 ^ (if big then w - 1 - j else j) % 256).toNat := by
  obtain ⟨hw, hw8⟩ := fixed_width _ h
  dsimp only at hw hw8
  have hd := fixed_isDirective _ h
  refine ⟨toBytes w big (coerceU64 i), ?_, length_toBytes _ _ _, ?_⟩
  · exact pack_one (parse_single hd) (by simp) (by simp) (more := [])
      (by simp [packOut, each, eachN, packInt])
  · intro j hj
    have hm := coerce_mod hw8 i
    have key : ∀ k < w, (coerceU64 i % 2 ^ (8 * w)) / 256 ^ k % 256 = (i / 256 ^ k % 256).toNat := by
      intro k hk
      have h1 : ((coerceU64 i % 2 ^ (8 * w) / 256 ^ k % 256 : Nat) : Int) = i / 256 ^ k % 256 := by
        push_cast
        push_cast at hm
        rw [hm]
        have hdiv : (2 : Int) ^ (8 * w) = 256 ^ k * (256 * 256 ^ (w - 1 - k)) := by
          rw [← pow_succ', ← pow_add, show k + (w - 1 - k + 1) = w by omega, pow_mul]
          norm_num
        rw [hdiv]
        have hp : (0 : Int) < 256 ^ k := by positivity
        have hq : i % (256 ^ k * (256 * 256 ^ (w - 1 - k))) / 256 ^ k
            = i / 256 ^ k - 256 * (256 ^ (w - 1 - k) * (i / (256 ^ k * (256 * 256 ^ (w - 1 - k))))) := by
          rw [Int.emod_def, Int.sub_eq_add_neg, Int.mul_assoc, ← Int.mul_neg,
            Int.add_mul_ediv_left _ _ (by omega), Int.mul_assoc]
          rfl
        rw [hq, Int.sub_mul_emod_self_left]
      omega
    unfold toBytes
    cases big
    · simp only [Bool.false_eq_true, if_false]
      rw [toLE_getElem? _ _ _ hj, key j hj]
    · simp only [if_true]
      rw [List.getElem?_reverse (by rw [length_toLE]; exact hj), length_toLE,
        toLE_getElem? _ _ _ (by omega), key _ (by omega)]

example : pack [.int (-2)] "s>" = .ok [255, 254] := rfl
example : pack [.int 0x12345] "v" = .ok [0x45, 0x23] := rfl

/-- `*`: every list of Integers, every directive. -/
theorem C32_roundtrip_star {d : String} {w : Nat} {signed big : Bool}
    (h : (d, w, signed, big) ∈ fixedDirectives) (is : List Int) :
    ∃ bs, pack (is.map .int) (d ++ "*") = .ok bs ∧ bs.length = w * is.length ∧
      unpack bs (d ++ "*") = .ok (is.map fun i => .int (reduce w signed i)) := by
  obtain ⟨hw, hw8⟩ := fixed_width _ h
  dsimp only at hw hw8
  have hp := parse_star (fixed_isDirective _ h)
  refine ⟨(is.map fun i => toBytes w big (coerceU64 i)).flatten, ?_, ?_, ?_⟩
  · exact pack_one hp (by simp) (by simp)
      (eachAll_ok (f := packInt w big) PV.int (fun i => toBytes w big (coerceU64 i)) is
        fun v _ => rfl)
  · induction is with
    | nil => simp
    | cons i is ih =>
      simp only [List.map_cons, List.flatten_cons, List.length_append, length_toBytes, ih,
        List.length_cons]
      ring
  · have hall := unpackAll_append (show 0 < w by omega)
      (fun c => PV.int (interpret w signed (ofBytes big c)))
      (is.map fun i => toBytes w big (coerceU64 i)) (by simp [length_toBytes])
      ((is.map fun i => toBytes w big (coerceU64 i)).flatten).length (by
        have : ∀ l : List Int, (l.map fun i => toBytes w big (coerceU64 i)).length ≤
            ((l.map fun i => toBytes w big (coerceU64 i)).flatten).length := by
          intro l
          induction l with
          | nil => simp
          | cons i l ih => simp [length_toBytes] at ih ⊢; omega
        exact this is)
    refine unpack_one hp ?_
    simp only [unpackNode, It.rem, List.drop_zero]
    rw [hall, List.map_map]
    simp only [Except.map]
    congr 1
    apply List.map_congr_left
    intro i _
    simp only [Function.comp, ofBytes_toBytes]
    rw [reduce_eq hw hw8]

example : ("q>", 8, true, true) ∈ fixedDirectives := by decide +kernel
example : ("l!", 8, true, false) ∈ fixedDirectives := by decide +kernel

/-- `reduce` is the residue: congruent, and in the range of the width and sign. -/
theorem C32_reduce (w : Nat) (hw : 1 ≤ w) (signed : Bool) (i : Int) :
    (256 ^ w : Int) ∣ i - reduce w signed i ∧
      (if signed then -(256 ^ w : Int) ≤ 2 * reduce w signed i ∧ 2 * reduce w signed i < 256 ^ w
        else 0 ≤ reduce w signed i ∧ reduce w signed i < 256 ^ w) := by
  have hpos : (0 : Int) < 256 ^ w := by positivity
  have heven : (256 : Int) ^ w = 2 * (128 * 256 ^ (w - 1)) := by
    conv_lhs => rw [show w = w - 1 + 1 by omega, pow_succ]
    ring
  cases signed
  · simp only [reduce, Bool.false_eq_true, if_false]
    exact ⟨Int.dvd_self_sub_emod, Int.emod_nonneg _ (by omega), Int.emod_lt_of_pos _ hpos⟩
  · simp only [reduce, if_true]
    refine ⟨?_, ?_, ?_⟩
    · have := Int.dvd_self_sub_bmod (x := i) (m := 256 ^ w)
      exact_mod_cast this
    · have h1 : -((256 ^ w / 2 : Nat) : Int) ≤ i.bmod (256 ^ w) := by
        have := Int.le_bmod (x := i) (m := 256 ^ w) (by positivity)
        push_cast at this ⊢
        exact this
      push_cast at h1
      omega
    · have h1 := Int.bmod_lt (x := i) (m := 256 ^ w) (by positivity)
      push_cast at h1
      omega

/-- An Integer already in range comes back unchanged. -/
theorem C32_in_range (w : Nat) (hw : 1 ≤ w) (signed : Bool) (i : Int)
    (h : if signed then -(256 ^ w : Int) ≤ 2 * i ∧ 2 * i < 256 ^ w else 0 ≤ i ∧ i < 256 ^ w) :
    reduce w signed i = i := by
  obtain ⟨⟨k, hk⟩, h2⟩ := C32_reduce w hw signed i
  have hpos : (0 : Int) < 256 ^ w := by positivity
  generalize (256 : Int) ^ w = m at *
  have hk0 : k = 0 := by
    have hlt : m * k < m ∧ -m < m * k := by
      cases signed <;> simp at h h2 <;> omega
    by_contra hne
    rcases lt_or_gt_of_ne hne with hneg | hpos'
    · have : m * k ≤ m * (-1) := Int.mul_le_mul_of_nonneg_left (by omega) (by omega)
      omega
    · have : m * 1 ≤ m * k := Int.mul_le_mul_of_nonneg_left (by omega) (by omega)
      omega
  subst hk0
  omega

/-- With a count larger than the data, each missing value is `nil`; a tail shorter than the width
is left alone. -/
theorem C32_missing_is_nil {d : String} {w : Nat} {signed big : Bool}
    (h : (d, w, signed, big) ∈ fixedDirectives) (is : List Int) (tail : List Nat)
    (ht : tail.length < w) (n : Nat) (hn : is.length ≤ n) (hn' : n < 2 ^ 63) :
    ∃ bs, pack (is.map .int) (d ++ "*") = .ok bs ∧
      unpack (bs ++ tail) (d ++ toString n) = .ok ((is.map fun i => PV.int (reduce w signed i)) ++
        List.replicate (n - is.length) PV.nil) := by
  obtain ⟨hw, hw8⟩ := fixed_width _ h
  dsimp only at hw hw8
  have hd := fixed_isDirective _ h
  refine ⟨(is.map fun i => toBytes w big (coerceU64 i)).flatten, ?_, ?_⟩
  · exact pack_one (parse_star hd) (by simp) (by simp)
      (eachAll_ok (f := packInt w big) PV.int (fun i => toBytes w big (coerceU64 i)) is
        fun v _ => rfl)
  · have hnil : ∀ (f : List Nat → PV) k, unpackN w f k tail = (List.replicate k PV.nil, tail) := by
      intro f k
      induction k with
      | zero => rfl
      | succ k ih =>
        simp only [unpackN, nextChunk, if_neg (show ¬ w ≤ tail.length by omega), ih,
          List.replicate_succ]
    have hmore : ∀ (f : List Nat → PV) (cs : List (List Nat)) k, (∀ c ∈ cs, c.length = w) →
        unpackN w f (cs.length + k) (cs.flatten ++ tail)
          = (cs.map f ++ List.replicate k PV.nil, tail) := by
      intro f cs k hcs
      induction cs with
      | nil => simpa using hnil f k
      | cons c cs ih =>
        have hc := hcs c (by simp)
        have hn : nextChunk w (c ++ (cs.flatten ++ tail)) = some (c, cs.flatten ++ tail) := by
          unfold nextChunk
          rw [if_pos (by simp [hc])]
          simp [← hc]
        rw [show (c :: cs).length + k = (cs.length + k) + 1 by simp; omega]
        simp only [List.flatten_cons, List.append_assoc, unpackN, hn, List.map_cons,
          List.cons_append]
        rw [ih fun c hc => hcs c (by simp [hc])]
    refine unpack_one (parse_counted hd n hn') ?_
    simp only [unpackNode, It.rem, List.drop_zero]
    have := hmore (fun c => PV.int (interpret w signed (ofBytes big c)))
      (is.map fun i => toBytes w big (coerceU64 i)) (n - is.length) (by simp [length_toBytes])
    rw [List.length_map, show is.length + (n - is.length) = n by omega] at this
    rw [this, List.map_map]
    simp only [Except.map]
    congr 2
    apply List.map_congr_left
    intro i _
    simp only [Function.comp, ofBytes_toBytes]
    rw [reduce_eq hw hw8]

example : unpack [1, 2, 3] "n3" = .ok [.int 258, .nil, .nil] := rfl

/-- With a count larger than the arguments, `pack` raises. -/
theorem C32_too_few_raises {d : String} {w : Nat} {signed big : Bool}
    (h : (d, w, signed, big) ∈ fixedDirectives) (is : List Int) (n : Nat) (hn : is.length < n)
    (hn' : n < 2 ^ 63) : pack (is.map .int) (d ++ toString n) = .error .argument := by
  have hd := fixed_isDirective _ h
  have hfew : ∀ (is : List Int) n, is.length < n →
      eachN (packInt w big) n (is.map .int) = .error .argument := by
    intro is
    induction is with
    | nil => intro n hn; cases n with
      | zero => simp at hn
      | succ n => rfl
    | cons i is ih =>
      intro n hn
      cases n with
      | zero => simp at hn
      | succ n =>
        have := ih n (by simpa using hn)
        simp only [List.map_cons, eachN, packInt, this]
  unfold pack
  rw [parse_counted hd n hn']
  simp only [packNodes, packNode, packOut, each, hfew is n hn]

/-! ## C47: records -/

/-- A record packs, and unpacking the bytes with the same template gives every field's values: the
fields neither swallow nor leave behind each other's bytes. -/
theorem C47_record_roundtrip (fs : List Field) (h : ∀ f ∈ fs, f.Ok ∧ f.count < 2 ^ 63) :
    ∃ bs, pack (fs.flatMap Field.args) (recordTemplate fs) = .ok bs ∧
      unpack bs (recordTemplate fs) = .ok (fs.flatMap Field.values) := by
  obtain ⟨bs, h1, h2⟩ := packNodes_law (fs.map fun f => (f.node, f.args, f.values)) (by
    intro e he
    obtain ⟨f, hf, rfl⟩ := List.mem_map.1 he
    exact f.law (h f hf).1) []
  have hp := parse_record fs h
  rw [List.map_map, List.map_map] at h1
  refine ⟨bs, ?_, ?_⟩
  · unfold pack
    rw [hp]
    simpa [List.flatMap_def, Function.comp_def] using h1
  · unfold unpack
    rw [hp]
    have := h2 ⟨bs, 0⟩ (by simp [It.rem])
    rw [List.map_map, List.map_map] at this
    simpa [List.flatMap_def, Function.comp_def] using this

/-- The record `["s>2", "Z5", "w1", "x1", "U2"]`. -/
example : recordTemplate [.ints "s>" 2 true true [-2, 70000], .cstring 5 [104, 105],
    .ber [300], .skip 1, .chars [0x3042, 65]] = "s>2Z5w1x1U2" := by decide +kernel

example : ∀ f ∈ [Field.ints "s>" 2 true true [-2, 70000], .cstring 5 [104, 105],
    .ber [300], .skip 1, .chars [0x3042, 65]], f.Ok ∧ f.count < 2 ^ 63 := by
  intro f hf
  simp only [List.mem_cons, List.not_mem_nil, or_false] at hf
  rcases hf with rfl | rfl | rfl | rfl | rfl
  · exact ⟨by unfold Field.Ok; decide +kernel, by decide⟩
  · exact ⟨⟨by decide, by decide⟩, by decide⟩
  · exact ⟨by intro i hi; simp at hi; subst hi; decide, by decide⟩
  · exact ⟨trivial, by decide⟩
  · exact ⟨by intro i hi; simp at hi; rcases hi with rfl | rfl <;> decide, by decide⟩

/-- A count is read as the decimal number it is, or `RangeError` is raised when it does not fit a
C `long`. -/
theorem C47_count_too_big {d : String} {w : Nat} {signed big : Bool}
    (h : (d, w, signed, big) ∈ fixedDirectives) (args : List PV) (bs : List Nat) (n : Nat)
    (hn : 2 ^ 63 ≤ n) :
    pack args (d ++ toString n) = .error .range ∧ unpack bs (d ++ toString n) = .error .range := by
  obtain ⟨ch, mods, hl, h1, h2, _, _, _, _, _, h8⟩ := fixed_isDirective _ h
  have hts : (toString n).toList = Nat.toDigits 10 n := Nat.toList_repr
  have hc := parseCount_digits n [] (by intro c hc; simp at hc)
  rw [if_neg (by omega), List.append_nil] at hc
  have hnm : NoMod (Nat.toDigits 10 n) := by
    intro c hc
    have := digit_not_mod (Nat.isDigit_of_mem_toDigits (b := 10) (by omega) (by omega)
      (List.mem_of_mem_head? hc))
    exact ⟨this.1, this.2.1, this.2.2.1, this.2.2.2.1⟩
  have hp : parse (d ++ toString n) = .error .range := by
    unfold parse
    rw [String.toList_append, hl, hts]
    simp only [List.cons_append, List.length_cons, parseAux, h1, beq_iff_eq, h2, if_false,
      Bool.false_eq_true]
    rw [parseDirective_error h8 hnm hc]
  unfold pack unpack
  rw [hp]
  exact ⟨rfl, rfl⟩

/-! ## C33: variable-length integers -/

/-- `R`: every list of Integers of 64 bits. -/
theorem C33_uleb_roundtrip (is : List Int) (h : ∀ i ∈ is, 0 ≤ i ∧ i < 2 ^ 64) :
    ∃ bs, pack (is.map .int) "R*" = .ok bs ∧ unpack bs "R*" = .ok (is.map .int) := by
  have hp : parse "R*" = .ok [⟨.uleb, false, none, true⟩] := parse_star isDir_big_r
  have henc : is.map (fun i => ulebEncode 10 (coerceU64 i))
      = (is.map Int.toNat).map fun n => ulebEncode 10 n := by
    rw [List.map_map]
    apply List.map_congr_left
    intro i hi
    have h1 := coerceU64_eq i
    have h2 := h i hi
    simp only [Function.comp]
    congr 1
    omega
  refine ⟨(is.map fun i => ulebEncode 10 (coerceU64 i)).flatten, ?_, ?_⟩
  · exact pack_one hp (by simp) (by simp)
      (eachAll_ok (f := packUleb) PV.int (fun i => ulebEncode 10 (coerceU64 i)) is fun v _ => rfl)
  · refine unpack_one hp ?_
    simp only [unpackNode, It.rem, List.drop_zero, Option.getD_none, Option.isNone_none, henc]
    rw [lebN_all ulebDecode (fun v => PV.int v) true (fun n => ulebEncode 10 n) (is.map Int.toNat)
      (by
        intro v hv
        obtain ⟨i, hi, rfl⟩ := List.mem_map.1 hv
        have := h i hi
        refine ⟨?_, fun l => uleb_roundtrip _ (by omega) l⟩
        unfold ulebEncode; split <;> simp) rfl _ (Nat.le_refl _)]
    rw [List.map_map]
    simp only [Except.map]
    congr 1
    apply List.map_congr_left
    intro i hi
    have := h i hi
    simp only [Function.comp, Int.toNat_of_nonneg this.1]

/-- `r`: every list of signed Integers of 64 bits. -/
theorem C33_sleb_roundtrip (is : List Int) (h : ∀ i ∈ is, -(2 ^ 63) ≤ i ∧ i < 2 ^ 63) :
    ∃ bs, pack (is.map .int) "r*" = .ok bs ∧ unpack bs "r*" = .ok (is.map .int) := by
  have hp : parse "r*" = .ok [⟨.sleb, false, none, true⟩] := parse_star isDir_r
  refine ⟨(is.map fun i => slebEncode 10 i).flatten, ?_, ?_⟩
  · exact pack_one hp (by simp) (by simp)
      (eachAll_ok (f := packSleb) PV.int (fun i => slebEncode 10 i) is
        fun i hi => packSleb_ok i (h i hi))
  · refine unpack_one hp ?_
    simp only [unpackNode, It.rem, List.drop_zero, Option.getD_none, Option.isNone_none]
    rw [lebN_all slebDecode (fun v => PV.int v) true (fun n => slebEncode 10 n) is
      (by
        intro i hi
        refine ⟨?_, fun l => sleb_roundtrip i (h i hi).1 (h i hi).2 l⟩
        unfold slebEncode; dsimp only; split <;> simp) rfl _ (Nat.le_refl _)]
    rfl

/-- An Integer outside 64 bits is refused by `r`, not mangled. -/
theorem C33_sleb_refuses (i : Int) (h : i < -(2 ^ 63) ∨ 2 ^ 63 ≤ i) :
    pack [.int i] "r" = .error .range := by
  have hc : coerceI64 i = .error .range := by
    unfold coerceI64; rw [if_neg (by omega)]
  have hp : parse "r" = .ok [⟨.sleb, false, some 1, false⟩] := parse_single isDir_r
  unfold pack
  rw [hp]
  simp only [packNodes, packNode, packOut, each, eachN, packSleb, hc]

/-- `w`: the Integers below `2 ^ 63`.  Missing: the larger ones, which do not survive
(`C33_ber_loses_large`). -/
theorem C33_ber_roundtrip_partial (is : List Int) (h : ∀ i ∈ is, 0 ≤ i ∧ i < 2 ^ 63) :
    ∃ bs, pack (is.map .int) "w*" = .ok bs ∧ unpack bs "w*" = .ok (is.map .int) := by
  have hp : parse "w*" = .ok [⟨.ber, false, none, true⟩] := parse_star isDir_w
  refine ⟨(is.map berBytes).flatten, ?_, ?_⟩
  · exact pack_one hp (by simp) (by simp)
      (eachAll_ok (f := packBer) PV.int berBytes is fun i hi => berBytes_ok (h i hi).1)
  · refine unpack_one hp ?_
    simp only [unpackNode, It.rem, List.drop_zero, Option.getD_none]
    rw [decodeN_all PV.int berBytes is (fun i hi => ber_step i (h i hi)) _ (Nat.le_refl _)]
    rfl

example : pack [.int 300, .int 0] "w*" = .ok [0x82, 0x2c, 0] := rfl

/-- **Finding.** `w` encodes any non-negative Integer, but reading back keeps only the low 64 bits
and takes them as signed: every Integer from `2 ^ 63` on comes back as another number. -/
theorem C33_ber_loses_large (i : Int) (h : 2 ^ 63 ≤ i) :
    ∃ bs j, pack [.int i] "w" = .ok bs ∧ unpack bs "w" = .ok [.int j] ∧ j ≠ i := by
  have hp : parse "w" = .ok [⟨.ber, false, some 1, false⟩] := parse_single isDir_w
  obtain ⟨bs, h1, h2, h3⟩ := ber_roundtrip i (by omega) []
  rw [List.append_nil] at h3
  refine ⟨bs, interpret 8 true (i.toNat % 2 ^ 64), ?_, ?_, ?_⟩
  · exact pack_one hp (by simp) (by simp) (more := [])
      (by simp [packOut, each, eachN, packBer, h1])
  · refine unpack_one hp ?_
    cases bs with
    | nil => exact absurd rfl h2
    | cons b bs =>
      simp only [unpackNode, It.rem, List.drop_zero, Option.getD_some, decodeN, h3]
      rfl
  · have : interpret 8 true (i.toNat % 2 ^ 64) < 2 ^ 63 := by
      unfold interpret
      simp only [Bool.true_and, decide_eq_true_eq]
      norm_num
      split <;> omega
    omega

/-- `[2**64].pack("w").unpack("w") == [0]`. -/
example : unpack [0x82, 0x80, 0x80, 0x80, 0x80, 0x80, 0x80, 0x80, 0x80, 0] "w" = .ok [.int 0] := rfl

/-- `R` is self-delimiting: what follows cannot change what is read. -/
theorem C33_uleb_self_delimiting {i j : Int} (hi : 0 ≤ i ∧ i < 2 ^ 64) (hj : 0 ≤ j ∧ j < 2 ^ 64)
    {p q x y : List Nat} (hp : pack [.int i] "R" = .ok p) (hq : pack [.int j] "R" = .ok q)
    (h : p ++ x = q ++ y) : i = j ∧ x = y := by
  have hpar : parse "R" = .ok [⟨.uleb, false, some 1, false⟩] := parse_single isDir_big_r
  have key : ∀ i, pack [.int i] "R" = .ok (ulebEncode 10 (coerceU64 i)) := fun i =>
    pack_one hpar (by simp) (by simp) (more := []) (by simp [packOut, each, eachN, packUleb])
  rw [key] at hp hq
  cases hp
  cases hq
  have h1 := uleb_step i hi x
  have h2 := uleb_step j hj y
  rw [h, h2] at h1
  simp only [Outcome.value.injEq] at h1
  have h3 := coerceU64_eq i
  have h4 := coerceU64_eq j
  exact ⟨by omega, h1.2.symm⟩

/-- `r` likewise. -/
theorem C33_sleb_self_delimiting {i j : Int} (hi : -(2 ^ 63) ≤ i ∧ i < 2 ^ 63)
    (hj : -(2 ^ 63) ≤ j ∧ j < 2 ^ 63) {p q x y : List Nat} (hp : pack [.int i] "r" = .ok p)
    (hq : pack [.int j] "r" = .ok q) (h : p ++ x = q ++ y) : i = j ∧ x = y := by
  have hpar : parse "r" = .ok [⟨.sleb, false, some 1, false⟩] := parse_single isDir_r
  have key : ∀ i, -(2 ^ 63) ≤ i ∧ i < 2 ^ 63 → pack [.int i] "r" = .ok (slebEncode 10 i) :=
    fun i hi => pack_one hpar (by simp) (by simp) (more := [])
      (by simp [packOut, each, eachN, packSleb_ok i hi])
  rw [key i hi] at hp
  rw [key j hj] at hq
  cases hp
  cases hq
  have h1 := sleb_roundtrip i hi.1 hi.2 x
  have h2 := sleb_roundtrip j hj.1 hj.2 y
  rw [h, h2] at h1
  simp only [Outcome.value.injEq] at h1
  exact ⟨h1.1.symm, h1.2.symm⟩

/-- `w` likewise, for Integers of any size: the bytes, unlike what reading makes of them, determine
the number. -/
theorem C33_ber_self_delimiting {i j : Int} {p q x y : List Nat}
    (hp : pack [.int i] "w" = .ok p) (hq : pack [.int j] "w" = .ok q) (h : p ++ x = q ++ y) :
    i = j ∧ x = y := by
  have hpar : parse "w" = .ok [⟨.ber, false, some 1, false⟩] := parse_single isDir_w
  have key : ∀ i r, pack [.int i] "w" = .ok r → 0 ≤ i ∧ r = berBytes i := by
    intro i r hr
    by_cases h0 : 0 ≤ i
    · refine ⟨h0, ?_⟩
      have := pack_one (args := [.int i]) (more := []) hpar (by simp) (by simp)
        (bs := berBytes i) (by simp [packOut, each, eachN, packBer, berBytes_ok h0])
      rw [this] at hr
      cases hr
      rfl
    · unfold pack at hr
      rw [hpar] at hr
      have : berEncode i = .error .argument := by unfold berEncode; rw [if_pos (by omega)]
      simp [packNodes, packNode, packOut, each, eachN, packBer, this] at hr
  obtain ⟨hi, rfl⟩ := key i p hp
  obtain ⟨hj, rfl⟩ := key j q hq
  exact berBytes_prefix hi hj h

/-! ## C35: UTF-8 -/

/-- `U`: every list of code points up to `0x1fffff` (all code points, and more).  The
larger numbers `pack` accepts `unpack` refuses (`C35_long_forms_unreadable`). -/
theorem C35_roundtrip (cps : List Nat) (h : ∀ c ∈ cps, c < 0x200000) :
    ∃ bs, pack (cps.map fun (c : Nat) => .int c) "U*" = .ok bs ∧
      unpack bs "U*" = .ok (cps.map fun (c : Nat) => .int c) := by
  have hp : parse "U*" = .ok [⟨.utf8, false, none, true⟩] := parse_star isDir_big_u
  refine ⟨(cps.map utf8Encode).flatten, ?_, ?_⟩
  · exact pack_one hp (by simp) (by simp)
      (eachAll_ok (f := packUtf8) (fun (c : Nat) => PV.int c) utf8Encode cps
        fun c hc => packUtf8_ok (by have := h c hc; omega))
  · refine unpack_one hp ?_
    simp only [unpackNode, It.rem, List.drop_zero, Option.getD_none]
    rw [decodeN_all (fun (c : Nat) => PV.int c) utf8Encode cps
      (fun c hc => ⟨utf8Encode_ne c, utf8_step c (h c hc)⟩) _ (Nat.le_refl _)]
    rfl

example : pack [.int 0x3042] "U" = .ok [0xe3, 0x81, 0x82] := rfl

/-- For a Unicode character the bytes are its UTF-8 encoding. -/
theorem C35_is_utf8 (c : Char) :
    pack [.int c.toNat] "U" = .ok ((String.utf8EncodeChar c).map UInt8.toNat) := by
  have hpar : parse "U" = .ok [⟨.utf8, false, some 1, false⟩] := parse_single isDir_big_u
  have hc : c.toNat < 0x110000 := by
    have := c.valid
    unfold UInt32.isValidChar Nat.isValidChar at this
    show c.val.toNat < _
    omega
  rw [← utf8Encode_char c]
  refine pack_one hpar (by simp) (by simp) (more := []) ?_
  exact packOut_utf8_one (packUtf8_ok (by omega))

/-- **Finding.** `pack("U")` accepts numbers up to `2 ^ 32 - 1` and writes five- and six-byte forms
for them; `unpack("U")` raises on every one of those. -/
theorem C35_long_forms_unreadable (c : Nat) (h : 0x200000 ≤ c) (h' : c < 2 ^ 32) :
    ∃ bs, pack [.int c] "U" = .ok bs ∧ unpack bs "U" = .error .argument := by
  have hp : parse "U" = .ok [⟨.utf8, false, some 1, false⟩] := parse_single isDir_big_u
  refine ⟨utf8Encode c, ?_, ?_⟩
  · exact pack_one hp (by simp) (by simp) (more := [])
      (packOut_utf8_one (packUtf8_ok h'))
  · have := utf8_long c h h' []
    rw [List.append_nil] at this
    have hne := utf8Encode_ne c
    unfold unpack
    rw [hp]
    cases he : utf8Encode c with
    | nil => exact absurd he hne
    | cons b bs =>
      rw [he] at this
      simp only [unpackNodes, unpackNode, It.rem, List.drop_zero, Option.getD_some, decodeN, this]
      rfl

/-- No encoding is a prefix of another, over everything `pack("U")` accepts. -/
theorem C35_prefix_free {a b : Int} {p q x y : List Nat} (hp : pack [.int a] "U" = .ok p)
    (hq : pack [.int b] "U" = .ok q) (h : p ++ x = q ++ y) : a = b ∧ x = y := by
  have hpar : parse "U" = .ok [⟨.utf8, false, some 1, false⟩] := parse_single isDir_big_u
  have key : ∀ i r, pack [.int i] "U" = .ok r → 0 ≤ i ∧ i < 2 ^ 32 ∧ r = utf8Encode i.toNat := by
    intro i r hr
    unfold pack at hr
    rw [hpar] at hr
    simp only [packNodes, packNode, packOut, each, eachN] at hr
    exact packUtf8_inv i r (by
      cases hpk : packUtf8 (.int i) with
      | error e => rw [hpk] at hr; simp at hr
      | ok bs => rw [hpk] at hr; simp at hr; rw [hr])
  obtain ⟨ha0, ha1, rfl⟩ := key a p hp
  obtain ⟨hb0, hb1, rfl⟩ := key b q hq
  obtain ⟨h1, h2⟩ := utf8_prefix (by omega) (by omega) h
  exact ⟨by omega, h2⟩

end Verif.Pack
