import Verif.Pack.Lemmas

/-!
# Lemmas about the pack model: UTF-8 and the text encodings
-/

namespace Verif.Pack

/-! ## UTF-8 -/

theorem lead2 {x : Nat} (h : x < 32) : (0xc0 ||| x) % 256 &&& 0x80 ≠ 0 ∧
    (0xc0 ||| x) % 256 &&& 0xe0 = 0xc0 ∧ (0xc0 ||| x) % 256 &&& 0x1f = x := of_decide_eq_true
  (lt_all (n := 32) (p := fun x => decide ((0xc0 ||| x) % 256 &&& 0x80 ≠ 0 ∧
    (0xc0 ||| x) % 256 &&& 0xe0 = 0xc0 ∧ (0xc0 ||| x) % 256 &&& 0x1f = x)) (by decide +kernel) h)

theorem lead3 {x : Nat} (h : x < 16) : (0xe0 ||| x) % 256 &&& 0x80 ≠ 0 ∧
    (0xe0 ||| x) % 256 &&& 0xe0 ≠ 0xc0 ∧ (0xe0 ||| x) % 256 &&& 0xf0 = 0xe0 ∧
    (0xe0 ||| x) % 256 &&& 0x0f = x := of_decide_eq_true
  (lt_all (n := 16) (p := fun x => decide ((0xe0 ||| x) % 256 &&& 0x80 ≠ 0 ∧
    (0xe0 ||| x) % 256 &&& 0xe0 ≠ 0xc0 ∧ (0xe0 ||| x) % 256 &&& 0xf0 = 0xe0 ∧
    (0xe0 ||| x) % 256 &&& 0x0f = x)) (by decide +kernel) h)

theorem lead4 {x : Nat} (h : x < 8) : (0xf0 ||| x) % 256 &&& 0x80 ≠ 0 ∧
    (0xf0 ||| x) % 256 &&& 0xe0 ≠ 0xc0 ∧ (0xf0 ||| x) % 256 &&& 0xf0 ≠ 0xe0 ∧
    (0xf0 ||| x) % 256 &&& 0xf8 = 0xf0 ∧ (0xf0 ||| x) % 256 &&& 0x07 = x := of_decide_eq_true
  (lt_all (n := 8) (p := fun x => decide ((0xf0 ||| x) % 256 &&& 0x80 ≠ 0 ∧
    (0xf0 ||| x) % 256 &&& 0xe0 ≠ 0xc0 ∧ (0xf0 ||| x) % 256 &&& 0xf0 ≠ 0xe0 ∧
    (0xf0 ||| x) % 256 &&& 0xf8 = 0xf0 ∧ (0xf0 ||| x) % 256 &&& 0x07 = x)) (by decide +kernel) h)

/-- The leading bytes of the five- and six-byte forms are refused. -/
theorem lead56 {x : Nat} (h : x < 8) : (0xf8 ||| x) % 256 &&& 0x80 ≠ 0 ∧
    (0xf8 ||| x) % 256 &&& 0xe0 ≠ 0xc0 ∧ (0xf8 ||| x) % 256 &&& 0xf0 ≠ 0xe0 ∧
    (0xf8 ||| x) % 256 &&& 0xf8 ≠ 0xf0 := of_decide_eq_true
  (lt_all (n := 8) (p := fun x => decide ((0xf8 ||| x) % 256 &&& 0x80 ≠ 0 ∧
    (0xf8 ||| x) % 256 &&& 0xe0 ≠ 0xc0 ∧ (0xf8 ||| x) % 256 &&& 0xf0 ≠ 0xe0 ∧
    (0xf8 ||| x) % 256 &&& 0xf8 ≠ 0xf0)) (by decide +kernel) h)

theorem cont {x : Nat} : (0x80 ||| x &&& 0x3f) &&& 0x3f = x % 64 := by
  rw [and3f x]
  have := lt_all (n := 64) (p := fun x => decide ((0x80 ||| x) &&& 0x3f = x)) (by decide +kernel)
    (show x % 64 < 64 by omega)
  exact of_decide_eq_true this

theorem cont' {x : Nat} : (0x80 ||| x &&& 0x3f) = 128 + x % 64 := by
  rw [and3f x]
  have := lt_all (n := 64) (p := fun x => decide ((0x80 ||| x) = 128 + x)) (by decide +kernel)
    (show x % 64 < 64 by omega)
  exact of_decide_eq_true this

theorem or3 {a b c : Nat} (hb : b < 64) (hc : c < 64) :
    a <<< 12 ||| b <<< 6 ||| c = a * 4096 + b * 64 + c := by
  have h1 : a <<< 12 ||| b <<< 6 = (a * 64 + b) <<< 6 := by
    rw [show (12 : Nat) = 6 + 6 from rfl, Nat.shiftLeft_add, ← Nat.shiftLeft_or_distrib,
      or_shift (show b < 2 ^ 6 by omega)]
    norm_num
  rw [h1, or_shift (show c < 2 ^ 6 by omega)]
  ring

theorem or4 {a b c d : Nat} (hb : b < 64) (hc : c < 64) (hd : d < 64) :
    a <<< 18 ||| b <<< 12 ||| c <<< 6 ||| d = a * 262144 + b * 4096 + c * 64 + d := by
  have h1 : a <<< 18 ||| b <<< 12 ||| c <<< 6 = (a * 4096 + b * 64 + c) <<< 6 := by
    rw [show (18 : Nat) = 12 + 6 from rfl, Nat.shiftLeft_add, show (12 : Nat) = 6 + 6 from rfl,
      Nat.shiftLeft_add b, ← Nat.shiftLeft_or_distrib, ← Nat.shiftLeft_or_distrib,
      ← or3 hb hc]
  rw [h1, or_shift (show d < 2 ^ 6 by omega)]
  ring

theorem utf8_roundtrip (cp : Nat) (h : cp < 0x200000) (l : List Nat) :
    utf8Decode (utf8Encode cp ++ l) = .ok (cp, l) := by
  have s6 : cp >>> 6 = cp / 64 := Nat.shiftRight_eq_div_pow cp 6
  have s12 : cp >>> 12 = cp / 4096 := Nat.shiftRight_eq_div_pow cp 12
  have s18 : cp >>> 18 = cp / 262144 := Nat.shiftRight_eq_div_pow cp 18
  unfold utf8Encode
  split
  · have := (or80 (show cp < 128 by omega)).2.2.2.1
    simp only [List.cons_append, List.nil_append, utf8Decode, this, if_true]
  split
  · obtain ⟨h1, h2, h3⟩ := lead2 (show cp >>> 6 < 32 by omega)
    simp only [List.cons_append, List.nil_append, utf8Decode, h1, h2, h3, if_true, if_false, cont]
    rw [or_shift (show cp % 64 < 2 ^ 6 by omega), s6]
    congr 2
    omega
  split
  · obtain ⟨h1, h2, h3, h4⟩ := lead3 (show cp >>> 12 < 16 by omega)
    simp only [List.cons_append, List.nil_append, utf8Decode, h1, h2, h3, h4, if_true, if_false,
      cont]
    rw [or3 (by omega) (by omega), s6, s12]
    congr 2
    omega
  split
  · obtain ⟨h1, h2, h3, h4, h5⟩ := lead4 (show cp >>> 18 < 8 by omega)
    simp only [List.cons_append, List.nil_append, utf8Decode, h1, h2, h3, h4, h5, if_true, if_false,
      cont]
    rw [or4 (by omega) (by omega) (by omega), s6, s12, s18]
    congr 2
    omega
  · omega

/-- The long forms cannot be read back. -/
theorem utf8_long (cp : Nat) (h : 0x200000 ≤ cp) (h' : cp < 2 ^ 32) (l : List Nat) :
    utf8Decode (utf8Encode cp ++ l) = .error .argument := by
  have s24 : cp >>> 24 = cp / 16777216 := Nat.shiftRight_eq_div_pow cp 24
  have s30 : cp >>> 30 = cp / 1073741824 := Nat.shiftRight_eq_div_pow cp 30
  unfold utf8Encode
  rw [if_neg (by omega), if_neg (by omega), if_neg (by omega), if_neg (by omega)]
  split
  · obtain ⟨h1, h2, h3, h4⟩ := lead56 (show cp >>> 24 < 8 by omega)
    simp only [List.cons_append, List.nil_append, utf8Decode, h1, h2, h3, h4, if_false]
  · have h30 : cp >>> 30 < 4 := by omega
    have he : (0xfc ||| cp >>> 30) = (0xf8 ||| (4 + cp >>> 30)) := by
      have := lt_all (n := 4) (p := fun x => decide ((0xfc ||| x) = (0xf8 ||| (4 + x))))
        (by decide +kernel) h30
      exact of_decide_eq_true this
    rw [he]
    obtain ⟨h1, h2, h3, h4⟩ := lead56 (show 4 + cp >>> 30 < 8 by omega)
    simp only [List.cons_append, List.nil_append, utf8Decode, h1, h2, h3, h4, if_false]

/-! ## Chunks -/

theorem chunksAux_fuel {n : Nat} (hn : 0 < n) (l : List Nat) (f : Nat) (h : l.length ≤ f) :
    chunksAux n f l = chunks n l := by
  unfold chunks
  induction hl : l.length using Nat.strong_induction_on generalizing l f with
  | _ m ih =>
    cases l with
    | nil => subst hl; cases f <;> rfl
    | cons a l =>
      subst hl
      cases f with
      | zero => simp at h
      | succ f =>
        simp only [List.length_cons, chunksAux]
        congr 1
        have h1 : ((a :: l).drop n).length < (a :: l).length := by simp; omega
        have h2 : ((a :: l).drop n).length ≤ l.length := by simp; omega
        have h3 : ((a :: l).drop n).length ≤ f := by
          have : l.length ≤ f := by simpa using h
          omega
        rw [ih _ h1 _ f h3 rfl, ih _ h1 _ l.length h2 rfl]

theorem chunks_cons {n : Nat} (hn : 0 < n) {l : List Nat} (h : l ≠ []) :
    chunks n l = l.take n :: chunks n (l.drop n) := by
  cases l with
  | nil => exact absurd rfl h
  | cons a l =>
    conv_lhs => unfold chunks
    simp only [List.length_cons, chunksAux]
    rw [chunksAux_fuel hn _ _ (by simp; omega)]

theorem chunks_nil (n : Nat) : chunks n [] = [] := rfl

theorem chunks_spec {n : Nat} (hn : 0 < n) (l : List Nat) :
    (chunks n l).flatten = l ∧ ∀ c ∈ chunks n l, c ≠ [] ∧ c.length ≤ n ∧ ∀ b ∈ c, b ∈ l := by
  induction hl : l.length using Nat.strong_induction_on generalizing l with
  | _ m ih =>
    by_cases h : l = []
    · subst h; simp [chunks_nil]
    · have hpos : 0 < l.length := List.length_pos_iff.2 h
      obtain ⟨h1, h2⟩ := ih (l.drop n).length (by simp; omega) (l.drop n) rfl
      rw [chunks_cons hn h]
      refine ⟨by simp [h1], ?_⟩
      intro c hc
      rcases List.mem_cons.1 hc with rfl | hc
      · refine ⟨?_, by simp, fun b hb => List.mem_of_mem_take hb⟩
        rw [ne_eq, List.take_eq_nil_iff]
        push Not
        exact ⟨by omega, h⟩
      · obtain ⟨h3, h4, h5⟩ := h2 c hc
        exact ⟨h3, h4, fun b hb => List.mem_of_mem_drop (h5 b hb)⟩

/-! ## Base64 -/

theorem b64_char {v : Nat} (h : v < 64) : b64char v ≠ 61 ∧ b64val (b64char v) = some v :=
  of_decide_eq_true (lt_all (n := 64)
    (p := fun v => decide (b64char v ≠ 61 ∧ b64val (b64char v) = some v)) (by decide +kernel) h)

theorem triple3 {a b c : Nat} (hb : b < 256) (hc : c < 256) :
    a <<< 16 ||| b <<< 8 ||| c = a * 65536 + b * 256 + c := by
  have h1 : a <<< 16 ||| b <<< 8 = (a * 256 + b) <<< 8 := by
    rw [show (16 : Nat) = 8 + 8 from rfl, Nat.shiftLeft_add, ← Nat.shiftLeft_or_distrib,
      or_shift (show b < 2 ^ 8 by omega)]
    norm_num
  rw [h1, or_shift (show c < 2 ^ 8 by omega)]
  ring

theorem sh6 (v : Nat) : v >>> 6 = v / 64 := Nat.shiftRight_eq_div_pow v 6
theorem sh8 (v : Nat) : v >>> 8 = v / 256 := Nat.shiftRight_eq_div_pow v 8
theorem sh12 (v : Nat) : v >>> 12 = v / 4096 := Nat.shiftRight_eq_div_pow v 12
theorem sh16 (v : Nat) : v >>> 16 = v / 65536 := Nat.shiftRight_eq_div_pow v 16
theorem sh18 (v : Nat) : v >>> 18 = v / 262144 := Nat.shiftRight_eq_div_pow v 18

theorem b64_four {w x y z : Nat} (hw : w < 64) (hx : x < 64) (hy : y < 64) (hz : z < 64)
    (l : List Nat) :
    b64DecodeLoop [] 0 (b64char w :: b64char x :: b64char y :: b64char z :: l)
      = b64flush [w, x, y, z] 0 ++ b64DecodeLoop [] 0 l := by
  simp [b64DecodeLoop, b64_char hw, b64_char hx, b64_char hy, b64_char hz]

theorem b64_three {w x y : Nat} (hw : w < 64) (hx : x < 64) (hy : y < 64) (l : List Nat) :
    b64DecodeLoop [] 0 (b64char w :: b64char x :: b64char y :: 61 :: l)
      = b64flush [w, x, y, 0] 1 ++ b64DecodeLoop [] 0 l := by
  simp [b64DecodeLoop, b64_char hw, b64_char hx, b64_char hy]

theorem b64_two {w x : Nat} (hw : w < 64) (hx : x < 64) (l : List Nat) :
    b64DecodeLoop [] 0 (b64char w :: b64char x :: 61 :: 61 :: l)
      = b64flush [w, x, 0, 0] 2 ++ b64DecodeLoop [] 0 l := by
  simp [b64DecodeLoop, b64_char hw, b64_char hx]

theorem b64_group (c : List Nat) (hne : c ≠ []) (hl : c.length ≤ 3) (hb : ∀ b ∈ c, b < 256)
    (l : List Nat) : b64DecodeLoop [] 0 (b64group c ++ l) = c ++ b64DecodeLoop [] 0 l := by
  match c, hne, hl, hb with
  | [a], _, _, hb =>
    have ha : a < 256 := hb a (by simp)
    simp only [b64group, triple, List.length_cons, List.length_nil, List.cons_append,
      List.nil_append, and3f, sh6, sh12, sh18]
    simp only [List.getD_cons_zero, List.getD_cons_succ, List.getD_nil]
    rw [if_neg (by omega), if_neg (by omega), b64_two (by omega) (by omega),
      triple3 (by omega) (by omega)]
    simp only [b64flush, List.getD_cons_zero, List.getD_cons_succ]
    rw [or4 (by omega) (by omega) (by omega), sh16]
    simp
    omega
  | [a, b], _, _, hb =>
    have ha : a < 256 := hb a (by simp)
    have hb' : b < 256 := hb b (by simp)
    simp only [b64group, triple, List.length_cons, List.length_nil, List.cons_append,
      List.nil_append, and3f, sh6, sh12, sh18]
    simp only [List.getD_cons_zero, List.getD_cons_succ, List.getD_nil]
    rw [if_pos (by omega), if_neg (by omega), b64_three (by omega) (by omega) (by omega),
      triple3 (by omega) (by omega)]
    simp only [b64flush, List.getD_cons_zero, List.getD_cons_succ]
    rw [or4 (by omega) (by omega) (by omega), sh16, sh8]
    simp
    omega
  | [a, b, c], _, _, hb =>
    have ha : a < 256 := hb a (by simp)
    have hb' : b < 256 := hb b (by simp)
    have hc : c < 256 := hb c (by simp)
    simp only [b64group, triple, List.length_cons, List.length_nil, List.cons_append,
      List.nil_append, and3f, sh6, sh12, sh18]
    simp only [List.getD_cons_zero, List.getD_cons_succ]
    rw [if_pos (by omega), if_pos (by omega),
      b64_four (by omega) (by omega) (by omega) (by omega), triple3 (by omega) (by omega)]
    simp only [b64flush, List.getD_cons_zero, List.getD_cons_succ]
    rw [or4 (by omega) (by omega) (by omega), sh16, sh8]
    simp
    omega
  | _ :: _ :: _ :: _ :: _, _, hl, _ => simp at hl

theorem b64_newline (l : List Nat) : b64DecodeLoop [] 0 (10 :: l) = b64DecodeLoop [] 0 l := by
  simp [b64DecodeLoop, b64val]

theorem b64_loop (per col : Nat) (cs : List (List Nat))
    (h : ∀ c ∈ cs, c ≠ [] ∧ c.length ≤ 3 ∧ ∀ b ∈ c, b < 256) :
    b64DecodeLoop [] 0 (b64Loop per col cs) = cs.flatten := by
  induction cs generalizing col with
  | nil =>
    unfold b64Loop
    split
    · rw [b64_newline]; rfl
    · rfl
  | cons c cs ih =>
    obtain ⟨h1, h2, h3⟩ := h c (by simp)
    have h' : ∀ c ∈ cs, c ≠ [] ∧ c.length ≤ 3 ∧ ∀ b ∈ c, b < 256 := fun c hc => h c (by simp [hc])
    unfold b64Loop
    split
    · rw [b64_group c h1 h2 h3, b64_newline, ih _ h', List.flatten_cons]
    · rw [b64_group c h1 h2 h3, ih _ h', List.flatten_cons]

theorem b64_roundtrip (n : Nat) (data : List Nat) (h : ∀ b ∈ data, b < 256) :
    b64Decode (b64Encode n data) = data := by
  obtain ⟨h1, h2⟩ := chunks_spec (show 0 < 3 by omega) data
  unfold b64Decode b64Encode
  rw [b64_loop, h1]
  intro c hc
  obtain ⟨h3, h4, h5⟩ := h2 c hc
  exact ⟨h3, h4, fun b hb => h b (h5 b hb)⟩

/-! ## Quoted-printable -/

theorem qpAux_fuel (l : List Nat) (f : Nat) (h : l.length ≤ f) :
    qpDecodeAux f l = qpDecode l := by
  unfold qpDecode
  induction hl : l.length using Nat.strong_induction_on generalizing l f with
  | _ m ih =>
    cases l with
    | nil => subst hl; cases f <;> rfl
    | cons c rest =>
      subst hl
      cases f with
      | zero => simp at h
      | succ f =>
        have hf : rest.length ≤ f := by simpa using h
        have key : ∀ t : List Nat, t.length ≤ rest.length →
            qpDecodeAux f t = qpDecodeAux rest.length t := by
          intro t ht
          rw [ih t.length (by simp; omega) t f (by omega) rfl,
            ih t.length (by simp; omega) t rest.length ht rfl]
        simp only [List.length_cons, qpDecodeAux]
        rcases rest with _ | ⟨c1, _ | ⟨c2, rest'⟩⟩
        · rw [key [] (by simp)]
        · dsimp only
          rw [key [] (by simp), key [c1] (by simp)]
        · dsimp only
          rw [key (c2 :: rest') (by simp), key rest' (by simp; omega), key (c1 :: c2 :: rest') (by simp)]

theorem qp_plain {c : Nat} (h : c ≠ 61) (l : List Nat) : qpDecode (c :: l) = c :: qpDecode l := by
  conv_lhs => unfold qpDecode
  simp only [List.length_cons, qpDecodeAux, if_neg h]
  rw [qpAux_fuel _ _ (Nat.le_refl _)]

theorem qp_soft (l : List Nat) : qpDecode (61 :: 10 :: l) = qpDecode l := by
  conv_lhs => unfold qpDecode
  cases l with
  | nil => rfl
  | cons c l =>
    have : qpDecodeAux (61 :: 10 :: c :: l).length (61 :: 10 :: c :: l)
        = qpDecodeAux (10 :: c :: l).length (c :: l) := by
      rw [List.length_cons]
      conv_lhs => unfold qpDecodeAux
      simp
    rw [this, qpAux_fuel _ _ (by simp)]

theorem upHex_val {v : Nat} (h : v < 16) : upHex v ≠ 10 ∧ upHex v ≠ 13 ∧ hexVal (upHex v) = some v :=
  of_decide_eq_true (lt_all (n := 16)
    (p := fun v => decide (upHex v ≠ 10 ∧ upHex v ≠ 13 ∧ hexVal (upHex v) = some v))
    (by decide +kernel) h)

theorem qp_hex {b : Nat} (h : b < 256) (l : List Nat) :
    qpDecode (61 :: upHex (b / 16) :: upHex (b % 16) :: l) = b :: qpDecode l := by
  obtain ⟨h1, h2, h3⟩ := upHex_val (show b / 16 < 16 by omega)
  obtain ⟨_, _, h6⟩ := upHex_val (show b % 16 < 16 by omega)
  conv_lhs => unfold qpDecode
  simp only [List.length_cons, qpDecodeAux, if_true]
  rw [if_neg h1, if_neg (fun h => h2 h.1), h3, h6]
  dsimp only
  rw [qpAux_fuel _ _ (by omega), Nat.mod_eq_of_lt (by rw [Nat.shiftLeft_eq]; omega),
    or_shift (show b % 16 < 2 ^ 4 by omega)]
  congr 1
  omega

theorem qp_loop (limit : Nat) (data : List Nat) (out : List Nat) (col : Nat)
    (h : ∀ b ∈ data, b < 256) :
    ∃ toks, qpLoop limit out col data = out ++ toks ∧
      ∀ l, qpDecode (toks ++ l) = data ++ qpDecode l := by
  induction data generalizing out col with
  | nil => exact ⟨[], by simp [qpLoop], by simp⟩
  | cons b data ih =>
    have hb : b < 256 := h b (by simp)
    have h' : ∀ b ∈ data, b < 256 := fun b hb => h b (by simp [hb])
    unfold qpLoop
    split
    · rename_i h10
      subst h10
      split
      · obtain ⟨toks, h1, h2⟩ := ih (out ++ [61, 10] ++ [10]) 0 h'
        refine ⟨61 :: 10 :: 10 :: toks, by rw [h1]; simp, fun l => ?_⟩
        simp only [List.cons_append]
        rw [qp_soft, qp_plain (by omega), h2]
      · obtain ⟨toks, h1, h2⟩ := ih (out ++ [10]) 0 h'
        refine ⟨10 :: toks, by rw [h1]; simp, fun l => ?_⟩
        simp only [List.cons_append]
        rw [qp_plain (by omega), h2]
    · dsimp only
      split
      · rename_i hp
        have h61 : b ≠ 61 := by
          rintro rfl
          exact absurd hp (by decide)
        obtain ⟨toks, h1, h2⟩ := ih ((if limit < col then out ++ [61, 10] else out) ++ [b])
          ((if limit < col then 0 else col) + 1) h'
        rw [h1]
        split
        · refine ⟨61 :: 10 :: b :: toks, by simp, fun l => ?_⟩
          simp only [List.cons_append]
          rw [qp_soft, qp_plain h61, h2]
        · refine ⟨b :: toks, by simp, fun l => ?_⟩
          simp only [List.cons_append]
          rw [qp_plain h61, h2]
      · obtain ⟨toks, h1, h2⟩ := ih ((if limit < col then out ++ [61, 10] else out) ++
          [61, upHex (b / 16), upHex (b % 16)]) ((if limit < col then 0 else col) + 3) h'
        rw [h1]
        split
        · refine ⟨61 :: 10 :: 61 :: upHex (b / 16) :: upHex (b % 16) :: toks, by simp,
            fun l => ?_⟩
          simp only [List.cons_append]
          rw [qp_soft, qp_hex hb, h2]
        · refine ⟨61 :: upHex (b / 16) :: upHex (b % 16) :: toks, by simp, fun l => ?_⟩
          simp only [List.cons_append]
          rw [qp_hex hb, h2]

theorem qp_roundtrip (n : Nat) (data : List Nat) (h : ∀ b ∈ data, b < 256) :
    qpDecode (qpEncode n data) = data := by
  unfold qpEncode
  split
  · rename_i he
    rw [List.isEmpty_iff] at he
    subst he
    rfl
  · dsimp only
    obtain ⟨toks, h1, h2⟩ := qp_loop (if 1 < n then n else 72) data [] 0 h
    rw [h1, List.nil_append]
    split
    · rw [h2, qp_soft]
      simp [qpDecode, qpDecodeAux]
    · have := h2 []
      simpa [qpDecode, qpDecodeAux] using this

/-! ## UU -/

theorem uu_char {v : Nat} (h : v < 64) : uuVal (uuChar v) = v ∧ uuChar v ≠ 10 :=
  of_decide_eq_true (lt_all (n := 64)
    (p := fun v => decide (uuVal (uuChar v) = v ∧ uuChar v ≠ 10)) (by decide +kernel) h)

theorem uu_group (c rest : List Nat) (hb : ∀ b ∈ c, b < 256) :
    uuGroups (uuGroup c ++ rest)
      = c.getD 0 0 :: c.getD 1 0 :: c.getD 2 0 :: uuGroups rest := by
  have hget : ∀ i, c.getD i 0 < 256 := by
    intro i
    rw [List.getD_eq_getElem?_getD]
    cases hc : c[i]? with
    | none => simp
    | some b => exact hb b (List.mem_of_getElem? hc)
  have h0 := hget 0
  have h1 := hget 1
  have h2 := hget 2
  simp only [uuGroup, triple, List.cons_append, List.nil_append, and3f, sh6, sh12, sh18]
  rw [triple3 h1 h2]
  generalize c.getD 0 0 = x at *
  generalize c.getD 1 0 = y at *
  generalize c.getD 2 0 = z at *
  simp only [uuGroups]
  rw [(uu_char (show (x * 65536 + y * 256 + z) / 262144 % 64 < 64 by omega)).1,
    (uu_char (show (x * 65536 + y * 256 + z) / 4096 % 64 < 64 by omega)).1,
    (uu_char (show (x * 65536 + y * 256 + z) / 64 % 64 < 64 by omega)).1,
    (uu_char (show (x * 65536 + y * 256 + z) % 64 < 64 by omega)).1,
    or4 (by omega) (by omega) (by omega), sh8, sh16]
  congr 1
  · omega
  congr 1
  · omega
  congr 1
  omega

theorem uu_body (line : List Nat) (h : ∀ b ∈ line, b < 256) :
    (uuGroups ((chunks 3 line).map uuGroup).flatten).take line.length = line := by
  induction hl : line.length using Nat.strong_induction_on generalizing line with
  | _ m ih =>
    subst hl
    match line, h with
    | [], _ => rfl
    | [a], h =>
      rw [chunks_cons (by omega) (by simp)]
      simp only [List.take, List.drop, chunks_nil, List.map_cons, List.map_nil, List.flatten_cons,
        List.flatten_nil]
      rw [uu_group _ _ h]
      simp
    | [a, b], h =>
      rw [chunks_cons (by omega) (by simp)]
      simp only [List.take, List.drop, chunks_nil, List.map_cons, List.map_nil, List.flatten_cons,
        List.flatten_nil]
      rw [uu_group _ _ h]
      simp
    | a :: b :: c :: rest, h =>
      rw [chunks_cons (by omega) (by simp)]
      simp only [List.take, List.drop, List.map_cons, List.flatten_cons]
      rw [uu_group _ _ (fun x hx => h x (by simp at hx ⊢; tauto))]
      have := ih rest.length (by simp; omega) rest (fun x hx => h x (by simp [hx])) rfl
      simpa using this

theorem uu_no_newline (line : List Nat) :
    ∀ c ∈ ((chunks 3 line).map uuGroup).flatten, c ≠ 10 := by
  intro c hc
  obtain ⟨g, hg, hcg⟩ := List.mem_flatten.1 hc
  obtain ⟨k, _, rfl⟩ := List.mem_map.1 hg
  simp only [uuGroup, and3f, List.mem_cons, List.not_mem_nil, or_false] at hcg
  rcases hcg with rfl | rfl | rfl | rfl <;> exact (uu_char (by omega)).2

theorem splitLines_append (cur line rest : List Nat) (h : ∀ c ∈ line, c ≠ 10) :
    splitLines cur (line ++ 10 :: rest) = (cur ++ line) :: splitLines [] rest := by
  induction line generalizing cur with
  | nil => simp [splitLines]
  | cons c line ih =>
    simp only [List.cons_append, splitLines, if_neg (h c (by simp))]
    rw [ih _ fun c hc => h c (by simp [hc])]
    simp

theorem uu_lines (lines : List (List Nat))
    (h : ∀ c ∈ lines, c ≠ [] ∧ c.length ≤ 45 ∧ ∀ b ∈ c, b < 256) :
    uuDecode (lines.map fun line =>
      (line.length % 256 + 32) % 256 :: ((chunks 3 line).map uuGroup).flatten ++ [10]).flatten
      = lines.flatten := by
  induction lines with
  | nil => rfl
  | cons line lines ih =>
    obtain ⟨h1, h2, h3⟩ := h line (by simp)
    have hpos : 0 < line.length := List.length_pos_iff.2 h1
    have := ih fun c hc => h c (by simp [hc])
    unfold uuDecode at this ⊢
    simp only [List.map_cons, List.flatten_cons, List.append_assoc, List.singleton_append]
    rw [splitLines_append]
    · simp only [List.nil_append, List.map_cons, List.flatten_cons]
      rw [this]
      congr 1
      simp only [uuLine]
      rw [show (line.length % 256 + 32) % 256 = line.length + 32 by omega, if_pos (by omega),
        if_neg (by omega), Nat.add_sub_cancel, uu_body _ h3]
    · intro c hc
      rcases List.mem_cons.1 hc with rfl | hc
      · omega
      · exact uu_no_newline _ c hc

theorem uu_roundtrip (n : Nat) (hn : n = 0 ∨ 3 ≤ n) (data : List Nat) (h : ∀ b ∈ data, b < 256) :
    uuDecode (uuEncode n data) = data := by
  unfold uuEncode
  have hk : 0 < (if n = 0 then 45 else min n 45 / 3 * 3) ∧
      (if n = 0 then 45 else min n 45 / 3 * 3) ≤ 45 := by
    split <;> omega
  generalize (if n = 0 then 45 else min n 45 / 3 * 3) = k at hk
  obtain ⟨h1, h2⟩ := chunks_spec hk.1 data
  rw [uu_lines, h1]
  intro c hc
  obtain ⟨h3, h4, h5⟩ := h2 c hc
  exact ⟨h3, by omega, fun b hb => h b (h5 b hb)⟩

/-! ## Hex strings -/

theorem padded_self (f : Nat → Nat) (s : List Nat) : padded f s.length s = s.map f := by
  unfold padded
  apply List.ext_getElem
  · simp
  · intro i h1 h2
    simp at h1 h2
    simp [h1]

theorem hexPack_two (high : Bool) (a b : Nat) (l : List Nat) :
    hexPack high none (a :: b :: l) =
      (if high then a <<< 4 ||| b else a ||| b <<< 4) :: hexPack high none l := by
  cases high <;> simp [hexPack]

theorem low_hex {v : Nat} (h : v < 16) : nibble (lowHex v) = v := of_decide_eq_true
  (lt_all (n := 16) (p := fun v => decide (nibble (lowHex v) = v)) (by decide +kernel) h)

theorem nibble_lt (c : Nat) : nibble c < 16 := by
  unfold nibble; split <;> rw [and0f] <;> omega

theorem sh4 (v : Nat) : v >>> 4 = v / 16 := Nat.shiftRight_eq_div_pow v 4

theorem hexByte_val {b : Nat} (big : Bool) (h : b < 256) :
    hexByte big b >>> 4 = (if big then b / 16 else b % 16) ∧
      hexByte big b &&& 0x0f = (if big then b % 16 else b / 16) := by
  cases big
  · simp only [hexByte, Bool.false_eq_true, if_false, sh4, and0f]
    have : b <<< 4 % 256 = (b % 16) <<< 4 := by simp only [Nat.shiftLeft_eq]; omega
    rw [this, or_shift (show b / 16 < 2 ^ 4 by omega)]
    omega
  · simp only [hexByte, if_true, sh4, and0f]
    trivial

/-- `unpack("H*")` then `pack("H*")`. -/
theorem hex_bytes (big : Bool) (data : List Nat) (h : ∀ b ∈ data, b < 256) :
    hexPack big none ((hexUnpackAll big data).map nibble) = data := by
  induction data with
  | nil => rfl
  | cons b data ih =>
    have hb : b < 256 := h b (by simp)
    have := ih fun b hb => h b (by simp [hb])
    obtain ⟨h1, h2⟩ := hexByte_val big hb
    unfold hexUnpackAll at this ⊢
    simp only [List.map_cons, List.flatten_cons, List.map_append, List.map_nil, List.cons_append,
      List.nil_append]
    rw [hexPack_two, this, h1, h2, low_hex (by split <;> omega), low_hex (by split <;> omega)]
    congr 1
    cases big
    · simp only [Bool.false_eq_true, if_false]
      rw [shift_or (show b % 16 < 2 ^ 4 by omega)]
      omega
    · simp only [if_true]
      rw [or_shift (show b % 16 < 2 ^ 4 by omega)]
      omega

theorem hexPack_byte {a b : Nat} (big : Bool) (ha : a < 16) (hb : b < 16) :
    (if big then a <<< 4 ||| b else a ||| b <<< 4) = if big then a * 16 + b else a + b * 16 := by
  cases big
  · simp only [Bool.false_eq_true, if_false]; rw [shift_or (show a < 2 ^ 4 by omega)]; norm_num
  · simp only [if_true]; rw [or_shift (show b < 2 ^ 4 by omega)]; norm_num

/-- `pack("Hn")` then `unpack("Hn")`: the digits, in lower case. -/
theorem hex_digits (big : Bool) (ns rest : List Nat) (h : ∀ n ∈ ns, n < 16) :
    hexUnpackN big ns.length (hexPack big none ns ++ rest) = (ns.map lowHex, rest) := by
  induction hl : ns.length using Nat.strong_induction_on generalizing ns with
  | _ m ih =>
    subst hl
    match ns, h with
    | [], _ => cases rest <;> rfl
    | [a], h =>
      have ha : a < 16 := h a (by simp)
      have : hexPack big none [a] = [if big then a <<< 4 else a] := by cases big <;> rfl
      rw [this]
      simp only [List.length_cons, List.length_nil, List.cons_append, List.nil_append, hexUnpackN,
        List.map_cons, List.map_nil]
      have hlt : (if big then a <<< 4 else a) < 256 := by
        cases big <;> simp [Nat.shiftLeft_eq] <;> omega
      rw [(hexByte_val big hlt).1]
      cases big
      · simp [Nat.mod_eq_of_lt ha]
      · simp [Nat.shiftLeft_eq]
    | a :: b :: ns, h =>
      have ha : a < 16 := h a (by simp)
      have hb : b < 16 := h b (by simp)
      rw [hexPack_two, hexPack_byte big ha hb]
      have := ih ns.length (by simp; omega) ns (fun n hn => h n (by simp [hn])) rfl
      simp only [List.length_cons, List.cons_append, hexUnpackN, this, List.map_cons]
      obtain ⟨h1, h2⟩ := hexByte_val big
        (show (if big then a * 16 + b else a + b * 16) < 256 by split <;> omega)
      rw [h1, h2]
      cases big
      · simp only [Bool.false_eq_true, if_false]
        rw [show (a + b * 16) % 16 = a by omega, show (a + b * 16) / 16 = b by omega]
      · simp only [if_true]
        rw [show (a * 16 + b) / 16 = a by omega, show (a * 16 + b) % 16 = b by omega]

/-! ## Bit strings -/

theorem bits_pack (big : Bool) {b : Nat} (h : b < 256) (l : List Nat) :
    bitPack big 0 0 ((byteBits big 8 b).map (· &&& 1) ++ l) = b :: bitPack big 0 0 l := by
  have key : ∀ b < 256, (((List.range 8).foldl (fun acc i =>
      acc ||| (((byteBits big 8 b).map (· &&& 1)).getD i 0) <<< (if big then 7 - i else i)) 0) = b) := by
    intro b hb
    have := lt_all (n := 256) (p := fun b => decide (((List.range 8).foldl (fun acc i =>
      acc ||| (((byteBits big 8 b).map (· &&& 1)).getD i 0) <<< (if big then 7 - i else i)) 0) = b))
      (by cases big <;> decide +kernel) hb
    exact of_decide_eq_true this
  have hk := key b h
  simp only [byteBits, List.range, List.range.loop, List.map_cons, List.map_nil, List.foldl_cons,
    List.foldl_nil, List.getD_cons_zero, List.getD_cons_succ] at hk
  simp only [byteBits, List.range, List.range.loop, List.map_cons, List.map_nil, List.cons_append,
    List.nil_append, bitPack]
  norm_num
  norm_num at hk
  exact hk

/-- `unpack("B*")` then `pack("B*")`. -/
theorem bits_bytes (big : Bool) (data : List Nat) (h : ∀ b ∈ data, b < 256) :
    bitPack big 0 0 ((bitUnpackAll big data).map (· &&& 1)) = data := by
  induction data with
  | nil => rfl
  | cons b data ih =>
    have := ih fun b hb => h b (by simp [hb])
    unfold bitUnpackAll at this ⊢
    simp only [List.map_cons, List.flatten_cons, List.map_append]
    rw [bits_pack big (h b (by simp)), this]

/-- Every list of `k` bits. -/
def allBits : Nat → List (List Nat)
  | 0 => [[]]
  | k + 1 => (allBits k).map (0 :: ·) ++ (allBits k).map (1 :: ·)

theorem mem_allBits (l : List Nat) (h : ∀ b ∈ l, b < 2) : l ∈ allBits l.length := by
  induction l with
  | nil => simp [allBits]
  | cons b l ih =>
    have hb := h b (by simp)
    have := ih fun b hb => h b (by simp [hb])
    simp only [List.length_cons, allBits, List.mem_append, List.mem_map]
    have : b = 0 ∨ b = 1 := by omega
    rcases this with rfl | rfl
    · left; exact ⟨l, by assumption, rfl⟩
    · right; exact ⟨l, by assumption, rfl⟩

theorem bits_block (big : Bool) (p : List Nat) (h : ∀ b ∈ p, b < 2) (h0 : p ≠ [])
    (h8 : p.length ≤ 8) : ∃ byte, bitPack big 0 0 p = [byte] ∧
      byteBits big p.length byte = p.map (48 + ·) := by
  have key : (List.range 9).all (fun k => (allBits k).all fun p =>
      decide (p = []) || decide (bitPack big 0 0 p = [(bitPack big 0 0 p).headD 0] ∧
        byteBits big p.length ((bitPack big 0 0 p).headD 0) = p.map (48 + ·))) = true := by
    cases big <;> decide +kernel
  have h1 := lt_all key (show p.length < 9 by omega)
  have h2 := List.all_eq_true.1 h1 p (mem_allBits p h)
  simp only [h0, decide_false, Bool.false_or, decide_eq_true_eq] at h2
  exact ⟨_, h2⟩

theorem bits_eight (big : Bool) (p l : List Nat) (h8 : p.length = 8) :
    bitPack big 0 0 (p ++ l) = bitPack big 0 0 p ++ bitPack big 0 0 l := by
  match p, h8 with
  | [a, b, c, d, e, f, g, h], _ => simp [bitPack]

/-- `pack("Bn")` then `unpack("Bn")`: the bits. -/
theorem bits_digits (big : Bool) (ns rest : List Nat) (h : ∀ n ∈ ns, n < 2) :
    bitUnpackN big ns.length (bitPack big 0 0 ns ++ rest) = (ns.map (48 + ·), rest) := by
  induction hl : ns.length using Nat.strong_induction_on generalizing ns with
  | _ m ih =>
    subst hl
    by_cases h0 : ns = []
    · subst h0; cases rest <;> simp [bitPack, bitUnpackN]
    have hpos : 0 < ns.length := List.length_pos_iff.2 h0
    by_cases h8 : ns.length ≤ 8
    · obtain ⟨byte, h1, h2⟩ := bits_block big ns h h0 h8
      rw [h1]
      simp only [List.cons_append, List.nil_append, bitUnpackN, if_neg (show ns.length ≠ 0 by omega)]
      rw [Nat.min_eq_left h8, Nat.sub_self, h2]
      cases rest <;> simp [bitUnpackN]
    · have hsplit : ns = ns.take 8 ++ ns.drop 8 := (List.take_append_drop 8 ns).symm
      have ht8 : (ns.take 8).length = 8 := by simp; omega
      obtain ⟨byte, h1, h2⟩ := bits_block big (ns.take 8)
        (fun n hn => h n (List.mem_of_mem_take hn)) (by intro hc; rw [hc] at ht8; simp at ht8)
        (by omega)
      have hi := ih (ns.drop 8).length (by simp; omega) (ns.drop 8)
        (fun n hn => h n (List.mem_of_mem_drop hn)) rfl
      have hp : bitPack big 0 0 ns = byte :: bitPack big 0 0 (ns.drop 8) := by
        conv_lhs => rw [hsplit]
        rw [bits_eight big _ _ ht8, h1]
        rfl
      rw [hp]
      simp only [List.cons_append, bitUnpackN, if_neg (show ns.length ≠ 0 by omega)]
      rw [Nat.min_eq_right (show 8 ≤ ns.length by omega), show ns.length - 8 = (ns.drop 8).length by
        simp, hi]
      rw [ht8] at h2
      rw [h2]
      dsimp only
      rw [← List.map_append, ← hsplit]

end Verif.Pack
