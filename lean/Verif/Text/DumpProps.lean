import Verif.Text.DumpModel
import Mathlib.Tactic.SplitIfs
import Mathlib.Tactic.Linarith
import Mathlib.Tactic.IntervalCases

/-! # C132: dump, inspect and undump -/

namespace Verif.Text
open Verif.Str

theorem hexVal_hexd {n : Nat} (h : n < 16) : hexVal (hexd n) = some n := by
  interval_cases n <;> rfl

theorem hexd_range {n : Nat} (h : n < 16) : (48 ≤ hexd n ∧ hexd n ≤ 57) ∨ (65 ≤ hexd n ∧ hexd n ≤ 70) := by
  unfold hexd; split_ifs <;> omega

theorem hexAcc_append (a b : List Nat) (acc : Nat) :
    hexAcc acc (a ++ b) = (hexAcc acc a).bind fun x => hexAcc x b := by
  induction a generalizing acc with
  | nil => rfl
  | cons x t ih =>
    rw [List.cons_append, hexAcc, hexAcc]
    cases hexVal x with
    | none => rfl
    | some d =>
      simp only
      split_ifs
      · exact ih _
      · rfl

theorem hexAcc_one (acc d : Nat) (h : d < 16) (h2 : acc * 16 + d < 2 ^ 32) :
    hexAcc acc [hexd d] = some (acc * 16 + d) := by
  simp only [hexAcc, hexVal_hexd h]
  rw [if_pos h2]

theorem parseHex_hex4 {c : Nat} (h : c < 65536) : parseHex (hex4 c) = some c := by
  unfold parseHex hex4
  rw [if_neg (by simp)]
  simp only [hexAcc]
  rw [hexVal_hexd (by omega)]; simp only
  rw [if_pos (by omega), hexVal_hexd (by omega)]; simp only
  rw [if_pos (by omega), hexVal_hexd (by omega)]; simp only
  rw [if_pos (by omega), hexVal_hexd (by omega)]; simp only
  rw [if_pos (by omega)]
  congr 1
  omega

theorem hexN_spec (n c : Nat) (hn : 0 < n) (h : c < 16 ^ n) (hc : c < 2 ^ 32) :
    hexN n c ≠ [] ∧ hexAcc 0 (hexN n c) = some c ∧
    ∀ x ∈ hexN n c, (48 ≤ x ∧ x ≤ 57) ∨ (65 ≤ x ∧ x ≤ 70) := by
  induction n generalizing c with
  | zero => omega
  | succ n ih =>
    rw [hexN]
    by_cases h16 : c < 16
    · rw [if_pos h16]
      refine ⟨by simp, by simpa using hexAcc_one 0 c h16 (by omega), ?_⟩
      simp only [List.mem_singleton, forall_eq]
      exact hexd_range h16
    · rw [if_neg h16]
      rw [Nat.pow_succ] at h
      have hn0 : 0 < n := by
        rcases Nat.eq_zero_or_pos n with rfl | hn0
        · simp at h; omega
        · exact hn0
      obtain ⟨_, h2, h3⟩ := ih (c / 16) hn0 (by omega) (by omega)
      refine ⟨by simp, ?_, ?_⟩
      · rw [hexAcc_append, h2]
        simp only [Option.bind_some]
        rw [hexAcc_one _ _ (by omega) (by omega)]
        congr 1; omega
      · intro x hx
        rcases List.mem_append.1 hx with hx | hx
        · exact h3 x hx
        · simp only [List.mem_singleton] at hx
          subst hx
          exact hexd_range (by omega)

theorem one_xesc {b : Nat} (h : b < 256) (r : List Nat) : one (xesc b ++ r) = some ([b], r) := by
  simp only [xesc, hex2, List.cons_append, List.nil_append, one]
  simp only [show ¬ (92 = 0 ∨ 128 ≤ 92 ∨ 92 = 34) by omega, if_false, ne_eq, not_true_eq_false,
    show named 120 = none from rfl, if_true, xArm, hexVal_hexd (show b / 16 < 16 by omega),
    hexVal_hexd (show b % 16 < 16 by omega)]
  congr 2
  congr 1
  omega

theorem short_table : ∀ p ∈ [(34, 34), (92, 92), (9, 116), (11, 118), (10, 110), (13, 114), (12, 102),
    (8, 98), (7, 97), (27, 101)],
    named p.2 = some p.1 ∧ p.1 < 128 ∧ p.1 ≠ 35 ∧ sigil p.1 = false ∧ 32 ≤ p.2 ∧ p.2 ≤ 126 := by decide

theorem lookup_mem {t : List (Nat × Nat)} {b l : Nat} (h : t.lookup b = some l) : (b, l) ∈ t := by
  induction t with
  | nil => cases h
  | cons p t ih =>
    obtain ⟨k, v⟩ := p
    rw [List.lookup_cons] at h
    by_cases hb : b = k
    · subst hb
      simp at h
      simp [h]
    · simp only [beq_eq_false_iff_ne.2 hb] at h
      exact List.mem_cons_of_mem _ (ih h)

theorem short_spec {b l : Nat} (h : short b = some l) :
    named l = some b ∧ b < 128 ∧ b ≠ 35 ∧ sigil b = false ∧ 32 ≤ l ∧ l ≤ 126 :=
  short_table _ (lookup_mem h)

theorem short_92 : short 92 = some 92 := rfl
theorem short_34 : short 34 = some 34 := rfl

theorem one_short {b l : Nat} (h : short b = some l) (r : List Nat) :
    one ([92, l] ++ r) = some ([b], r) := by
  simp only [List.cons_append, List.nil_append, one]
  simp only [show ¬ (92 = 0 ∨ 128 ≤ 92 ∨ 92 = 34) by omega, if_false, ne_eq, not_true_eq_false,
    (short_spec h).1]

theorem one_plain {b : Nat} (h : 32 ≤ b ∧ b ≤ 126) (hs : short b = none) (r : List Nat) :
    one ([b] ++ r) = some ([b], r) := by
  have h1 : b ≠ 34 := by rintro rfl; cases hs
  have h2 : b ≠ 92 := by rintro rfl; cases hs
  simp only [List.cons_append, List.nil_append, one]
  rw [if_neg (by omega), if_pos h2]

theorem one_asciiEsc {b : Nat} (h : b < 256) (r : List Nat) : one (asciiEsc b ++ r) = some ([b], r) := by
  unfold asciiEsc
  cases hs : short b with
  | some l => exact one_short hs r
  | none =>
    simp only
    split_ifs with h1
    · exact one_plain h1 hs r
    · exact one_xesc h r

theorem spaces_none (l : List Nat) (h : 32 ∉ l) (cur : List Nat) :
    spaces cur l = [cur.reverse ++ l] := by
  induction l generalizing cur with
  | nil => simp [spaces]
  | cons x t ih =>
    simp only [List.mem_cons, not_or] at h
    rw [spaces, if_neg (fun hx => h.1 hx.symm), ih h.2]
    simp

theorem one_uesc {c : Nat} (h : scalar c = true) (r : List Nat) :
    one (uesc c ++ r) = some (encode c, r) := by
  have hlt : c < 0x110000 := by
    simp only [scalar, Bool.or_eq_true, decide_eq_true_eq, Bool.and_eq_true] at h; omega
  unfold uesc
  by_cases h4 : c ≤ 0xFFFF
  · rw [if_pos h4]
    have hx : (hex4 c ++ r).head? ≠ some 123 := by
      simp only [hex4, List.cons_append, List.head?_cons, ne_eq, Option.some.injEq]
      have := hexd_range (show c / 4096 < 16 by omega)
      omega
    have ht : (hex4 c ++ r).take 4 = hex4 c := by simp [hex4]
    have hd : (hex4 c ++ r).drop 4 = r := by simp [hex4]
    simp only [List.cons_append, one]
    simp only [show ¬ (92 = 0 ∨ 128 ≤ 92 ∨ 92 = 34) by omega, if_false, ne_eq, not_true_eq_false,
      show named 117 = none from rfl, if_true, show ¬ (117 = 120) by omega, uArm, if_neg hx, ht, hd,
      uniBytes, parseHex_hex4 (show c < 65536 by omega), h]
    rw [if_pos (by simp [hex4])]
    rfl
  · rw [if_neg h4]
    obtain ⟨h1, h2, h3⟩ := hexN_spec 8 c (by omega) (by omega) (by omega)
    generalize hexN 8 c = d at h1 h2 h3
    have h125 : ∀ x ∈ d, (decide (x ≠ 125)) = true := by
      intro x hx
      have := h3 x hx
      simp; omega
    have h32 : 32 ∉ d := by
      intro hx
      have := h3 32 hx
      omega
    have etake : (d ++ 125 :: r).takeWhile (· ≠ 125) = d := by
      rw [List.takeWhile_append_of_pos h125]
      simp
    have edrop : (d ++ 125 :: r).dropWhile (· ≠ 125) = 125 :: r := by
      rw [List.dropWhile_append_of_pos h125]
      simp
    have eu : uArm (123 :: (d ++ 125 :: r)) = (uniList (spaces [] d)).map fun o => (o, r) := by
      have hm : 125 ∈ (123 :: (d ++ 125 :: r)).tail := by simp
      unfold uArm
      rw [if_pos (by simp)]
      simp only
      rw [if_pos hm]
      simp only [List.tail_cons]
      rw [etake, edrop]
      rfl
    simp only [List.cons_append, List.append_assoc, List.nil_append, one]
    simp only [show ¬ (92 = 0 ∨ 128 ≤ 92 ∨ 92 = 34) by omega, if_false, ne_eq, not_true_eq_false,
      show named 117 = none from rfl, if_true, show ¬ (117 = 120) by omega]
    rw [eu, spaces_none d h32]
    simp only [List.reverse_nil, List.nil_append, uniList, if_neg h1, uniBytes, parseHex, h2, h, if_true,
      Option.map_some, List.append_nil]

theorem decode_encode {c : Nat} (h : scalar c = true) : decode (encode c) = c := by
  simp only [scalar, Bool.or_eq_true, decide_eq_true_eq, Bool.and_eq_true] at h
  have h' : c < 1114112 := by omega
  clear h
  unfold encode
  split_ifs with h1 h2 h3
  · rfl
  · show (0xC0 + c / 64 - 0xC0) * 64 + (0x80 + c % 64 - 0x80) = c
    omega
  · show (0xE0 + c / 4096 - 0xE0) * 4096 + (0x80 + c / 64 % 64 - 0x80) * 64 + (0x80 + c % 64 - 0x80) = c
    omega
  · show (0xF0 + c / 262144 - 0xF0) * 262144 + (0x80 + c / 4096 % 64 - 0x80) * 4096 +
      (0x80 + c / 64 % 64 - 0x80) * 64 + (0x80 + c % 64 - 0x80) = c
    omega

/-- the first character of well-formed bytes -/
theorem u8w_char {bs : List Nat} {w : Nat} (h : u8w bs = some w) :
    ∃ c, scalar c = true ∧ bs.take w = encode c ∧ decode (bs.take w) = c ∧ 0 < w ∧ w ≤ bs.length := by
  have hp := u8w_code.pos bs w h
  have hl : (bs.take w).length = w := by rw [List.length_take]; omega
  have := u8w_code.take h
  obtain ⟨c, h1, h2⟩ := one_encode (c := bs.take w) (by rw [hl]; exact this)
  exact ⟨c, h1, h2, by rw [h2, decode_encode h1], hp.1, hp.2⟩

/-- what a renderer of one character must do: `undump` reads it back -/
def Reads (f : Nat → Nat → List Nat) (ok : Nat → Prop) : Prop :=
  ∀ c n r, scalar c = true → ok c → f c n ≠ [] ∧ one (f c n ++ r) = some (encode c, r)

theorem asciiEsc_ne (b : Nat) : asciiEsc b ≠ [] := by
  unfold asciiEsc xesc
  cases short b with
  | some l => simp
  | none => simp only; split_ifs <;> simp

theorem uesc_ne (b : Nat) : uesc b ≠ [] := by
  unfold uesc; split_ifs <;> simp

theorem reads_dump : Reads dumpOne fun _ => True := by
  intro c n r h _
  unfold dumpOne utf8Esc
  split_ifs with h1 h2
  · rw [h1.1]; exact ⟨by simp, rfl⟩
  · refine ⟨asciiEsc_ne c, ?_⟩
    rw [one_asciiEsc (by omega)]
    simp [encode, h2]
  · exact ⟨uesc_ne c, one_uesc h r⟩

theorem reads_inspect (pr : Nat → Bool) : Reads (inspectOne pr) fun c => c < 128 ∨ pr c = false := by
  intro c n r h hok
  unfold inspectOne
  by_cases hc : c < 128
  · rw [if_pos hc]
    cases hs : short c with
    | some l =>
      refine ⟨by simp, ?_⟩
      simp only
      rw [one_short hs]
      simp [encode, hc]
    | none =>
      simp only
      split_ifs with h11 h12
      · rw [h11.1]; exact ⟨by simp, rfl⟩
      · refine ⟨by simp, ?_⟩
        rw [one_plain h12 hs]
        simp [encode, hc]
      · exact ⟨uesc_ne c, one_uesc h r⟩
  · rw [if_neg hc, if_neg (by simpa [hc] using hok)]
    exact ⟨uesc_ne c, one_uesc h r⟩

theorem undumpLoop_mono (n m : Nat) (l : List Nat) (o : List Nat) (h : n ≤ m)
    (h1 : undumpLoop n l = some o) : undumpLoop m l = some o := by
  induction n generalizing m l o with
  | zero =>
    cases l with
    | nil => cases m <;> exact h1
    | cons x t => cases h1
  | succ n ih =>
    cases l with
    | nil => cases m <;> exact h1
    | cons x t =>
      obtain ⟨m, rfl⟩ : ∃ k, m = k + 1 := ⟨m - 1, by omega⟩
      rw [undumpLoop] at h1 ⊢
      cases ho : one (x :: t) with
      | none => rw [ho] at h1; cases h1
      | some p =>
        obtain ⟨a, r⟩ := p
        rw [ho] at h1
        simp only [Option.map_eq_some_iff] at h1 ⊢
        obtain ⟨y, hy, e⟩ := h1
        exact ⟨y, ih m r y (by omega) hy, e⟩

/-- one item read -/
theorem undumpLoop_item {d o r z : List Nat} (hd : d ≠ []) (h1 : one (d ++ r) = some (o, r))
    (h2 : undumpLoop r.length r = some z) :
    undumpLoop (d ++ r).length (d ++ r) = some (o ++ z) := by
  cases d with
  | nil => exact absurd rfl hd
  | cons x t =>
    rw [List.cons_append] at h1 ⊢
    rw [List.length_cons, undumpLoop, h1]
    simp only
    rw [undumpLoop_mono r.length _ r z (by simp) h2]
    rfl

theorem undumpLoop_xescs (l r z : List Nat) (hl : ∀ b ∈ l, b < 256)
    (h : undumpLoop r.length r = some z) :
    undumpLoop ((l.map xesc).flatten ++ r).length ((l.map xesc).flatten ++ r) = some (l ++ z) := by
  induction l with
  | nil => exact h
  | cons b t ih =>
    rw [List.map_cons, List.flatten_cons, List.append_assoc]
    have := undumpLoop_item (d := xesc b) (by simp [xesc])
      (one_xesc (hl b (by simp)) ((t.map xesc).flatten ++ r))
      (ih fun b hb => hl b (by simp [hb]))
    rw [this]
    rfl

/-- the characters that stand well formed in the bytes, as the walk meets them -/
def u8chars : Nat → List Nat → List Nat
  | _, [] => []
  | 0, _ :: _ => []
  | n + 1, b :: t =>
    match u8w (b :: t) with
    | some w => decode ((b :: t).take w) :: u8chars n ((b :: t).drop w)
    | none => u8chars n ((b :: t).drop (badLen (b :: t)))

theorem badLen_pos (b : Nat) (t : List Nat) : 0 < badLen (b :: t) := by
  rcases t with _ | ⟨b1, _ | ⟨b2, t⟩⟩ <;> simp only [badLen] <;> split_ifs <;> omega

theorem walk_reads {f ok} (hf : Reads f ok) : ∀ n bs, bs.length ≤ n → (∀ b ∈ bs, b < 256) →
    (∀ c ∈ u8chars n bs, ok c) →
    undumpLoop (walk f n bs).length (walk f n bs) = some bs := by
  intro n
  induction n with
  | zero =>
    intro bs h _ _
    cases bs with
    | nil => rfl
    | cons b t => simp at h
  | succ n ih =>
    intro bs hlen hb hok
    cases bs with
    | nil => rfl
    | cons b t =>
      rw [walk]
      rw [u8chars] at hok
      have hsub : ∀ k, ∀ x ∈ (b :: t).drop k, x < 256 := fun k x hx => hb x (List.mem_of_mem_drop hx)
      simp only [List.length_cons] at hlen
      cases hw : u8w (b :: t) with
      | some w =>
        obtain ⟨c, h1, h2, h3, h4, _⟩ := u8w_char hw
        rw [hw] at hok
        simp only [h3, List.mem_cons, forall_eq_or_imp] at hok
        simp only [h3]
        have hi := ih ((b :: t).drop w) (by rw [List.length_drop, List.length_cons]; omega) (hsub w) hok.2
        obtain ⟨g1, g2⟩ := hf c (nextChar ((b :: t).drop w)) (walk f n ((b :: t).drop w)) h1 hok.1
        rw [undumpLoop_item g1 g2 hi, ← h2, List.take_append_drop]
      | none =>
        rw [hw] at hok
        simp only
        have hp := badLen_pos b t
        have hi := ih ((b :: t).drop (badLen (b :: t)))
          (by rw [List.length_drop, List.length_cons]; omega) (hsub _) hok
        rw [undumpLoop_xescs _ _ _ (fun x hx => hb x (List.mem_of_mem_take hx)) hi,
          List.take_append_drop]

theorem dumpBytes_reads (bs : List Nat) (hb : ∀ b ∈ bs, b < 256) :
    undumpLoop (dumpBytes bs).length (dumpBytes bs) = some bs := by
  induction bs with
  | nil => rfl
  | cons b t ih =>
    have hi := ih fun x hx => hb x (by simp [hx])
    rw [dumpBytes]
    split_ifs with h1
    · rw [undumpLoop_item (d := [92, 35]) (o := [35]) (by simp) rfl hi, h1.1]; rfl
    · rw [undumpLoop_item (asciiEsc_ne b) (one_asciiEsc (hb b (by simp)) _) hi]; rfl

theorem parse_quoted {body bs : List Nat} (h : undumpLoop body.length body = some bs) :
    parseUndump (34 :: body ++ [34]) = some bs := by
  unfold parseUndump
  rw [if_neg]
  · have : (34 :: body ++ [34]).tail.dropLast = body := by simp
    rw [this]
    exact undumpLoop_mono body.length _ body bs (by simp; omega) h
  · have : (34 :: body ++ [34]).getLast? = some 34 := List.getLast?_concat
    rw [this]
    simp

/-- C132: `undump` of `dump` has the bytes of the string, for every string of every encoding, well
formed or not. -/
theorem C132_dump_undump (e : Enc) (bs : List Nat) (hb : ∀ b ∈ bs, b < 256) :
    (undump (dump e bs).1).map Prod.fst = some bs := by
  unfold undump
  have : parseUndump (dump e bs).1 = some bs := by
    apply parse_quoted
    unfold dumpBody
    split_ifs
    · exact walk_reads reads_dump _ bs (Nat.le_refl _) hb (fun _ _ => trivial)
    · exact dumpBytes_reads bs hb
  rw [this]
  rfl

-- "a\0\"#{あ😀\xE3\x81#$": quotes, control characters, sigils, \u in both widths, ill-formed bytes
example : (dump .utf8 [97, 0, 34, 35, 123, 227, 129, 130, 240, 159, 152, 128, 227, 129, 35, 36]).1 =
    "\"a\\x00\\\"\\#{\\u3042\\u{1F600}\\xE3\\x81\\#$\"".toList.map Char.toNat := by decide +kernel

/-- C132: the dump tells strings of one encoding apart. -/
theorem C132_dump_injective (e : Enc) (a b : List Nat) (ha : ∀ x ∈ a, x < 256) (hb : ∀ x ∈ b, x < 256)
    (h : (dump e a).1 = (dump e b).1) : a = b := by
  have h1 := C132_dump_undump e a ha
  rw [h, C132_dump_undump e b hb] at h1
  exact (Option.some.inj h1).symm

/-- C132: `undump` reads `inspect` of a UTF-8 string back when `inspect` shows no character above
ASCII as itself. -/
theorem C132_inspect_undump (pr : Nat → Bool) (bs out : List Nat) (hb : ∀ b ∈ bs, b < 256)
    (hp : ∀ c ∈ u8chars bs.length bs, c < 128 ∨ pr c = false) (h : inspect pr .utf8 bs = some out) :
    (undump out).map Prod.fst = some bs := by
  simp only [inspect, Option.some.injEq] at h
  subst h
  unfold undump
  rw [parse_quoted (walk_reads (reads_inspect pr) _ bs (Nat.le_refl _) hb hp)]
  rfl

/-! ## Only printable ASCII -/

def Pr (l : List Nat) : Prop := ∀ x ∈ l, 32 ≤ x ∧ x ≤ 126

theorem Pr.append {a b} (ha : Pr a) (hb : Pr b) : Pr (a ++ b) := by
  intro x hx
  rcases List.mem_append.1 hx with h | h
  · exact ha x h
  · exact hb x h

theorem pr_xesc {b : Nat} (h : b < 256) : Pr (xesc b) := by
  have h1 := hexd_range (show b / 16 < 16 by omega)
  have h2 := hexd_range (show b % 16 < 16 by omega)
  intro x hx
  simp only [xesc, hex2, List.mem_cons, List.not_mem_nil, or_false] at hx
  rcases hx with rfl | rfl | rfl | rfl <;> omega

theorem pr_asciiEsc {b : Nat} (h : b < 256) : Pr (asciiEsc b) := by
  have hx := pr_xesc h
  unfold asciiEsc
  cases hs : short b with
  | some l =>
    have := short_spec hs
    intro x hx
    simp at hx; omega
  | none =>
    simp only
    split_ifs
    · intro x hx; simp at hx; omega
    · exact hx

theorem pr_uesc {c : Nat} (h : scalar c = true) : Pr (uesc c) := by
  have hlt : c < 0x110000 := by
    simp only [scalar, Bool.or_eq_true, decide_eq_true_eq, Bool.and_eq_true] at h; omega
  intro x hx
  unfold uesc at hx
  split_ifs at hx with h4
  · have h1 := hexd_range (show c / 4096 < 16 by omega)
    have h2 := hexd_range (show c / 256 % 16 < 16 by omega)
    have h3 := hexd_range (show c / 16 % 16 < 16 by omega)
    have h5 := hexd_range (show c % 16 < 16 by omega)
    simp only [hex4, List.mem_cons, List.not_mem_nil, or_false] at hx
    rcases hx with rfl | rfl | rfl | rfl | rfl | rfl <;> omega
  · obtain ⟨_, _, h3⟩ := hexN_spec 8 c (by omega) (by omega) (by omega)
    simp only [List.mem_cons, List.mem_append, List.not_mem_nil, or_false, List.cons_append] at hx
    rcases hx with rfl | rfl | rfl | hx | rfl
    · omega
    · omega
    · omega
    · have := h3 x hx; omega
    · omega

theorem walk_all {f} {P : List Nat → Prop} (hnil : P []) (happ : ∀ a b, P a → P b → P (a ++ b))
    (hx : ∀ b, b < 256 → P (xesc b)) (hf : ∀ c n, scalar c = true → P (f c n)) :
    ∀ n bs, (∀ b ∈ bs, b < 256) → P (walk f n bs) := by
  intro n
  induction n with
  | zero => intro bs _; cases bs <;> exact hnil
  | succ n ih =>
    intro bs hb
    cases bs with
    | nil => exact hnil
    | cons b t =>
      rw [walk]
      have hsub : ∀ k, ∀ x ∈ (b :: t).drop k, x < 256 := fun k x hx => hb x (List.mem_of_mem_drop hx)
      cases hw : u8w (b :: t) with
      | some w =>
        obtain ⟨c, h1, _, h3, _⟩ := u8w_char hw
        simp only [h3]
        exact happ _ _ (hf c _ h1) (ih _ (hsub w))
      | none =>
        simp only
        refine happ _ _ ?_ (ih _ (hsub _))
        have : ∀ l : List Nat, (∀ x ∈ l, x < 256) → P (l.map xesc).flatten := by
          intro l
          induction l with
          | nil => intro _; exact hnil
          | cons y l ih2 =>
            intro h
            rw [List.map_cons, List.flatten_cons]
            exact happ _ _ (hx y (h y (by simp))) (ih2 fun z hz => h z (by simp [hz]))
        exact this _ fun x hx => hb x (List.mem_of_mem_take hx)

/-- C132: a dump consists of printable ASCII characters. -/
theorem C132_dump_printable (e : Enc) (bs : List Nat) (hb : ∀ b ∈ bs, b < 256) :
    ∀ x ∈ (dump e bs).1, 32 ≤ x ∧ x ≤ 126 := by
  have hbody : Pr (dumpBody e bs) := by
    unfold dumpBody
    split_ifs
    · refine walk_all (P := Pr) (by intro x hx; simp at hx) (fun _ _ => Pr.append)
        (fun _ => pr_xesc) (fun c n h => ?_) _ bs hb
      unfold dumpOne utf8Esc
      split_ifs
      · intro x hx; simp at hx; omega
      · exact pr_asciiEsc (by omega)
      · exact pr_uesc h
    · induction bs with
      | nil => intro x hx; simp [dumpBytes] at hx
      | cons b t ih =>
        rw [dumpBytes]
        refine Pr.append ?_ (ih fun x hx => hb x (by simp [hx]))
        split_ifs
        · intro x hx; simp at hx; omega
        · exact pr_asciiEsc (hb b (by simp))
  intro x hx
  simp only [dump, List.cons_append, List.mem_cons, List.mem_append, List.not_mem_nil, or_false] at hx
  rcases hx with rfl | hx | rfl
  · omega
  · exact hbody x hx
  · omega

/-! ## No interpolation -/

/-- how a Ruby double-quoted literal is read: a backslash takes the next character with it, and `#`
before `$`, `@` or `{` begins an interpolation -/
def interpolates : List Nat → Bool
  | [] => false
  | 92 :: _ :: t => interpolates t
  | [92] => false
  | b :: t => (b = 35 && (t.head? = some 36 || t.head? = some 64 || t.head? = some 123)) || interpolates t

/-- a rendered item followed by `r`: nothing in it begins an interpolation -/
theorem interp_plain (l r : List Nat) (h : ∀ x ∈ l, x ≠ 92 ∧ x ≠ 35) :
    interpolates (l ++ r) = interpolates r := by
  induction l with
  | nil => rfl
  | cons b t ih =>
    have hb := h b (by simp)
    rw [List.cons_append, interpolates]
    · rw [ih fun x hx => h x (by simp [hx])]
      simp [hb.2]
    · intro x y hx; exact absurd hx hb.1
    · intro hx; exact absurd hx hb.1

theorem interp_esc (x : Nat) (l r : List Nat) (h : ∀ x ∈ l, x ≠ 92 ∧ x ≠ 35) :
    interpolates (92 :: x :: l ++ r) = interpolates r := by
  simp only [List.cons_append, interpolates]
  exact interp_plain l r h

theorem interp_xesc {b : Nat} (h : b < 256) (r : List Nat) :
    interpolates (xesc b ++ r) = interpolates r := by
  have h1 := hexd_range (show b / 16 < 16 by omega)
  have h2 := hexd_range (show b % 16 < 16 by omega)
  refine interp_esc 120 _ r fun x hx => ?_
  simp only [hex2, List.mem_cons, List.not_mem_nil, or_false] at hx
  rcases hx with rfl | rfl <;> omega

theorem interp_uesc {c : Nat} (h : scalar c = true) (r : List Nat) :
    interpolates (uesc c ++ r) = interpolates r := by
  have hlt : c < 0x110000 := by
    simp only [scalar, Bool.or_eq_true, decide_eq_true_eq, Bool.and_eq_true] at h; omega
  unfold uesc
  split_ifs with h4
  · have h1 := hexd_range (show c / 4096 < 16 by omega)
    have h2 := hexd_range (show c / 256 % 16 < 16 by omega)
    have h3 := hexd_range (show c / 16 % 16 < 16 by omega)
    have h5 := hexd_range (show c % 16 < 16 by omega)
    refine interp_esc 117 _ r fun x hx => ?_
    simp only [hex4, List.mem_cons, List.not_mem_nil, or_false] at hx
    rcases hx with rfl | rfl | rfl | rfl <;> omega
  · obtain ⟨_, _, h3⟩ := hexN_spec 8 c (by omega) (by omega) (by omega)
    have := interp_esc 117 (123 :: (hexN 8 c ++ [125])) r fun x hx => by
      simp only [List.mem_cons, List.mem_append, List.not_mem_nil, or_false] at hx
      rcases hx with rfl | hx | rfl
      · omega
      · have := h3 x hx; omega
      · omega
    simpa using this

/-- a byte as itself -/
theorem interp_one {b : Nat} (h2 : b ≠ 92) (r : List Nat)
    (h35 : b = 35 → ¬ ∃ x, r.head? = some x ∧ sigil x = true) :
    interpolates ([b] ++ r) = interpolates r := by
  rw [List.cons_append, List.nil_append, interpolates]
  · have : (decide (b = 35) && (decide (r.head? = some 36) || decide (r.head? = some 64) ||
        decide (r.head? = some 123))) = false := by
      by_cases hb : b = 35
      · have h35 := h35 hb
        simp only [hb, decide_true, Bool.true_and, Bool.or_eq_false_iff, decide_eq_false_iff_not]
        refine ⟨⟨fun hr => h35 ⟨_, hr, rfl⟩, fun hr => h35 ⟨_, hr, rfl⟩⟩, fun hr => h35 ⟨_, hr, rfl⟩⟩
      · simp [hb]
    rw [this]; rfl
  · intro x y hb; exact absurd hb h2
  · intro hb; exact absurd hb h2

/-- an ASCII byte -/
theorem interp_asciiEsc {b : Nat} (h : b < 256) (r : List Nat)
    (h35 : b = 35 → ¬ ∃ x, r.head? = some x ∧ sigil x = true) :
    interpolates (asciiEsc b ++ r) = interpolates r := by
  unfold asciiEsc
  cases hs : short b with
  | some l => exact interp_esc _ [] r (by simp)
  | none =>
    simp only
    split_ifs
    · have h2 : b ≠ 92 := by rintro rfl; cases hs
      exact interp_one h2 r h35
    · exact interp_xesc h r

/-- the first byte of the rendering of `b` is a sigil only if `b` is -/
theorem asciiEsc_head {b : Nat} (r : List Nat) (x : Nat) (hx : (asciiEsc b ++ r).head? = some x)
    (hs : sigil x = true) : x = b := by
  unfold asciiEsc xesc at hx
  cases hb : short b with
  | some l =>
    rw [hb] at hx
    simp at hx; subst hx; simp [sigil] at hs
  | none =>
    rw [hb] at hx
    simp only at hx
    split_ifs at hx <;> simp only [List.cons_append, List.head?_cons, Option.some.injEq] at hx
    · exact hx.symm
    · subst hx; simp [sigil] at hs

theorem dumpBytes_safe (bs : List Nat) (hb : ∀ b ∈ bs, b < 256) :
    interpolates (dumpBytes bs ++ [34]) = false ∧
    ∀ x, (dumpBytes bs ++ [34]).head? = some x → sigil x = true → bs.head? = some x := by
  induction bs with
  | nil =>
    refine ⟨rfl, fun x hx hs => ?_⟩
    simp [dumpBytes] at hx
    subst hx; simp [sigil] at hs
  | cons b t ih =>
    obtain ⟨h1, h2⟩ := ih fun x hx => hb x (by simp [hx])
    rw [dumpBytes]
    split_ifs with hc
    · refine ⟨by rw [List.append_assoc, interp_esc 35 [] _ (by simp)]; exact h1, fun x hx hs => ?_⟩
      simp at hx; subst hx; simp [sigil] at hs
    · rw [List.append_assoc]
      refine ⟨?_, fun x hx hs => ?_⟩
      · rw [interp_asciiEsc (hb b (by simp)), h1]
        rintro rfl ⟨x, hx, hs⟩
        have := h2 x hx hs
        apply hc
        refine ⟨rfl, ?_⟩
        rw [List.headD_eq_head?_getD, this]
        exact hs
      · rw [asciiEsc_head _ x hx hs]; rfl

/-- what a renderer of one character must do not to begin an interpolation -/
def Safe (f : Nat → Nat → List Nat) : Prop :=
  ∀ c n r, scalar c = true → (∀ x, r.head? = some x → sigil x = true → n = x) →
    interpolates (f c n ++ r) = interpolates r ∧
    ∀ x, (f c n ++ r).head? = some x → sigil x = true → c = x

theorem safe_dump : Safe dumpOne := by
  intro c n r h hn
  unfold dumpOne utf8Esc
  split_ifs with h1 h2
  · refine ⟨interp_esc 35 [] r (by simp), fun x hx hs => ?_⟩
    simp at hx; subst hx; simp [sigil] at hs
  · refine ⟨interp_asciiEsc (by omega) r ?_, fun x hx hs => (asciiEsc_head r x hx hs).symm⟩
    rintro rfl ⟨x, hx, hs⟩
    exact h1 ⟨rfl, by rw [hn x hx hs]; exact hs⟩
  · refine ⟨interp_uesc h r, fun x hx hs => ?_⟩
    unfold uesc at hx
    split_ifs at hx <;> simp at hx <;> subst hx <;> simp [sigil] at hs

theorem encode_big {c : Nat} (h : 128 ≤ c) : ∀ x ∈ encode c, 128 ≤ x := by
  intro x hx
  unfold encode at hx
  split_ifs at hx <;> simp at hx <;> omega

theorem safe_inspect (pr : Nat → Bool) : Safe (inspectOne pr) := by
  intro c n r h hn
  have key : ∀ y, (∀ x, (92 :: y :: [] ++ r).head? = some x → sigil x = true → c = x) := by
    intro y x hx hs
    simp at hx; subst hx; simp [sigil] at hs
  have ukey : ∀ x, (uesc c ++ r).head? = some x → sigil x = true → c = x := by
    intro x hx hs
    unfold uesc at hx
    split_ifs at hx <;> simp at hx <;> subst hx <;> simp [sigil] at hs
  unfold inspectOne
  by_cases hc : c < 128
  · rw [if_pos hc]
    cases hs : short c with
    | some l => exact ⟨interp_esc _ [] r (by simp), key _⟩
    | none =>
      simp only
      have h2 : c ≠ 92 := by rintro rfl; cases hs
      split_ifs with h11 h12
      · exact ⟨interp_esc _ [] r (by simp), key _⟩
      · refine ⟨interp_one h2 r ?_, fun x hx hs => by simpa using hx⟩
        rintro rfl ⟨x, hx, hs⟩
        exact h11 ⟨rfl, by rw [hn x hx hs]; exact hs⟩
      · exact ⟨interp_uesc h r, ukey⟩
  · rw [if_neg hc]
    split_ifs
    · have hbig := encode_big (show 128 ≤ c by omega)
      refine ⟨interp_plain _ r fun x hx => ?_, fun x hx hs => ?_⟩
      · have := hbig x hx; omega
      · have hne := (encode_one h).1
        cases he : encode c with
        | nil => exact absurd he hne
        | cons y l =>
          rw [he] at hx
          simp at hx
          subst hx
          have := hbig y (by rw [he]; simp)
          simp [sigil] at hs
          omega
    · exact ⟨interp_uesc h r, ukey⟩

theorem walk_safe {f} (hf : Safe f) : ∀ n bs, bs.length ≤ n → (∀ b ∈ bs, b < 256) →
    interpolates (walk f n bs ++ [34]) = false ∧
    ∀ x, (walk f n bs ++ [34]).head? = some x → sigil x = true → nextChar bs = x := by
  have nil : ∀ n, interpolates (walk f n [] ++ [34]) = false ∧
      ∀ x, (walk f n [] ++ [34]).head? = some x → sigil x = true → nextChar [] = x := by
    intro n
    have : walk f n [] = [] := by cases n <;> rfl
    rw [this]
    refine ⟨rfl, fun x hx hs => ?_⟩
    simp at hx; subst hx; simp [sigil] at hs
  intro n
  induction n with
  | zero =>
    intro bs h _
    cases bs with
    | nil => exact nil 0
    | cons b t => simp at h
  | succ n ih =>
    intro bs hlen hb
    cases bs with
    | nil => exact nil _
    | cons b t =>
      rw [walk]
      have hsub : ∀ k, ∀ x ∈ (b :: t).drop k, x < 256 := fun k x hx => hb x (List.mem_of_mem_drop hx)
      simp only [List.length_cons] at hlen
      cases hw : u8w (b :: t) with
      | some w =>
        obtain ⟨c, h1, _, h3, h4, _⟩ := u8w_char hw
        obtain ⟨i1, i2⟩ := ih ((b :: t).drop w) (by rw [List.length_drop, List.length_cons]; omega) (hsub w)
        simp only [h3, List.append_assoc]
        obtain ⟨g1, g2⟩ := hf c (nextChar ((b :: t).drop w)) (walk f n ((b :: t).drop w) ++ [34]) h1 i2
        refine ⟨by rw [g1, i1], fun x hx hs => ?_⟩
        rw [nextChar, hw]
        simp only [h3]
        exact g2 x hx hs
      | none =>
        have hp := badLen_pos b t
        obtain ⟨i1, i2⟩ := ih ((b :: t).drop (badLen (b :: t)))
          (by rw [List.length_drop, List.length_cons]; omega) (hsub _)
        simp only [List.append_assoc]
        have hx : ∀ l : List Nat, (∀ x ∈ l, x < 256) → ∀ r,
            interpolates ((l.map xesc).flatten ++ r) = interpolates r := by
          intro l
          induction l with
          | nil => intro _ _; rfl
          | cons y l ih2 =>
            intro h r
            rw [List.map_cons, List.flatten_cons, List.append_assoc, interp_xesc (h y (by simp)),
              ih2 fun z hz => h z (by simp [hz])]
        refine ⟨by rw [hx _ (fun x hx => hb x (List.mem_of_mem_take hx)), i1], fun x hx hs => ?_⟩
        exfalso
        have htk : (b :: t).take (badLen (b :: t)) = b :: t.take (badLen (b :: t) - 1) := by
          obtain ⟨k, hk⟩ : ∃ k, badLen (b :: t) = k + 1 := ⟨badLen (b :: t) - 1, by omega⟩
          rw [hk]; simp
        rw [htk] at hx
        simp [xesc] at hx
        subst hx; simp [sigil] at hs

/-- C132: a dump read as a Ruby literal interpolates nothing, in every encoding. -/
theorem C132_dump_no_interpolation (e : Enc) (bs : List Nat) (hb : ∀ b ∈ bs, b < 256) :
    interpolates (dump e bs).1 = false := by
  have : interpolates (dumpBody e bs ++ [34]) = false := by
    unfold dumpBody
    split_ifs
    · exact (walk_safe safe_dump _ bs (Nat.le_refl _) hb).1
    · exact (dumpBytes_safe bs hb).1
  simpa [dump, interpolates] using this

/-- C132, part: `inspect` of a UTF-8 string read as a Ruby literal interpolates nothing.

Missing: the other ASCII-compatible encodings, where it is false: see the next theorem. -/
theorem C132_inspect_no_interpolation_partial (pr : Nat → Bool) (bs out : List Nat)
    (hb : ∀ b ∈ bs, b < 256) (h : inspect pr .utf8 bs = some out) : interpolates out = false := by
  simp only [inspect, Option.some.injEq] at h
  subst h
  have := (walk_safe (safe_inspect pr) _ bs (Nat.le_refl _) hb).1
  simpa [interpolates] using this

/-- C132 fails for `inspect` in US-ASCII and binary: `"#{1}".b.inspect` leaves `#{` as it is. -/
theorem C132_inspect_no_interpolation_fails (pr : Nat → Bool) :
    inspect pr .ascii8 [35, 123, 49, 125] = some [34, 35, 123, 49, 125, 34] ∧
    interpolates [34, 35, 123, 49, 125, 34] = true ∧
    inspect pr .utf8 [35, 123, 49, 125] = some [34, 92, 35, 123, 49, 125, 34] :=
  ⟨rfl, rfl, rfl⟩

/-! ## The encoding -/

/-- C132, part: `dump.undump` gives a string with the encoding of the receiver when that is UTF-8.

Missing: the other encodings, where it is false: see the next theorem. -/
theorem C132_encoding_partial (bs : List Nat) (hb : ∀ b ∈ bs, b < 256) :
    undump (dump .utf8 bs).1 = some (bs, .utf8) := by
  have h := C132_dump_undump .utf8 bs hb
  unfold undump at h ⊢
  cases hp : parseUndump (dump .utf8 bs).1 with
  | none => rw [hp] at h; cases h
  | some z =>
    rw [hp] at h
    simp only [Option.map_some, Option.some.injEq] at h ⊢
    rw [h]

/-- C132 fails for every other encoding: the result of `dump.undump` is UTF-8, although the dump of
an ASCII-compatible string carries its encoding; and strings in UTF-16LE and UTF-16BE with the same
bytes have the same dump. -/
theorem C132_encoding_fails (bs : List Nat) (hb : ∀ b ∈ bs, b < 256) (e : Enc) (he : e ≠ .utf8) :
    (∃ e', undump (dump e bs).1 = some (bs, e') ∧ e' ≠ e) ∧
    (e.asciiCompat = true → (dump e bs).2 = e) ∧
    dump .utf16le bs = dump .utf16be bs := by
  refine ⟨⟨.utf8, ?_, fun h => he h.symm⟩, fun h => by simp [dump, h], rfl⟩
  have h := C132_dump_undump e bs hb
  unfold undump at h ⊢
  cases hp : parseUndump (dump e bs).1 with
  | none => rw [hp] at h; cases h
  | some z =>
    rw [hp] at h
    simp only [Option.map_some, Option.some.injEq] at h ⊢
    rw [h]

example : undump (dump .ascii8 [255]).1 = some ([255], .utf8) := by decide +kernel

/-! ## What undump refuses -/

/-- hex digits, space and braces: what may follow `\x` and `\u` -/
def Arg (x : Nat) : Prop := x = 32 ∨ x = 123 ∨ x = 125 ∨ (48 ≤ x ∧ x ≤ 57) ∨ (65 ≤ x ∧ x ≤ 70) ∨ (97 ≤ x ∧ x ≤ 102)

theorem arg_hexVal {b d : Nat} (h : hexVal b = some d) : Arg b := by
  unfold hexVal at h
  unfold Arg
  split_ifs at h <;> omega

theorem arg_hexAcc (l : List Nat) (acc c : Nat) (h : hexAcc acc l = some c) : ∀ x ∈ l, Arg x := by
  induction l generalizing acc with
  | nil => simp
  | cons b t ih =>
    rw [hexAcc] at h
    cases hb : hexVal b with
    | none => rw [hb] at h; cases h
    | some d =>
      rw [hb] at h
      simp only at h
      split_ifs at h
      intro x hx
      rcases List.mem_cons.1 hx with rfl | hx
      · exact arg_hexVal hb
      · exact ih _ h x hx

theorem arg_uniBytes {l o : List Nat} (h : uniBytes l = some o) : ∀ x ∈ l, Arg x := by
  unfold uniBytes parseHex at h
  by_cases hl : l = []
  · subst hl; simp
  · rw [if_neg hl] at h
    cases hc : hexAcc 0 l with
    | none => rw [hc] at h; cases h
    | some c => exact arg_hexAcc l 0 c hc

theorem arg_uniList (ps : List (List Nat)) (o : List Nat) (h : uniList ps = some o) :
    ∀ p ∈ ps, ∀ x ∈ p, Arg x := by
  induction ps generalizing o with
  | nil => simp
  | cons p ps ih =>
    rw [uniList] at h
    intro q hq
    by_cases hp : p = []
    · rw [if_pos hp] at h
      rcases List.mem_cons.1 hq with rfl | hq
      · simp [hp]
      · exact ih o h q hq
    · rw [if_neg hp] at h
      cases hu : uniBytes p with
      | none => rw [hu] at h; cases h
      | some u =>
        rw [hu] at h
        simp only [Option.map_eq_some_iff] at h
        obtain ⟨z, hz, _⟩ := h
        rcases List.mem_cons.1 hq with rfl | hq
        · exact arg_uniBytes hu
        · exact ih z hz q hq

theorem spaces_mem (l cur : List Nat) (x : Nat) (h : x ∈ cur ∨ x ∈ l) (hx : x ≠ 32) :
    ∃ p ∈ spaces cur l, x ∈ p := by
  induction l generalizing cur with
  | nil => exact ⟨cur.reverse, by simp [spaces], by simpa using h⟩
  | cons b t ih =>
    rw [spaces]
    by_cases hb : b = 32
    · rw [if_pos hb]
      rcases h with h | h
      · exact ⟨cur.reverse, by simp, by simpa using h⟩
      · rcases List.mem_cons.1 h with rfl | h
        · exact absurd hb hx
        · obtain ⟨p, hp, hxp⟩ := ih [] (Or.inr h)
          exact ⟨p, by simp [hp], hxp⟩
    · rw [if_neg hb]
      apply ih
      rcases h with h | h
      · exact Or.inl (by simp [h])
      · rcases List.mem_cons.1 h with rfl | h
        · exact Or.inl (by simp)
        · exact Or.inr h

theorem one_shape {l o r : List Nat} (h : one l = some (o, r)) :
    (∃ b, l = b :: r ∧ b ≠ 0 ∧ b < 128 ∧ b ≠ 34 ∧ b ≠ 92) ∨
    (∃ e d, l = 92 :: e :: d ++ r ∧ e ≠ 0 ∧ e < 128 ∧ ∀ x ∈ d, Arg x) := by
  cases l with
  | nil => cases h
  | cons b t =>
    unfold one at h
    simp only at h
    by_cases h1 : b = 0 ∨ 128 ≤ b ∨ b = 34
    · rw [if_pos h1] at h; cases h
    rw [if_neg h1] at h
    by_cases h2 : b ≠ 92
    · rw [if_pos h2] at h
      simp only [Option.some.injEq, Prod.mk.injEq] at h
      exact Or.inl ⟨b, by rw [h.2], by omega, by omega, by omega, h2⟩
    rw [if_neg h2] at h
    have h2 : b = 92 := by omega
    subst h2
    right
    cases t with
    | nil => cases h
    | cons e t =>
      simp only at h
      cases hn : named e with
      | some c =>
        rw [hn] at h
        simp only [Option.some.injEq, Prod.mk.injEq] at h
        refine ⟨e, [], by rw [h.2]; rfl, ?_, ?_, by simp⟩
        · rintro rfl; cases hn
        · by_contra hb
          unfold named at hn
          rw [if_neg (by omega), if_neg (by omega), if_neg (by omega), if_neg (by omega), if_neg (by omega),
            if_neg (by omega), if_neg (by omega), if_neg (by omega), if_neg (by omega), if_neg (by omega),
            if_neg (by omega), if_neg (by omega)] at hn
          cases hn
      | none =>
        rw [hn] at h
        simp only at h
        by_cases hx : e = 120
        · rw [if_pos hx] at h
          rcases t with _ | ⟨a, _ | ⟨b, t⟩⟩
          · cases h
          · cases h
          · rw [xArm] at h
            cases ha : hexVal a with
            | none => rw [ha] at h; cases h
            | some x =>
              cases hb : hexVal b with
              | none => rw [ha, hb] at h; cases h
              | some y =>
                rw [ha, hb] at h
                simp only [Option.some.injEq, Prod.mk.injEq] at h
                refine ⟨e, [a, b], by rw [h.2]; rfl, by omega, by omega, ?_⟩
                intro z hz
                simp only [List.mem_cons, List.not_mem_nil, or_false] at hz
                rcases hz with rfl | rfl
                · exact arg_hexVal ha
                · exact arg_hexVal hb
        · rw [if_neg hx] at h
          by_cases hu : e = 117
          · rw [if_pos hu] at h
            unfold uArm at h
            by_cases hbr : t.head? = some 123
            · rw [if_pos hbr] at h
              obtain ⟨body, rfl⟩ : ∃ body, t = 123 :: body := by
                cases t with
                | nil => cases hbr
                | cons x t => simp at hbr; exact ⟨t, by rw [hbr]⟩
              replace h : (if 125 ∈ body then (uniList (spaces [] (body.takeWhile (· ≠ 125)))).map
                  (fun o => (o, (body.dropWhile (· ≠ 125)).tail)) else none) = some (o, r) := h
              by_cases hm : 125 ∈ body
              · rw [if_pos hm] at h
                simp only [Option.map_eq_some_iff, Prod.mk.injEq] at h
                obtain ⟨u, hul, _, hr⟩ := h
                obtain ⟨tl, htl⟩ : ∃ tl, body.dropWhile (· ≠ 125) = 125 :: tl := by
                  clear hul hr hbr hn
                  induction body with
                  | nil => simp at hm
                  | cons x l ih =>
                    by_cases hx : x = 125
                    · subst hx; exact ⟨l, by simp⟩
                    · have : 125 ∈ l := by
                        rcases List.mem_cons.1 hm with h | h
                        · exact absurd h.symm hx
                        · exact h
                      rw [List.dropWhile_cons_of_pos (by simpa using hx)]
                      exact ih this
                rw [htl] at hr
                simp only [List.tail_cons] at hr
                have hsplit := List.takeWhile_append_dropWhile (p := fun x => decide (x ≠ 125)) (l := body)
                rw [htl] at hsplit
                refine ⟨e, 123 :: body.takeWhile (· ≠ 125) ++ [125], ?_, by omega, by omega, ?_⟩
                · conv_lhs => rw [← hsplit]
                  rw [hr]; simp
                · intro x hx
                  simp only [List.cons_append, List.mem_cons, List.mem_append, List.not_mem_nil, or_false] at hx
                  rcases hx with rfl | hx | rfl
                  · unfold Arg; omega
                  · by_cases h32 : x = 32
                    · unfold Arg; omega
                    · obtain ⟨p, hp, hxp⟩ := spaces_mem _ [] x (Or.inr hx) h32
                      exact arg_uniList _ u hul p hp x hxp
                  · unfold Arg; omega
              · rw [if_neg hm] at h; cases h
            · rw [if_neg hbr] at h
              by_cases h4 : 4 ≤ t.length
              · rw [if_pos h4] at h
                simp only [Option.map_eq_some_iff, Prod.mk.injEq] at h
                obtain ⟨u, hu', _, hr⟩ := h
                refine ⟨e, t.take 4, ?_, by omega, by omega, arg_uniBytes hu'⟩
                rw [← hr]; simp
              · rw [if_neg h4] at h; cases h
          · rw [if_neg hu] at h; cases h

/-- a quote that no backslash precedes, as a reader of literals sees it -/
def openQuote : List Nat → Bool
  | [] => false
  | 92 :: _ :: t => openQuote t
  | [92] => false
  | b :: t => b = 34 || openQuote t

theorem openQuote_plain (l r : List Nat) (h : ∀ x ∈ l, x ≠ 92 ∧ x ≠ 34) :
    openQuote (l ++ r) = openQuote r := by
  induction l with
  | nil => rfl
  | cons b t ih =>
    have hb := h b (by simp)
    rw [List.cons_append, openQuote]
    · rw [ih fun x hx => h x (by simp [hx])]
      simp [hb.2]
    · intro x y hx; exact absurd hx hb.1
    · intro hx; exact absurd hx hb.1

theorem undumpLoop_shape (n : Nat) (l o : List Nat) (h : undumpLoop n l = some o) :
    (∀ x ∈ l, x ≠ 0 ∧ x < 128) ∧ openQuote l = false := by
  induction n generalizing l o with
  | zero =>
    cases l with
    | nil => exact ⟨by simp, rfl⟩
    | cons b t => cases h
  | succ n ih =>
    cases l with
    | nil => exact ⟨by simp, rfl⟩
    | cons b t =>
      rw [undumpLoop] at h
      cases ho : one (b :: t) with
      | none => rw [ho] at h; cases h
      | some p =>
        obtain ⟨u, r⟩ := p
        rw [ho] at h
        simp only [Option.map_eq_some_iff] at h
        obtain ⟨z, hz, _⟩ := h
        obtain ⟨i1, i2⟩ := ih r z hz
        have harg : ∀ x, Arg x → x ≠ 0 ∧ x < 128 ∧ x ≠ 92 ∧ x ≠ 34 := by
          intro x hx; unfold Arg at hx; omega
        rcases one_shape ho with ⟨c, e, h1, h2, h3, h4⟩ | ⟨c, d, e, h1, h2, h3⟩
        · rw [e]
          refine ⟨fun x hx => ?_, ?_⟩
          · rcases List.mem_cons.1 hx with rfl | hx
            · exact ⟨h1, h2⟩
            · exact i1 x hx
          · have := openQuote_plain [c] r (by simpa using ⟨h4, h3⟩)
            simpa [i2] using this
        · rw [e]
          refine ⟨fun x hx => ?_, ?_⟩
          · simp only [List.cons_append, List.mem_cons, List.mem_append] at hx
            rcases hx with rfl | rfl | hx | hx
            · omega
            · exact ⟨h1, h2⟩
            · have := harg x (h3 x hx); omega
            · exact i1 x hx
          · simp only [List.cons_append, openQuote]
            rw [openQuote_plain d r fun x hx => by have := harg x (h3 x hx); omega]
            exact i2

/-- C132: `undump` raises unless its receiver is one double-quoted literal: quotes at both ends, none
unescaped between them, and only ASCII characters other than NUL. -/
theorem C132_undump_refuses (s : List Nat) (r : List Nat × Enc) (h : undump s = some r) :
    ∃ body, s = 34 :: body ++ [34] ∧ (∀ x ∈ body, x ≠ 0 ∧ x < 128) ∧ openQuote body = false := by
  unfold undump parseUndump at h
  by_cases hc : s.length < 2 ∨ s.head? ≠ some 34 ∨ s.getLast? ≠ some 34
  · rw [if_pos hc] at h; cases h
  · rw [if_neg hc] at h
    simp only [Option.map_eq_some_iff] at h
    obtain ⟨z, hz, _⟩ := h
    obtain ⟨h1, h2⟩ := undumpLoop_shape _ _ _ hz
    simp only [ne_eq, not_or, not_lt, Decidable.not_not] at hc
    refine ⟨s.tail.dropLast, ?_, h1, h2⟩
    cases s with
    | nil => simp at hc
    | cons a t =>
      simp only [List.head?_cons, Option.some.injEq, List.length_cons] at hc
      have ht : t ≠ [] := by
        rintro rfl; simp at hc
      have hl := hc.2.2
      rw [List.getLast?_cons, List.getLast?_eq_some_getLast ht] at hl
      simp only [Option.getD_some, Option.some.injEq] at hl
      simp only [List.tail_cons, List.cons_append, List.cons.injEq]
      refine ⟨hc.2.1, ?_⟩
      rw [← hl, List.dropLast_concat_getLast]

example : undump [34, 97, 34, 98, 34] = none ∧ undump [34, 97, 92, 34] = none := by decide +kernel

end Verif.Text
