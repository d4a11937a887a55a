import Verif.Pack.ParseLemmas
import Verif.Pack.Base
import Verif.Pack.TextLemmas

/-!
# One field: what is packed is what is unpacked
-/

namespace Verif.Pack

theorem reduce_eq {w : Nat} (hw : 1 ≤ w) (hw8 : w ≤ 8) (signed : Bool) (i : Int) :
    interpret w signed (coerceU64 i % 2 ^ (8 * w)) = reduce w signed i := by
  have hm := coerce_mod hw8 i
  have hlt : coerceU64 i % 2 ^ (8 * w) < 2 ^ (8 * w) := Nat.mod_lt _ (Nat.two_pow_pos _)
  generalize coerceU64 i % 2 ^ (8 * w) = r at hm hlt
  have hhalf : (2 : Nat) ^ (8 * w) = 2 * 2 ^ (8 * w - 1) := by
    conv_lhs => rw [show 8 * w = 8 * w - 1 + 1 by omega, pow_succ]
    omega
  have hI : (256 : Int) ^ w = ((2 ^ (8 * w) : Nat) : Int) := by rw [pow256]; push_cast; rfl
  have hN : (256 : Nat) ^ w = 2 ^ (8 * w) := (pow256 w).symm
  unfold interpret reduce
  cases signed
  · simp only [Bool.false_and, Bool.false_eq_true, if_false]
    rw [hI, hm]; push_cast; rfl
  · simp only [Bool.true_and, decide_eq_true_eq, if_true]
    rw [hN, Int.bmod_def]
    push_cast at hm ⊢
    rw [← hm]
    have hp : ((2 : Int) ^ (8 * w)) = ((2 ^ (8 * w) : Nat) : Int) := by push_cast; rfl
    rw [hp, hhalf]
    generalize 2 ^ (8 * w - 1) = p at *
    split <;> split <;> omega

theorem fixed_width : ∀ e ∈ fixedDirectives, 1 ≤ e.2.1 ∧ e.2.1 ≤ 8 := by
  have key : fixedDirectives.all (fun e => decide (1 ≤ e.2.1 ∧ e.2.1 ≤ 8)) = true := by
    decide +kernel
  intro e he
  exact of_decide_eq_true (List.all_eq_true.1 key e he)

theorem It.rem_to {it : It} {bs rest : List Nat} (h : it.rem = bs ++ rest) :
    (it.to rest).rem = rest ∧ (it.to rest).slice = it.slice := by
  refine ⟨?_, rfl⟩
  unfold It.rem at h
  unfold It.to It.rem
  dsimp only
  have hl := congrArg List.length h
  simp only [List.length_drop, List.length_append] at hl
  by_cases hi : it.i ≤ it.slice.length
  · have : it.slice.length - rest.length = it.i + bs.length := by omega
    rw [this, ← List.drop_drop, h]
    simp
  · have h0 : bs.length = 0 ∧ rest.length = 0 := by omega
    have hr : rest = [] := List.length_eq_zero_iff.1 h0.2
    subst hr
    simp

/-- The field's node packs to `bs`, and `bs` unpacks to the field's values, whatever surrounds. -/
def Law (n : Node) (args values : List PV) : Prop :=
  ∃ bs, (∀ more, packOut n (args ++ more) = .ok (bs, more)) ∧
    n.template ≠ .back ∧ n.template ≠ .atPos ∧
    ∀ (it : It) (rest : List Nat), it.rem = bs ++ rest →
      ∃ it', unpackNode n it = .ok (values, it') ∧ it'.rem = rest ∧ it'.slice = it.slice

theorem decodeN_ok {f : List Nat → Except Err (PV × List Nat)} {α : Type} (mk : α → PV)
    (enc : α → List Nat) (vs : List α)
    (h : ∀ v ∈ vs, enc v ≠ [] ∧ ∀ l, f (enc v ++ l) = .ok (mk v, l)) (rest : List Nat) :
    decodeN f vs.length ((vs.map enc).flatten ++ rest) = .ok (vs.map mk, rest) := by
  induction vs with
  | nil => rfl
  | cons v vs ih =>
    obtain ⟨h1, h2⟩ := h v (by simp)
    have := ih fun v hv => h v (by simp [hv])
    simp only [List.map_cons, List.flatten_cons, List.append_assoc, List.length_cons]
    have h3 := h2 ((vs.map enc).flatten ++ rest)
    cases he : enc v with
    | nil => exact absurd he h1
    | cons b bs =>
      rw [he, List.cons_append] at h3
      simp only [List.cons_append, decodeN]
      rw [h3]
      dsimp only
      rw [this]

theorem decodeN_all {f : List Nat → Except Err (PV × List Nat)} {α : Type} (mk : α → PV)
    (enc : α → List Nat) (vs : List α)
    (h : ∀ v ∈ vs, enc v ≠ [] ∧ ∀ l, f (enc v ++ l) = .ok (mk v, l)) (n : Nat)
    (hn : ((vs.map enc).flatten).length ≤ n) :
    decodeN f n (vs.map enc).flatten = .ok (vs.map mk, []) := by
  induction vs generalizing n with
  | nil => cases n <;> rfl
  | cons v vs ih =>
    obtain ⟨h1, h2⟩ := h v (by simp)
    have h3 := h2 (vs.map enc).flatten
    simp only [List.map_cons, List.flatten_cons] at hn ⊢
    cases he : enc v with
    | nil => exact absurd he h1
    | cons b bs =>
      rw [he, List.cons_append] at h3
      rw [he] at hn
      cases n with
      | zero => simp at hn
      | succ n =>
        simp only [List.cons_append, decodeN]
        rw [h3]
        dsimp only
        rw [ih (fun v hv => h v (by simp [hv])) n (by simp at hn ⊢; omega)]

theorem lebN_ok {α : Type} (dec : List Nat → Outcome α) (mkv : α → PV) (star : Bool)
    (enc : α → List Nat) (vs : List α) (h : ∀ v ∈ vs, ∀ l, dec (enc v ++ l) = .value v l)
    (rest : List Nat) :
    lebN dec mkv star vs.length ((vs.map enc).flatten ++ rest) = (vs.map mkv, rest) := by
  induction vs with
  | nil => rfl
  | cons v vs ih =>
    have := ih fun v hv => h v (by simp [hv])
    simp only [List.map_cons, List.flatten_cons, List.append_assoc, List.length_cons, lebN]
    rw [h v (by simp)]
    dsimp only
    rw [this]

theorem lebN_all {α : Type} (dec : List Nat → Outcome α) (mkv : α → PV) (star : Bool)
    (enc : α → List Nat) (vs : List α)
    (h : ∀ v ∈ vs, enc v ≠ [] ∧ ∀ l, dec (enc v ++ l) = .value v l) (hend : dec [] = .atEnd)
    (n : Nat) (hn : ((vs.map enc).flatten).length ≤ n) :
    lebN dec mkv star n (vs.map enc).flatten = (vs.map mkv, []) := by
  induction vs generalizing n with
  | nil => cases n <;> simp [lebN, hend]
  | cons v vs ih =>
    obtain ⟨h1, h2⟩ := h v (by simp)
    simp only [List.map_cons, List.flatten_cons] at hn ⊢
    have hpos : 0 < (enc v).length := List.length_pos_iff.2 h1
    cases n with
    | zero => simp at hn; exact absurd hn.1 h1
    | succ n =>
      simp only [lebN]
      rw [h2]
      dsimp only
      rw [ih (fun v hv => h v (by simp [hv])) n (by simp at hn ⊢; omega)]

/-! ## The laws, field by field -/

theorem law_ints {d : String} {w : Nat} {signed big : Bool} (h : (d, w, signed, big) ∈ fixedDirectives)
    (is : List Int) (ex : Bool) :
    Law ⟨.int w signed, big, some is.length, ex⟩ (is.map .int)
      (is.map fun i => .int (reduce w signed i)) := by
  obtain ⟨hw, hw8⟩ := fixed_width _ h
  refine ⟨(is.map fun i => toBytes w big (coerceU64 i)).flatten, ?_, by simp, by simp, ?_⟩
  · intro more
    exact eachN_ok (f := packInt w big) PV.int (fun i => toBytes w big (coerceU64 i)) is more
      fun v _ => rfl
  · intro it rest hr
    obtain ⟨h1, h2⟩ := It.rem_to hr
    refine ⟨_, ?_, h1, h2⟩
    simp only [unpackNode, hr]
    have := unpackN_append w (fun c => PV.int (interpret w signed (ofBytes big c)))
      (is.map fun i => toBytes w big (coerceU64 i)) rest (by simp [length_toBytes])
    rw [List.length_map] at this
    rw [this, List.map_map]
    dsimp only
    congr 2
    apply List.map_congr_left
    intro i _
    simp only [Function.comp, ofBytes_toBytes]
    rw [reduce_eq hw hw8]

theorem law_doubles (big ex : Bool) (fs : List Nat) (h : ∀ b ∈ fs, b < 2 ^ 64) :
    Law ⟨.f64, big, some fs.length, ex⟩ (fs.map .flt) (fs.map .flt) := by
  refine ⟨(fs.map fun i => toBytes 8 big i).flatten, ?_, by simp, by simp, ?_⟩
  · intro more
    exact eachN_ok (f := packF64 big) PV.flt (fun i => toBytes 8 big i) fs more fun v _ => rfl
  · intro it rest hr
    obtain ⟨h1, h2⟩ := It.rem_to hr
    refine ⟨_, ?_, h1, h2⟩
    simp only [unpackNode, hr]
    have := unpackN_append 8 (fun c => PV.flt (ofBytes big c))
      (fs.map fun i => toBytes 8 big i) rest (by simp [length_toBytes])
    rw [List.length_map] at this
    rw [this, List.map_map]
    dsimp only
    congr 2
    apply List.map_congr_left
    intro i hi
    simp only [Function.comp, ofBytes_toBytes]
    rw [Nat.mod_eq_of_lt (h i hi)]

theorem padTo_eq_fit (pad n : Nat) (s : List Nat) : padTo pad n s = fit pad n s := by
  unfold padTo fit
  split
  · rw [List.take_append_of_le_length (by assumption)]
  · rw [List.take_append, List.take_of_length_le (by omega), List.take_replicate,
      Nat.min_eq_left (by omega)]

theorem length_fit (pad n : Nat) (s : List Nat) : (fit pad n s).length = n := by
  unfold fit; simp

/-- A field of `n` bytes read back with `f`. -/
theorem law_string (n pad : Nat) (s v : List Nat) (ex big : Bool) (t : Template) (f : List Nat → List Nat)
    (ht : (t = .ascii ∧ pad = 0 ∧ f = id) ∨ (t = .asciiTrim ∧ pad = 32 ∧ f = trim) ∨
      (t = .cString ∧ pad = 0 ∧ f = upToNul)) (hf : f (fit pad n s) = v) :
    Law ⟨t, big, some n, ex⟩ [.str s] [.str v] := by
  refine ⟨fit pad n s, ?_, ?_, ?_, ?_⟩
  · intro more
    rcases ht with ⟨rfl, rfl, rfl⟩ | ⟨rfl, rfl, rfl⟩ | ⟨rfl, rfl, rfl⟩ <;>
      simp [packOut, oneString, packString, padTo_eq_fit]
  · rcases ht with ⟨rfl, _⟩ | ⟨rfl, _⟩ | ⟨rfl, _⟩ <;> simp
  · rcases ht with ⟨rfl, _⟩ | ⟨rfl, _⟩ | ⟨rfl, _⟩ <;> simp
  · intro it rest hr
    obtain ⟨h1, h2⟩ := It.rem_to hr
    refine ⟨_, ?_, h1, h2⟩
    have hl := length_fit pad n s
    have ht' : takeStr f (some n) (fit pad n s ++ rest) = ([.str v], rest) := by
      unfold takeStr
      dsimp only
      rw [List.take_left' hl, List.drop_left' hl, hf]
    rcases ht with ⟨rfl, rfl, rfl⟩ | ⟨rfl, rfl, rfl⟩ | ⟨rfl, rfl, rfl⟩ <;>
      simp only [unpackNode, hr, ht']

theorem trim_fit (n : Nat) (s : List Nat) (hn : s.length ≤ n) (h1 : s.getLast? ≠ some 32)
    (h2 : s.getLast? ≠ some 0) : trim (fit 32 n s) = s := by
  unfold trim fit
  rw [List.take_append, List.take_of_length_le hn, List.reverse_append, List.take_replicate,
    List.reverse_replicate]
  have hdrop : ∀ k (l : List Nat), (List.replicate k 32 ++ l).dropWhile (fun c => c == 32 || c == 0)
      = l.dropWhile (fun c => c == 32 || c == 0) := by
    intro k l
    induction k with
    | zero => simp
    | succ k ih => simp [List.replicate_succ, ih]
  rw [hdrop]
  rw [← List.head?_reverse] at h1 h2
  have : s.reverse.dropWhile (fun c => c == 32 || c == 0) = s.reverse := by
    cases hr : s.reverse with
    | nil => rfl
    | cons c l =>
      rw [hr] at h1 h2
      simp at h1 h2
      simp [h1, h2]
  rw [this, List.reverse_reverse]

theorem nul_fit (n : Nat) (s : List Nat) (hn : s.length ≤ n) (h : 0 ∉ s) :
    upToNul (fit 0 n s) = s := by
  unfold upToNul fit
  rw [List.take_append, List.take_of_length_le hn, List.take_replicate]
  have : ∀ (s : List Nat) k, 0 ∉ s → (s ++ List.replicate k 0).takeWhile (· != 0) = s := by
    intro s k hs
    induction s with
    | nil => cases k <;> simp [List.replicate_succ]
    | cons c s ih =>
      have hc : c ≠ 0 := fun h => hs (by simp [h])
      simp [hc, ih (fun h => hs (by simp [h]))]
  exact this s _ h

theorem padded_eq (f : Nat → Nat) (n : Nat) (s : List Nat) : padded f n s = fit 0 n (s.map f) := by
  unfold padded fit
  apply List.ext_getElem
  · simp
  · intro i h1 h2
    simp only [List.length_map, List.length_range] at h1
    simp only [List.getElem_map, List.getElem_range, List.getElem_take]
    by_cases hi : i < s.length
    · rw [List.getElem_append_left (by simpa using hi), List.getElem?_eq_getElem hi]
      simp
    · rw [List.getElem_append_right (by simpa using hi),
        List.getElem?_eq_none (by omega)]
      simp

theorem fit_map (f : Nat → Nat) (pad n : Nat) (s : List Nat) :
    (fit pad n s).map f = fit (f pad) n (s.map f) := by
  unfold fit; simp [List.map_take]

theorem mem_fit {pad n x : Nat} {s : List Nat} (h : x ∈ fit pad n s) : x ∈ s ∨ x = pad := by
  have := List.mem_of_mem_take h
  rcases List.mem_append.1 this with h | h
  · exact Or.inl h
  · exact Or.inr (List.eq_of_mem_replicate h)

theorem hex_case {c : Nat}
    (h : (48 ≤ c ∧ c ≤ 57) ∨ (65 ≤ c ∧ c ≤ 70) ∨ (97 ≤ c ∧ c ≤ 102)) :
    lowHex (nibble c) = lowerHex c := by
  have key := lt_all (n := 256) (p := fun c => decide (((48 ≤ c ∧ c ≤ 57) ∨ (65 ≤ c ∧ c ≤ 70) ∨
    (97 ≤ c ∧ c ≤ 102)) → lowHex (nibble c) = lowerHex c)) (by decide +kernel)
    (show c < 256 by omega)
  exact of_decide_eq_true key h

theorem law_hex (big ex : Bool) (n : Nat) (s : List Nat)
    (h : ∀ c ∈ s, (48 ≤ c ∧ c ≤ 57) ∨ (65 ≤ c ∧ c ≤ 70) ∨ (97 ≤ c ∧ c ≤ 102)) :
    Law ⟨.hex, big, some n, ex⟩ [.str s] [.str (fit 48 n (s.map lowerHex))] := by
  refine ⟨hexPack big none (padded nibble n s), fun more => rfl, by simp, by simp, ?_⟩
  intro it rest hr
  obtain ⟨h1, h2⟩ := It.rem_to hr
  refine ⟨_, ?_, h1, h2⟩
  simp only [unpackNode, hr]
  have hlen : (padded nibble n s).length = n := by simp [padded]
  have := hex_digits big (padded nibble n s) rest (by
    intro x hx
    rw [padded_eq] at hx
    rcases mem_fit hx with h | rfl
    · obtain ⟨c, _, rfl⟩ := List.mem_map.1 h
      exact nibble_lt c
    · omega)
  rw [hlen] at this
  rw [this]
  dsimp only
  rw [padded_eq, fit_map, List.map_map]
  congr 5
  apply List.map_congr_left
  intro c hc
  exact hex_case (h c hc)

theorem law_bits (big ex : Bool) (n : Nat) (s : List Nat) (h : ∀ c ∈ s, c = 48 ∨ c = 49) :
    Law ⟨.bitString, big, some n, ex⟩ [.str s] [.str (fit 48 n s)] := by
  refine ⟨bitPack big 0 0 (padded (· &&& 1) n s), fun more => rfl, by simp, by simp, ?_⟩
  intro it rest hr
  obtain ⟨h1, h2⟩ := It.rem_to hr
  refine ⟨_, ?_, h1, h2⟩
  simp only [unpackNode, hr]
  have hlen : (padded (· &&& 1) n s).length = n := by simp [padded]
  have := bits_digits big (padded (· &&& 1) n s) rest (by
    intro x hx
    rw [padded_eq] at hx
    rcases mem_fit hx with h | rfl
    · obtain ⟨c, _, rfl⟩ := List.mem_map.1 h
      rw [and1]; omega
    · omega)
  rw [hlen] at this
  rw [this]
  dsimp only
  rw [padded_eq, fit_map, List.map_map]
  congr 5
  conv_rhs => rw [← List.map_id s]
  apply List.map_congr_left
  intro c hc
  rcases h c hc with rfl | rfl <;> decide

theorem utf8Encode_ne (c : Nat) : utf8Encode c ≠ [] := by
  unfold utf8Encode
  repeat' split
  all_goals simp

theorem utf8_step (c : Nat) (h : c < 0x200000) (l : List Nat) :
    ((utf8Decode (utf8Encode c ++ l)).map fun r => (PV.int (r.1 : Nat), r.2)) = .ok (.int c, l) := by
  rw [utf8_roundtrip c h]; rfl

theorem law_chars (big ex : Bool) (cps : List Nat) (h : ∀ c ∈ cps, c < 0x200000) :
    Law ⟨.utf8, big, some cps.length, ex⟩ (cps.map fun (c : Nat) => .int c)
      (cps.map fun (c : Nat) => .int c) := by
  refine ⟨(cps.map utf8Encode).flatten, ?_, by simp, by simp, ?_⟩
  · intro more
    exact eachN_ok (f := packUtf8) (fun (c : Nat) => PV.int c) utf8Encode cps more
      fun c hc => packUtf8_ok (by have := h c hc; omega)
  · intro it rest hr
    obtain ⟨h1, h2⟩ := It.rem_to hr
    refine ⟨_, ?_, h1, h2⟩
    simp only [unpackNode, hr, Option.getD_some]
    rw [decodeN_ok (fun (c : Nat) => PV.int c) utf8Encode cps
      (fun c hc => ⟨utf8Encode_ne c, utf8_step c (h c hc)⟩) rest]

/-- The bytes of one `w`. -/
def berBytes (i : Int) : List Nat := match berEncode i with | .ok bs => bs | .error _ => []

theorem berBytes_ok {i : Int} (h : 0 ≤ i) : berEncode i = .ok (berBytes i) := by
  unfold berBytes
  obtain ⟨bs, h1, _⟩ := ber_roundtrip i h []
  rw [h1]

theorem ber_step (i : Int) (h : 0 ≤ i ∧ i < 2 ^ 63) : berBytes i ≠ [] ∧ ∀ l : List Nat,
    ((berDecode 0 (berBytes i ++ l)).map fun r => (PV.int r.1, r.2)) = .ok (.int i, l) := by
  constructor
  · obtain ⟨bs, h1, h2, _⟩ := ber_roundtrip i h.1 []
    rw [berBytes_ok h.1] at h1
    cases h1
    exact h2
  · intro l
    obtain ⟨bs, h1, _, h3⟩ := ber_roundtrip i h.1 l
    rw [berBytes_ok h.1] at h1
    cases h1
    rw [h3, interpret_signed _ i (by omega) (by omega) h.2]
    rfl

theorem law_ber (big ex : Bool) (is : List Int) (h : ∀ i ∈ is, 0 ≤ i ∧ i < 2 ^ 63) :
    Law ⟨.ber, big, some is.length, ex⟩ (is.map .int) (is.map .int) := by
  refine ⟨(is.map berBytes).flatten, ?_, by simp, by simp, ?_⟩
  · intro more
    exact eachN_ok (f := packBer) PV.int berBytes is more fun i hi => berBytes_ok (h i hi).1
  · intro it rest hr
    obtain ⟨h1, h2⟩ := It.rem_to hr
    refine ⟨_, ?_, h1, h2⟩
    simp only [unpackNode, hr, Option.getD_some]
    rw [decodeN_ok PV.int berBytes is (fun c hc => ber_step c (h c hc)) rest]

theorem uleb_step (i : Int) (h : 0 ≤ i ∧ i < 2 ^ 64) (l : List Nat) :
    ulebDecode (ulebEncode 10 (coerceU64 i) ++ l) = .value i.toNat l := by
  rw [uleb_roundtrip _ (coerceU64_lt i)]
  congr 1
  have := coerceU64_eq i
  omega

theorem law_uleb (big ex : Bool) (is : List Int) (h : ∀ i ∈ is, 0 ≤ i ∧ i < 2 ^ 64) :
    Law ⟨.uleb, big, some is.length, ex⟩ (is.map .int) (is.map .int) := by
  have henc : is.map (fun i => ulebEncode 10 (coerceU64 i))
      = (is.map Int.toNat).map fun n => ulebEncode 10 n := by
    rw [List.map_map]
    apply List.map_congr_left
    intro i hi
    have h1 := coerceU64_eq i
    have h2 := h i hi
    simp only [Function.comp]
    congr 1
    omega
  refine ⟨(is.map fun i => ulebEncode 10 (coerceU64 i)).flatten, ?_, by simp, by simp, ?_⟩
  · intro more
    exact eachN_ok (f := packUleb) PV.int (fun i => ulebEncode 10 (coerceU64 i)) is more
      fun i _ => rfl
  · intro it rest hr
    obtain ⟨h1, h2⟩ := It.rem_to hr
    refine ⟨_, ?_, h1, h2⟩
    simp only [unpackNode, hr, Option.getD_some, henc]
    have := lebN_ok ulebDecode (fun v => PV.int v) false (fun n => ulebEncode 10 n)
      (is.map Int.toNat) (by
        intro v hv l
        obtain ⟨i, hi, rfl⟩ := List.mem_map.1 hv
        have := h i hi
        exact uleb_roundtrip _ (by omega) l) rest
    rw [List.length_map] at this
    simp only [Option.isNone_some]
    rw [this, List.map_map]
    dsimp only
    congr 2
    apply List.map_congr_left
    intro i hi
    have := h i hi
    simp only [Function.comp, Int.toNat_of_nonneg this.1]

theorem packSleb_ok (i : Int) (h : -(2 ^ 63) ≤ i ∧ i < 2 ^ 63) :
    packSleb (.int i) = .ok (slebEncode 10 i) := by
  simp only [packSleb, coerceI64, if_pos h]

theorem law_sleb (big ex : Bool) (is : List Int) (h : ∀ i ∈ is, -(2 ^ 63) ≤ i ∧ i < 2 ^ 63) :
    Law ⟨.sleb, big, some is.length, ex⟩ (is.map .int) (is.map .int) := by
  refine ⟨(is.map fun i => slebEncode 10 i).flatten, ?_, by simp, by simp, ?_⟩
  · intro more
    exact eachN_ok (f := packSleb) PV.int (fun i => slebEncode 10 i) is more
      fun i hi => packSleb_ok i (h i hi)
  · intro it rest hr
    obtain ⟨h1, h2⟩ := It.rem_to hr
    refine ⟨_, ?_, h1, h2⟩
    simp only [unpackNode, hr, Option.getD_some, Option.isNone_some]
    rw [lebN_ok slebDecode (fun v => PV.int v) false (fun n => slebEncode 10 n) is
      (fun i hi l => sleb_roundtrip i (h i hi).1 (h i hi).2 l) rest]

theorem law_skip (big ex : Bool) (n : Nat) : Law ⟨.null, big, some n, ex⟩ [] [] := by
  refine ⟨List.replicate n 0, fun more => rfl, by simp, by simp, ?_⟩
  intro it rest hr
  refine ⟨{ it with i := it.i + n }, ?_, ?_, rfl⟩
  · simp only [unpackNode, hr]
    rw [if_neg (by simp)]
  · unfold It.rem at hr ⊢
    dsimp only
    rw [← List.drop_drop, hr]
    simp

/-! ## Records -/

theorem packNodes_law (fs : List (Node × List PV × List PV))
    (h : ∀ f ∈ fs, Law f.1 f.2.1 f.2.2) (pre : List Nat) :
    ∃ bs, packNodes (fs.map (·.1)) pre (fs.map (·.2.1)).flatten = .ok (pre ++ bs) ∧
      ∀ (it : It), it.rem = bs → unpackNodes (fs.map (·.1)) it = .ok (fs.map (·.2.2)).flatten := by
  induction fs generalizing pre with
  | nil => exact ⟨[], by simp [packNodes], fun it _ => rfl⟩
  | cons f fs ih =>
    obtain ⟨bs, h1, hb, ha, h2⟩ := h f (by simp)
    obtain ⟨bs', h3, h4⟩ := ih (fun f hf => h f (by simp [hf])) (pre ++ bs)
    refine ⟨bs ++ bs', ?_, ?_⟩
    · simp only [List.map_cons, List.flatten_cons, packNodes]
      have : packNode f.1 pre (f.2.1 ++ (fs.map (·.2.1)).flatten)
          = .ok (pre ++ bs, (fs.map (·.2.1)).flatten) := by
        unfold packNode
        split
        · exact absurd (by assumption) hb
        · exact absurd (by assumption) ha
        · rw [h1]
      rw [this]
      dsimp only
      rw [h3, List.append_assoc]
    · intro it hr
      obtain ⟨it', h5, h6, _⟩ := h2 it bs' hr
      simp only [List.map_cons, List.flatten_cons, unpackNodes]
      rw [h5]
      dsimp only
      rw [h4 it' h6]

/-- The node of a field. -/
def Field.node (f : Field) : Node :=
  match f with
  | .ints _ w signed big is => ⟨.int w signed, big, some is.length, true⟩
  | .doubles _ big fs => ⟨.f64, big, some fs.length, true⟩
  | .bytes n _ => ⟨.ascii, false, some n, true⟩
  | .text n _ => ⟨.asciiTrim, false, some n, true⟩
  | .cstring n _ => ⟨.cString, false, some n, true⟩
  | .hex high n _ => ⟨.hex, high, some n, true⟩
  | .bits high n _ => ⟨.bitString, high, some n, true⟩
  | .chars cps => ⟨.utf8, false, some cps.length, true⟩
  | .ber is => ⟨.ber, false, some is.length, true⟩
  | .uleb is => ⟨.uleb, false, some is.length, true⟩
  | .sleb is => ⟨.sleb, false, some is.length, true⟩
  | .skip n => ⟨.null, false, some n, true⟩

theorem Field.law (f : Field) (h : f.Ok) : Law f.node f.args f.values := by
  cases f with
  | ints d w s b is => exact law_ints h is true
  | doubles d b fs => exact law_doubles b true fs h.2
  | bytes n s => exact law_string n 0 s _ true false .ascii id (by simp) rfl
  | text n s =>
    exact law_string n 32 s s true false .asciiTrim trim (by simp) (trim_fit n s h.1 h.2.1 h.2.2)
  | cstring n s =>
    exact law_string n 0 s s true false .cString upToNul (by simp) (nul_fit n s h.1 h.2)
  | hex b n s => exact law_hex b true n s h
  | bits b n s => exact law_bits b true n s h
  | chars cps => exact law_chars false true cps h
  | ber is => exact law_ber false true is h
  | uleb is => exact law_uleb false true is h
  | sleb is => exact law_sleb false true is h
  | skip n => exact law_skip false true n

theorem isDir_a : IsDirective "a" .ascii false :=
  ⟨'a', [], by decide, by decide⟩
theorem isDir_big_a : IsDirective "A" .asciiTrim false :=
  ⟨'A', [], by decide, by decide⟩
theorem isDir_big_z : IsDirective "Z" .cString false :=
  ⟨'Z', [], by decide, by decide⟩
theorem isDir_h : IsDirective "h" .hex false :=
  ⟨'h', [], by decide, by decide⟩
theorem isDir_big_h : IsDirective "H" .hex true :=
  ⟨'H', [], by decide, by decide⟩
theorem isDir_b : IsDirective "b" .bitString false :=
  ⟨'b', [], by decide, by decide⟩
theorem isDir_big_b : IsDirective "B" .bitString true :=
  ⟨'B', [], by decide, by decide⟩
theorem isDir_big_u : IsDirective "U" .utf8 false :=
  ⟨'U', [], by decide, by decide⟩
theorem isDir_w : IsDirective "w" .ber false :=
  ⟨'w', [], by decide, by decide⟩
theorem isDir_big_r : IsDirective "R" .uleb false :=
  ⟨'R', [], by decide, by decide⟩
theorem isDir_r : IsDirective "r" .sleb false :=
  ⟨'r', [], by decide, by decide⟩
theorem isDir_x : IsDirective "x" .null false :=
  ⟨'x', [], by decide, by decide⟩
theorem isDir_m : IsDirective "m" .base64 false :=
  ⟨'m', [], by decide, by decide⟩
theorem isDir_big_m : IsDirective "M" .quotedPrintable false :=
  ⟨'M', [], by decide, by decide⟩
theorem isDir_u : IsDirective "u" .uuEncoded false :=
  ⟨'u', [], by decide, by decide⟩

theorem Field.isDirective (f : Field) (h : f.Ok) :
    IsDirective f.directive f.node.template f.node.big ∧ f.node.rep = some f.count ∧
      f.node.explicit = true := by
  cases f with
  | ints d w s b is => exact ⟨fixed_isDirective _ h, rfl, rfl⟩
  | doubles d b fs => exact ⟨double_isDirective _ h.1, rfl, rfl⟩
  | bytes n s => exact ⟨isDir_a, rfl, rfl⟩
  | text n s => exact ⟨isDir_big_a, rfl, rfl⟩
  | cstring n s => exact ⟨isDir_big_z, rfl, rfl⟩
  | hex b n s =>
    cases b
    · exact ⟨isDir_h, rfl, rfl⟩
    · exact ⟨isDir_big_h, rfl, rfl⟩
  | bits b n s =>
    cases b
    · exact ⟨isDir_b, rfl, rfl⟩
    · exact ⟨isDir_big_b, rfl, rfl⟩
  | chars cps => exact ⟨isDir_big_u, rfl, rfl⟩
  | ber is => exact ⟨isDir_w, rfl, rfl⟩
  | uleb is => exact ⟨isDir_big_r, rfl, rfl⟩
  | sleb is => exact ⟨isDir_r, rfl, rfl⟩
  | skip n => exact ⟨isDir_x, rfl, rfl⟩

theorem join_toList (l : List String) : (String.join l).toList = (l.map String.toList).flatten := by
  induction l with
  | nil => rfl
  | cons s l ih => simp [String.join_cons, ih]

theorem parse_record (fs : List Field) (h : ∀ f ∈ fs, f.Ok ∧ f.count < 2 ^ 63) :
    parse (recordTemplate fs) = .ok (fs.map Field.node) := by
  have := parseAux_counted (fs.map fun f => (f.directive, f.node.template, f.node.big, f.count)) (by
    intro e he
    obtain ⟨f, hf, rfl⟩ := List.mem_map.1 he
    exact ⟨(f.isDirective (h f hf).1).1, (h f hf).2⟩) _ (Nat.le_refl _)
  unfold parse
  have htext : (recordTemplate fs).toList = ((fs.map fun f =>
      (f.directive, f.node.template, f.node.big, f.count)).map fun e =>
        e.1.toList ++ Nat.toDigits 10 e.2.2.2).flatten := by
    unfold recordTemplate
    rw [join_toList, List.map_map, List.map_map]
    congr 1
    apply List.map_congr_left
    intro f _
    simp only [Function.comp, String.toList_append]
    rw [show (toString f.count).toList = Nat.toDigits 10 f.count from Nat.toList_repr]
  rw [htext, this, List.map_map]
  congr 1
  apply List.map_congr_left
  intro f hf
  obtain ⟨_, h2, h3⟩ := f.isDirective (h f hf).1
  simp only [Function.comp]
  rw [← h2, ← h3]

end Verif.Pack
