import Verif.Pack.FormatLemmas

/-!
# C34, C47: formats, separators, positions

These theorems pin down what the round trips of `Props.lean` and `TextProps.lean` leave open.
-/

namespace Verif.Pack

/-! ## C47: separators -/

/-- Blanks (space, tab, newline, vertical tab, form feed, carriage return) and comments between the
directives of a template change nothing. -/
theorem C47_separators (fs : List (String × Field)) (last : String)
    (h : ∀ e ∈ fs, Separator e.1.toList ∧ e.2.Ok ∧ e.2.count < 2 ^ 63) (hlast : Closing last.toList)
    (args : List PV) (bs : List Nat) :
    let t := String.join (fs.map fun e => e.1 ++ (e.2.directive ++ toString e.2.count)) ++ last
    pack args t = pack args (recordTemplate (fs.map Prod.snd)) ∧
      unpack bs t = unpack bs (recordTemplate (fs.map Prod.snd)) := by
  intro t
  have h1 := parseAux_separated (fs.map fun e => (e.1.toList, e.2.dir)) last.toList hlast (by
    intro e he
    obtain ⟨e, he', rfl⟩ := List.mem_map.1 he
    exact ⟨(h e he').1, e.2.dir_ok (h e he').2⟩)
  have ht : t.toList = ((fs.map fun e => (e.1.toList, e.2.dir)).flatMap fun e => e.1 ++ e.2.text) ++
      last.toList := by
    simp only [t, String.toList_append, join_toList, List.flatMap_map, List.flatMap_def, List.map_map]
    congr 2
    apply List.map_congr_left
    intro e _
    simp only [Function.comp, String.toList_append, Field.dir_text]
  have hp : parse t = .ok (fs.map fun e => e.2.node) := by
    unfold parse
    rw [ht, h1 _ (Nat.le_refl _), List.map_map]
    congr 1
    apply List.map_congr_left
    intro e he
    exact e.2.dir_node (h e he).2.1
  have hp' : parse (recordTemplate (fs.map Prod.snd)) = .ok (fs.map fun e => e.2.node) := by
    rw [parse_record _ (by
      intro f hf
      obtain ⟨e, he, rfl⟩ := List.mem_map.1 hf
      exact (h e he).2), List.map_map]
    rfl
  unfold pack unpack
  rw [hp, hp']
  exact ⟨rfl, rfl⟩

/-- `" C1 \t# two\n n1 # end"`. -/
example : Separator [' ', '\t', '#', 't', 'w', 'o', '\n', ' '] ∧ Closing [' ', '#', 'e'] := by
  constructor
  · exact .blank (by simp) (.blank (by simp) (.comment (text := ['t', 'w', 'o']) (by decide)
      (.blank (by simp) .nil)))
  · exact ⟨[' '], .blank (by simp) .nil, Or.inr ⟨['e'], by decide, rfl⟩⟩

/-! ## C47: `X` and `@` -/

theorem parse_then (fs gs : List Field) (h : ∀ f ∈ fs, f.Ok ∧ f.count < 2 ^ 63)
    (h' : ∀ f ∈ gs, f.Ok ∧ f.count < 2 ^ 63) {d : String} {t : Template} (hd : IsDirective d t false)
    (m : Nat) (hm : m < 2 ^ 63) :
    parse (recordTemplate fs ++ (d ++ toString m) ++ recordTemplate gs) =
      .ok (fs.map Field.node ++ ⟨t, false, some m, true⟩ :: gs.map Field.node) := by
  have := parse_dirs (fs.map Field.dir ++ (d, t, false, m) :: gs.map Field.dir) (by
    intro e he
    rcases List.mem_append.1 he with he | he
    · obtain ⟨f, hf, rfl⟩ := List.mem_map.1 he
      exact f.dir_ok (h f hf)
    · rcases List.mem_cons.1 he with rfl | he
      · exact ⟨hd, hm⟩
      · obtain ⟨f, hf, rfl⟩ := List.mem_map.1 he
        exact f.dir_ok (h' f hf))
    (recordTemplate fs ++ (d ++ toString m) ++ recordTemplate gs) (by
      rw [String.toList_append, String.toList_append, String.toList_append, record_text, record_text,
        toDigits_text]
      simp [Dir.text])
  rw [this]
  simp only [List.map_append, List.map_cons, List.map_map, Dir.node]
  congr 2
  · apply List.map_congr_left
    intro f hf
    exact f.dir_node (h f hf).1
  · congr 1
    apply List.map_congr_left
    intro f hf
    exact f.dir_node (h' f hf).1

/-- `X` in `pack` takes back that many bytes of what precedes, and raises ArgumentError if there are
fewer; the directives after it append where it stopped. -/
theorem C47_pack_back (fs gs : List Field) (h : ∀ f ∈ fs, f.Ok ∧ f.count < 2 ^ 63)
    (h' : ∀ f ∈ gs, f.Ok ∧ f.count < 2 ^ 63) (m : Nat) (hm : m < 2 ^ 63) (bs cs : List Nat)
    (hb : pack (fs.flatMap Field.args) (recordTemplate fs) = .ok bs)
    (hc : pack (gs.flatMap Field.args) (recordTemplate gs) = .ok cs) :
    pack (fs.flatMap Field.args ++ gs.flatMap Field.args)
        (recordTemplate fs ++ ("X" ++ toString m) ++ recordTemplate gs) =
      if bs.length < m then .error .argument else .ok (bs.take (bs.length - m) ++ cs) := by
  obtain ⟨bs', h1, _⟩ := nodes_law fs fun f hf => (h f hf).1
  obtain ⟨cs', h2, _⟩ := nodes_law gs fun f hf => (h' f hf).1
  have e1 := h1 [] [] []
  have e2 := h2 [] [] []
  unfold pack at hb hc ⊢
  rw [parse_record fs h] at hb
  rw [parse_record gs h'] at hc
  dsimp only at hb hc
  simp only [List.append_nil, List.nil_append, packNodes] at e1 e2
  rw [e1] at hb
  rw [e2] at hc
  simp only [Except.ok.injEq] at hb hc
  subst hb hc
  rw [parse_then fs gs h h' isDir_back m hm]
  dsimp only
  rw [h1]
  have e3 := fun p => h2 [] p []
  simp only [List.append_nil, packNodes] at e3
  simp only [packNodes, packNode, List.nil_append]
  by_cases hlt : bs'.length < m
  · rw [if_pos hlt, if_pos hlt]
  · rw [if_neg hlt, if_neg hlt]
    dsimp only
    rw [e3]

/-- `@` in `pack` cuts or fills with NULs to that length. -/
theorem C47_pack_at (fs gs : List Field) (h : ∀ f ∈ fs, f.Ok ∧ f.count < 2 ^ 63)
    (h' : ∀ f ∈ gs, f.Ok ∧ f.count < 2 ^ 63) (m : Nat) (hm : m < 2 ^ 63) (bs cs : List Nat)
    (hb : pack (fs.flatMap Field.args) (recordTemplate fs) = .ok bs)
    (hc : pack (gs.flatMap Field.args) (recordTemplate gs) = .ok cs) :
    pack (fs.flatMap Field.args ++ gs.flatMap Field.args)
        (recordTemplate fs ++ ("@" ++ toString m) ++ recordTemplate gs) =
      .ok ((List.range m).map (fun i => bs.getD i 0) ++ cs) := by
  obtain ⟨bs', h1, _⟩ := nodes_law fs fun f hf => (h f hf).1
  obtain ⟨cs', h2, _⟩ := nodes_law gs fun f hf => (h' f hf).1
  have e1 := h1 [] [] []
  have e2 := h2 [] [] []
  unfold pack at hb hc ⊢
  rw [parse_record fs h] at hb
  rw [parse_record gs h'] at hc
  dsimp only at hb hc
  simp only [List.append_nil, List.nil_append, packNodes] at e1 e2
  rw [e1] at hb
  rw [e2] at hc
  simp only [Except.ok.injEq] at hb hc
  subst hb hc
  rw [parse_then fs gs h h' isDir_at m hm]
  dsimp only
  rw [h1]
  have e3 := fun p => h2 [] p []
  simp only [List.append_nil, packNodes] at e3
  simp only [packNodes, packNode, List.nil_append, Option.getD_some]
  rw [e3]
  congr 2
  apply List.ext_getElem
  · split <;> simp <;> omega
  · intro i hi1 hi2
    simp only [List.length_map, List.length_range] at hi2
    simp only [List.getElem_map, List.getElem_range, List.getD_eq_getElem?_getD]
    split
    · by_cases hlt : i < bs'.length
      · simp [List.getElem_append, hlt]
      · simp [List.getElem_append, hlt]
    · rename_i hge
      simp [show i < bs'.length by omega]

/-- `X` in `unpack` goes back: stepping back over the bytes of the last fields reads these fields
again. -/
theorem C47_unpack_back (fs gs : List Field) (h : ∀ f ∈ fs, f.Ok ∧ f.count < 2 ^ 63)
    (h' : ∀ f ∈ gs, f.Ok ∧ f.count < 2 ^ 63) (bs cs : List Nat)
    (hb : pack ((fs ++ gs).flatMap Field.args) (recordTemplate (fs ++ gs)) = .ok bs)
    (hc : pack (gs.flatMap Field.args) (recordTemplate gs) = .ok cs) (hl : cs.length < 2 ^ 63) :
    unpack bs (recordTemplate (fs ++ gs) ++ ("X" ++ toString cs.length) ++ recordTemplate gs) =
      .ok ((fs ++ gs).flatMap Field.values ++ gs.flatMap Field.values) := by
  have ha : ∀ f ∈ fs ++ gs, f.Ok ∧ f.count < 2 ^ 63 := by
    intro f hf
    rcases List.mem_append.1 hf with hf | hf
    · exact h f hf
    · exact h' f hf
  obtain ⟨as, h0, _⟩ := nodes_law fs fun f hf => (h f hf).1
  obtain ⟨bs', h1, u1⟩ := nodes_law (fs ++ gs) fun f hf => (ha f hf).1
  obtain ⟨cs', h2, u2⟩ := nodes_law gs fun f hf => (h' f hf).1
  have e1 := h1 [] [] []
  have e2 := h2 [] [] []
  have e0 := h0 (gs.map Field.node) [] (gs.flatMap Field.args)
  have e3 := h2 [] as []
  unfold pack at hb hc
  rw [parse_record _ ha] at hb
  rw [parse_record gs h'] at hc
  dsimp only at hb hc
  simp only [List.append_nil, List.nil_append, packNodes] at e1 e2 e0 e3
  rw [e1] at hb
  rw [e2] at hc
  simp only [Except.ok.injEq] at hb hc
  subst hb hc
  rw [List.map_append, List.flatMap_append, e0, e3] at e1
  simp only [Except.ok.injEq] at e1
  subst e1
  unfold unpack
  rw [parse_then _ gs ha h' isDir_back _ hl]
  dsimp only
  rw [u1 _ ⟨as ++ cs', 0⟩ [] (by simp [It.rem]) (by simp)]
  simp only [unpackNodes, unpackNode, List.length_nil, Nat.sub_zero, List.length_append]
  rw [if_neg (by omega)]
  dsimp only
  have := u2 [] ⟨as ++ cs', as.length + cs'.length - cs'.length⟩ [] (by simp [It.rem]) (by simp)
  rw [List.append_nil] at this
  rw [this]
  simp [unpackNodes, Except.map]

/-- `@` in `unpack` goes to an absolute position: that of the last fields reads them again. -/
theorem C47_unpack_at (fs gs : List Field) (h : ∀ f ∈ fs, f.Ok ∧ f.count < 2 ^ 63)
    (h' : ∀ f ∈ gs, f.Ok ∧ f.count < 2 ^ 63) (bs as : List Nat)
    (hb : pack ((fs ++ gs).flatMap Field.args) (recordTemplate (fs ++ gs)) = .ok bs)
    (hc : pack (fs.flatMap Field.args) (recordTemplate fs) = .ok as) (hl : as.length < 2 ^ 63) :
    unpack bs (recordTemplate (fs ++ gs) ++ ("@" ++ toString as.length) ++ recordTemplate gs) =
      .ok ((fs ++ gs).flatMap Field.values ++ gs.flatMap Field.values) := by
  have ha : ∀ f ∈ fs ++ gs, f.Ok ∧ f.count < 2 ^ 63 := by
    intro f hf
    rcases List.mem_append.1 hf with hf | hf
    · exact h f hf
    · exact h' f hf
  obtain ⟨as', h0, _⟩ := nodes_law fs fun f hf => (h f hf).1
  obtain ⟨bs', h1, u1⟩ := nodes_law (fs ++ gs) fun f hf => (ha f hf).1
  obtain ⟨cs', h2, u2⟩ := nodes_law gs fun f hf => (h' f hf).1
  have e1 := h1 [] [] []
  have e2 := h0 [] [] []
  have e0 := h0 (gs.map Field.node) [] (gs.flatMap Field.args)
  have e3 := h2 [] as' []
  unfold pack at hb hc
  rw [parse_record _ ha] at hb
  rw [parse_record fs h] at hc
  dsimp only at hb hc
  simp only [List.append_nil, List.nil_append, packNodes] at e1 e2 e0 e3
  rw [e1] at hb
  rw [e2] at hc
  simp only [Except.ok.injEq] at hb hc
  subst hb hc
  rw [List.map_append, List.flatMap_append, e0, e3] at e1
  simp only [Except.ok.injEq] at e1
  subst e1
  unfold unpack
  rw [parse_then _ gs ha h' isDir_at _ hl]
  dsimp only
  rw [u1 _ ⟨as' ++ cs', 0⟩ [] (by simp [It.rem]) (by simp)]
  simp only [unpackNodes, unpackNode, List.length_nil, Nat.sub_zero, List.length_append]
  rw [if_neg (by omega)]
  dsimp only
  have := u2 [] ⟨as' ++ cs', as'.length⟩ [] (by simp [It.rem]) (by simp)
  rw [List.append_nil] at this
  rw [this]
  simp [unpackNodes, Except.map]

example : pack [.int 1, .int 2] "C1n1" = .ok [1, 0, 2] ∧ pack [.int 1, .int 2] "C1n1X2" = .ok [1] ∧
    unpack [1, 0, 2] "C1n1X2n1" = .ok [.int 1, .int 2, .int 2] ∧
    unpack [1, 0, 2] "C1n1@1n1" = .ok [.int 1, .int 2, .int 2] ∧
    pack [.int 1] "C1X2" = .error .argument ∧ pack [.int 1] "C1@3" = .ok [1, 0, 0] := by
  decide +kernel

/-! ## C34: formats -/

/-- Characters outside the Base64 alphabet, other than `=`, are skipped wherever they stand. -/
theorem C34_base64_skips (x y : List Nat) (c : Nat) (hc : c ∉ rfcAlphabet) (h61 : c ≠ 61) :
    unpack (x ++ c :: y) "m" = unpack (x ++ y) "m" := by
  have hv : b64val c = none := by
    have key : ∀ v < 64, rfcAlphabet.getD v 0 ∈ rfcAlphabet := by decide +kernel
    have hin : ∀ v < 64, c ≠ b64char v := by
      intro v hv he
      rw [alphabet_eq hv] at he
      exact hc (he ▸ key v hv)
    unfold b64val
    unfold b64char at hin
    split
    · have := hin (c - 65) (by omega); split at this <;> omega
    · split
      · have := hin (c - 97 + 26) (by omega)
        rw [if_neg (by omega), if_pos (by omega)] at this; omega
      · split
        · have := hin (c - 48 + 52) (by omega)
          rw [if_neg (by omega), if_neg (by omega), if_pos (by omega)] at this; omega
        · split
          · exact absurd (by assumption) (hin 62 (by omega))
          · split
            · exact absurd (by assumption) (hin 63 (by omega))
            · rfl
  have hp := parse_single isDir_m
  rw [unpack_one hp (vs := [.str (b64Decode (x ++ c :: y))]) rfl,
    unpack_one hp (vs := [.str (b64Decode (x ++ y))]) rfl]
  unfold b64Decode
  rw [b64_skip x y c hv h61]

-- "TW\r\n E=" is "Ma"
example : unpack [84, 87, 13, 10, 32, 69, 61] "m" = .ok [.str [77, 97]] := by decide +kernel
example : 13 ∉ rfcAlphabet ∧ 10 ∉ rfcAlphabet ∧ 32 ∉ rfcAlphabet := by decide +kernel

/-- A group of six bits in uuencode: its value plus 32, but zero is a backquote. -/
def uuSym (v : Nat) : Nat := if v = 0 then 96 else 32 + v

/-- The bytes three at a time, missing ones as zero, in four groups of six bits. -/
def uuBody : List Nat → List Nat
  | [] => []
  | [a] => [uuSym (a / 4), uuSym (a % 4 * 16), uuSym 0, uuSym 0]
  | [a, b] => [uuSym (a / 4), uuSym (a % 4 * 16 + b / 16), uuSym (b % 16 * 4), uuSym 0]
  | a :: b :: c :: rest =>
    [uuSym (a / 4), uuSym (a % 4 * 16 + b / 16), uuSym (b % 16 * 4 + c / 64), uuSym (c % 64)] ++
      uuBody rest

/-- The bytes of a line of `pack("uN")`: 45, or `N` up to 45, rounded down to a multiple of three. -/
def Suffix.uuBytes : Suffix → Nat
  | .count n => if 3 ≤ n then min n 45 / 3 * 3 else 45
  | _ => 45

theorem uuChar_eq (v : Nat) : uuChar v = uuSym v := by unfold uuChar uuSym; split <;> omega

theorem uuGroup_eq (c : List Nat) : uuGroup c =
    [uuSym (triple c / 262144 % 64), uuSym (triple c / 4096 % 64), uuSym (triple c / 64 % 64),
      uuSym (triple c % 64)] := by
  simp only [uuGroup, uuChar_eq, sh18, sh12, sh6, and3f]

theorem uuBody_eq (line : List Nat) (h : ∀ b ∈ line, b < 256) :
    ((chunks 3 line).map uuGroup).flatten = uuBody line := by
  induction hl : line.length using Nat.strong_induction_on generalizing line with
  | _ m ih =>
    subst hl
    match line, h with
    | [], _ => rfl
    | [a], h =>
      have ha := h a (by simp)
      rw [show chunks 3 [a] = [[a]] from rfl]
      have ht : triple [a] = a * 65536 + 0 * 256 + 0 := triple3 (by simp <;> omega) (by simp <;> omega)
      simp only [List.map_cons, List.map_nil, List.flatten_cons, List.flatten_nil, List.append_nil,
        uuGroup_eq, ht, uuBody]
      simp only [List.cons.injEq, and_true]
      refine ⟨congrArg _ (by omega), congrArg _ (by omega), congrArg _ (by omega), congrArg _ (by omega)⟩
    | [a, b], h =>
      have ha := h a (by simp)
      have hb := h b (by simp)
      rw [show chunks 3 [a, b] = [[a, b]] from rfl]
      have ht : triple [a, b] = a * 65536 + b * 256 + 0 := triple3 (by simp <;> omega) (by simp <;> omega)
      simp only [List.map_cons, List.map_nil, List.flatten_cons, List.flatten_nil, List.append_nil,
        uuGroup_eq, ht, uuBody]
      simp only [List.cons.injEq, and_true]
      refine ⟨congrArg _ (by omega), congrArg _ (by omega), congrArg _ (by omega), congrArg _ (by omega)⟩
    | a :: b :: c :: rest, h =>
      have ha := h a (by simp)
      have hb := h b (by simp)
      have hc := h c (by simp)
      rw [chunks_cons (by omega) (by simp), uuBody]
      have ht : triple [a, b, c] = a * 65536 + b * 256 + c := triple3 (by simp <;> omega) (by simp <;> omega)
      simp only [List.take, List.drop, List.map_cons, List.flatten_cons, uuGroup_eq, ht]
      rw [ih rest.length (by simp; omega) rest (fun x hx => h x (by simp [hx])) rfl]
      congr 1
      simp only [List.cons.injEq, and_true]
      refine ⟨congrArg _ (by omega), congrArg _ (by omega), congrArg _ (by omega), congrArg _ (by omega)⟩

/-- Uuencode is lines of `N` bytes, each its length plus 32, then the groups. -/
theorem C34_uu_format (data : List Nat) (h : ∀ b ∈ data, b < 256) (s : Suffix) (hs : s.Ok) :
    pack [.str data] ("u" ++ s.text) = .ok (inLines s.uuBytes
      (fun line => (32 + line.length) :: uuBody line) data data.length) := by
  have key : ∀ k, 0 < k → k ≤ 45 → ∀ fuel (data : List Nat), (∀ b ∈ data, b < 256) →
      data.length ≤ fuel →
      ((chunks k data).map fun line => (line.length % 256 + 32) % 256 ::
        ((chunks 3 line).map uuGroup).flatten ++ [10]).flatten =
      inLines k (fun line => (32 + line.length) :: uuBody line) data fuel := by
    intro k hk hk' fuel
    induction fuel with
    | zero =>
      intro data _ hf
      have : data = [] := List.eq_nil_of_length_eq_zero (by omega)
      subst this
      simp [chunks_nil, inLines]
    | succ fuel ih =>
      intro data hb hf
      cases data with
      | nil => simp [chunks_nil, inLines]
      | cons a l =>
        rw [chunks_cons hk (by simp)]
        simp only [List.map_cons, List.flatten_cons]
        rw [ih _ (fun b hb' => hb b (List.mem_of_mem_drop hb'))
          (by simp only [List.length_drop, List.length_cons] at hf ⊢; omega),
          uuBody_eq _ fun b hb' => hb b (List.mem_of_mem_take hb')]
        have hlen : ((a :: l).take k).length ≤ 45 := by
          rw [List.length_take]; omega
        simp only [inLines]
        rw [show ((List.take k (a :: l)).length % 256 + 32) % 256 = 32 + (List.take k (a :: l)).length by
          omega]
  have hp := parse_suffix isDir_u s hs
  refine pack_one hp (by simp) (by simp) (more := []) ?_
  simp only [packOut, oneString, packStringStrict, uuEncode]
  rw [key _ ?_ ?_ data.length data h (Nat.le_refl _)]
  · cases s with
    | none => rfl
    | star => rfl
    | count n =>
      simp only [Suffix.rep, Suffix.uuBytes, lineLen, if_true]
      match n with
      | 0 => rfl
      | n + 1 =>
        simp only
        by_cases hn : 3 ≤ n + 1
        · rw [if_pos hn, if_neg (by omega), if_pos hn]
        · rw [if_neg hn, if_neg (by omega), if_neg hn]; rfl
  all_goals
    have := lineLen_ok ⟨.uuEncoded, false, s.rep.1, s.rep.2⟩
    split <;> omega

-- "a" and three NULs
example : pack [.str [97]] "u" = .ok [33, 56, 48, 96, 96, 10] := by decide +kernel
example : pack [.str [0, 0, 0]] "u" = .ok [35, 96, 96, 96, 96, 10] := by decide +kernel

/-- Quoted-printable text is safe to send: printable ASCII, tabs and newlines only; no line ends in
a space or a tab; no line has more than four characters over the limit (76 by default, the limit of
RFC 2045); and it ends with a newline. -/
theorem C34_qp_format (data : List Nat) (h : ∀ b ∈ data, b < 256) (s : Suffix) (hs : s.Ok) :
    ∃ bs, pack [.str data] ("M" ++ s.text) = .ok bs ∧
      (∀ x ∈ bs, x = 9 ∨ x = 10 ∨ (32 ≤ x ∧ x ≤ 126)) ∧
      (∀ x, [x, 10] <:+: bs → x ≠ 9 ∧ x ≠ 32) ∧
      (∀ line, line <:+: bs → 10 ∉ line → line.length ≤
        (match s with | .count n => if 1 < n then n else 72 | _ => 72) + 4) ∧
      (data ≠ [] → bs.getLast? = some 10) := by
  have hp := parse_suffix isDir_big_m s hs
  obtain ⟨col, h1, h2⟩ := qpEncode_shape (if s.rep.2 then s.rep.1.getD 72 else 72) data h
  refine ⟨_, pack_one hp (by simp) (by simp) (more := []) rfl, h1.ascii, h1.blank, ?_, h2⟩
  intro line hl hn
  refine Nat.le_trans (h1.short line hl hn) ?_
  cases s with
  | none => simp [Suffix.rep]
  | star => simp [Suffix.rep]
  | count n => simp [Suffix.rep]

-- "a\t\n"
example : pack [.str [97, 9, 10]] "M" = .ok [97, 9, 61, 10, 10] := by decide +kernel

end Verif.Pack
