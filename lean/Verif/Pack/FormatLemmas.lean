import Verif.Pack.TextProps

/-!
# Lemmas about separators, positions, uuencode and quoted-printable
-/

namespace Verif.Pack

/-! ## Separators in templates -/

/-- Blanks, and comments up to the end of their line. -/
inductive Separator : List Char → Prop
  | nil : Separator []
  | blank {c rest} : c ∈ [' ', '\t', '\n', '\x0b', '\x0c', '\r'] → Separator rest →
      Separator (c :: rest)
  | comment {text rest} : '\n' ∉ text → Separator rest →
      Separator ('#' :: (text ++ '\n' :: rest))

theorem skipComment_append (text rest : List Char) (h : '\n' ∉ text) :
    skipComment (text ++ '\n' :: rest) = rest := by
  induction text with
  | nil => simp [skipComment]
  | cons c text ih =>
    simp only [List.mem_cons, not_or] at h
    rw [List.cons_append, skipComment, if_neg (by simpa using fun h' => h.1 h'.symm)]
    exact ih h.2

theorem Separator.head {sep : List Char} (h : Separator sep) :
    ∀ c ∈ sep.head?, c.isDigit = false ∧ c ≠ '!' ∧ c ≠ '_' ∧ c ≠ '<' ∧ c ≠ '>' := by
  intro c hc
  cases h with
  | nil => simp at hc
  | blank hb _ =>
    simp at hc
    subst hc
    simp only [List.mem_cons, List.not_mem_nil, or_false] at hb
    rcases hb with rfl | rfl | rfl | rfl | rfl | rfl <;> decide
  | comment _ _ =>
    simp at hc
    subst hc
    decide

theorem parseAux_sep {sep rest : List Char} (h : Separator sep) {r : Except Err (List Node)}
    (hr : ∀ fuel, rest.length ≤ fuel → parseAux fuel rest = r) :
    ∀ fuel, (sep ++ rest).length ≤ fuel → parseAux fuel (sep ++ rest) = r := by
  induction h with
  | nil => exact hr
  | @blank c sep hb _ ih =>
    intro fuel hf
    cases fuel with
    | zero => simp at hf
    | succ fuel =>
      have : isSpace c = true := by
        simp only [List.mem_cons, List.not_mem_nil, or_false] at hb
        rcases hb with rfl | rfl | rfl | rfl | rfl | rfl <;> decide
      simp only [List.cons_append, parseAux, this, if_true]
      exact ih fuel (by simp at hf ⊢; omega)
  | @comment text sep hn _ ih =>
    intro fuel hf
    cases fuel with
    | zero => simp at hf
    | succ fuel =>
      simp only [List.cons_append, List.append_assoc, parseAux,
        show isSpace '#' = false from by decide, beq_self_eq_true, if_true, Bool.false_eq_true, if_false]
      rw [skipComment_append text _ hn]
      exact ih fuel (by simp at hf ⊢; omega)

/-- What ends a template: blanks and comments, perhaps a comment without an end. -/
def Closing (l : List Char) : Prop :=
  ∃ sep, Separator sep ∧ (l = sep ∨ ∃ text, '\n' ∉ text ∧ l = sep ++ '#' :: text)

theorem skipComment_none (text : List Char) (h : '\n' ∉ text) : skipComment text = [] := by
  induction text with
  | nil => rfl
  | cons c text ih =>
    simp only [List.mem_cons, not_or] at h
    rw [skipComment, if_neg (by simpa using fun h' => h.1 h'.symm)]
    exact ih h.2

theorem parseAux_nil (fuel : Nat) : parseAux fuel [] = .ok [] := by cases fuel <;> rfl

theorem parseAux_closing {l : List Char} (h : Closing l) :
    ∀ fuel, l.length ≤ fuel → parseAux fuel l = .ok [] := by
  obtain ⟨sep, hs, rfl | ⟨text, hn, rfl⟩⟩ := h
  · have := parseAux_sep hs (rest := []) (r := .ok []) (fun fuel _ => parseAux_nil fuel)
    simpa using this
  · refine parseAux_sep hs ?_
    intro fuel hf
    cases fuel with
    | zero => simp at hf
    | succ fuel =>
      simp only [parseAux, show isSpace '#' = false from by decide, beq_self_eq_true, if_true,
        Bool.false_eq_true, if_false]
      rw [skipComment_none text hn, parseAux_nil]

theorem Closing.head {l : List Char} (h : Closing l) :
    ∀ c ∈ l.head?, c.isDigit = false ∧ c ≠ '!' ∧ c ≠ '_' ∧ c ≠ '<' ∧ c ≠ '>' := by
  obtain ⟨sep, hs, rfl | ⟨text, hn, rfl⟩⟩ := h
  · exact hs.head
  · cases sep with
    | nil =>
      intro c hc
      simp at hc
      subst hc
      decide
    | cons a sep =>
      intro c hc
      exact hs.head c (by simpa using hc)

/-- A directive with its count, as a text and as it should be read. -/
abbrev Dir := String × Template × Bool × Nat

def Dir.Ok (e : Dir) : Prop := IsDirective e.1 e.2.1 e.2.2.1 ∧ e.2.2.2 < 2 ^ 63

def Dir.text (e : Dir) : List Char := e.1.toList ++ Nat.toDigits 10 e.2.2.2

def Dir.node (e : Dir) : Node := ⟨e.2.1, e.2.2.1, some e.2.2.2, true⟩

theorem parseAux_separated (ds : List (List Char × Dir)) (last : List Char) (hlast : Closing last)
    (h : ∀ e ∈ ds, Separator e.1 ∧ e.2.Ok) :
    ∀ fuel, ((ds.flatMap fun e => e.1 ++ e.2.text) ++ last).length ≤ fuel →
      parseAux fuel ((ds.flatMap fun e => e.1 ++ e.2.text) ++ last) =
        .ok (ds.map fun e => e.2.node) := by
  induction ds with
  | nil => exact parseAux_closing hlast
  | cons e ds ih =>
    obtain ⟨hsep, ⟨ch, mods, hl, h1, h2, _, _, _, _, _, h8⟩, hn⟩ := h e (by simp)
    have h' : ∀ e ∈ ds, Separator e.1 ∧ e.2.Ok := fun e he => h e (by simp [he])
    simp only [List.flatMap_cons, List.append_assoc, List.map_cons]
    refine parseAux_sep hsep ?_
    intro fuel hf
    generalize htail : (ds.flatMap fun e => e.1 ++ e.2.text) ++ last = tail at hf ⊢
    have hhead : NoDigit tail := by
      intro c hc
      subst htail
      cases ds with
      | nil => exact (hlast.head c (by simpa using hc)).1
      | cons e' ds =>
        obtain ⟨hsep', ⟨ch', mods', hl', _, _, h3', _⟩, _⟩ := h' e' (by simp)
        cases hs : e'.1 with
        | nil =>
          simp [Dir.text, hs, hl'] at hc
          subst hc
          exact h3'
        | cons a l =>
          rw [hs] at hsep'
          simp [hs] at hc
          subst hc
          exact (hsep'.head a (by simp)).1
    have hcount := parseCount_digits e.2.2.2.2 _ hhead
    rw [if_pos hn] at hcount
    have hnm : NoMod (Nat.toDigits 10 e.2.2.2.2 ++ tail) := by
      intro c hc
      have hne : Nat.toDigits 10 e.2.2.2.2 ≠ [] := Nat.toDigits_ne_nil
      rw [List.head?_append_of_ne_nil _ hne] at hc
      have := digit_not_mod (Nat.isDigit_of_mem_toDigits (b := 10) (by omega) (by omega)
        (List.mem_of_mem_head? hc))
      exact ⟨this.1, this.2.1, this.2.2.1, this.2.2.2.1⟩
    have hp := parseDirective_tail h8 hnm hcount
    simp only [Dir.text, hl, List.cons_append, List.append_assoc] at hf ⊢
    cases fuel with
    | zero => simp at hf
    | succ fuel =>
      simp only [parseAux, h1, beq_iff_eq, h2, if_false, Bool.false_eq_true]
      rw [hp]
      dsimp only
      subst htail
      rw [ih h' fuel (by simp at hf ⊢; omega)]
      rfl

theorem parse_dirs (ds : List Dir) (h : ∀ e ∈ ds, e.Ok) (t : String)
    (ht : t.toList = ds.flatMap Dir.text) : parse t = .ok (ds.map Dir.node) := by
  have := parseAux_separated (ds.map fun e => ([], e)) [] ⟨[], .nil, Or.inl rfl⟩ (by
    intro e he
    obtain ⟨e, he', rfl⟩ := List.mem_map.1 he
    exact ⟨.nil, h e he'⟩)
  simp only [List.flatMap_map, List.nil_append, List.append_nil, List.map_map,
    Function.comp_def] at this
  unfold parse
  rw [ht]
  exact this _ (Nat.le_refl _)

def Field.dir (f : Field) : Dir := (f.directive, f.node.template, f.node.big, f.count)

theorem Field.dir_ok (f : Field) (h : f.Ok ∧ f.count < 2 ^ 63) : f.dir.Ok :=
  ⟨(f.isDirective h.1).1, h.2⟩

theorem Field.dir_node (f : Field) (h : f.Ok) : f.dir.node = f.node := by
  obtain ⟨_, h2, h3⟩ := f.isDirective h
  simp only [Field.dir, Dir.node]
  rw [← h2, ← h3]

theorem toDigits_text (n : Nat) : (toString n).toList = Nat.toDigits 10 n := Nat.toList_repr

theorem Field.dir_text (f : Field) : f.dir.text = (f.directive ++ toString f.count).toList := by
  rw [String.toList_append, toDigits_text]; rfl

theorem record_text (fs : List Field) :
    (recordTemplate fs).toList = (fs.map Field.dir).flatMap Dir.text := by
  unfold recordTemplate
  rw [join_toList, List.flatMap_map, List.flatMap_def, List.map_map]
  congr 1
  apply List.map_congr_left
  intro f _
  rw [Field.dir_text]; rfl

/-! ## Positions -/

theorem unpackNode_inside {n : Node} {it it' : It} {vs : List PV}
    (h : unpackNode n it = .ok (vs, it')) (hi : it.i ≤ it.slice.length) :
    it'.slice = it.slice ∧ it'.i ≤ it.slice.length := by
  obtain ⟨t, big, rep, ex⟩ := n
  cases t <;> simp only [unpackNode] at h
  case null =>
    cases rep with
    | none => simp at h; obtain ⟨_, rfl⟩ := h; exact ⟨rfl, by simp; omega⟩
    | some k =>
      simp only at h
      split at h
      · simp at h
      · rename_i hk
        simp at h
        obtain ⟨_, rfl⟩ := h
        simp [It.rem] at hk
        exact ⟨rfl, by dsimp only; omega⟩
  case back =>
    cases rep with
    | none => simp at h; obtain ⟨_, rfl⟩ := h; exact ⟨rfl, by simp⟩
    | some k =>
      simp only at h
      split at h
      · simp at h
      · simp at h
        obtain ⟨_, rfl⟩ := h
        exact ⟨rfl, by dsimp only; omega⟩
  case atPos =>
    cases rep with
    | none => simp at h; obtain ⟨_, rfl⟩ := h; exact ⟨rfl, by simp⟩
    | some k =>
      simp only at h
      split at h
      · simp at h
      · simp at h
        obtain ⟨_, rfl⟩ := h
        exact ⟨rfl, by dsimp only; omega⟩
  case offset =>
    simp at h
    obtain ⟨_, rfl⟩ := h
    exact ⟨rfl, hi⟩
  case utf8 =>
    split at h
    · simp at h
    · simp at h; obtain ⟨_, rfl⟩ := h; exact ⟨rfl, by simp [It.to]⟩
  case ber =>
    split at h
    · simp at h
    · simp at h; obtain ⟨_, rfl⟩ := h; exact ⟨rfl, by simp [It.to]⟩
  case unmodelled => simp at h
  all_goals
    simp only [Except.ok.injEq, Prod.mk.injEq] at h
    obtain ⟨_, rfl⟩ := h
    exact ⟨rfl, by simp [It.to]⟩

theorem it_at {it : It} {rest : List Nat} (h : it.rem = rest) (hi : it.i ≤ it.slice.length) :
    it = ⟨it.slice, it.slice.length - rest.length⟩ := by
  obtain ⟨sl, i⟩ := it
  simp only [It.rem] at h hi
  subst h
  simp only [List.length_drop, It.mk.injEq, true_and]
  omega

/-- Records, followed by more. -/
theorem nodes_law (fs : List Field) (h : ∀ f ∈ fs, f.Ok) :
    ∃ bs, (∀ tail pre more, packNodes (fs.map Field.node ++ tail) pre (fs.flatMap Field.args ++ more) =
        packNodes tail (pre ++ bs) more) ∧
      ∀ tail (it : It) rest, it.rem = bs ++ rest → it.i ≤ it.slice.length →
        unpackNodes (fs.map Field.node ++ tail) it =
          (unpackNodes tail ⟨it.slice, it.slice.length - rest.length⟩).map
            (fs.flatMap Field.values ++ ·) := by
  induction fs with
  | nil =>
    refine ⟨[], by simp, ?_⟩
    intro tail it rest hr hi
    rw [List.nil_append] at hr
    rw [← it_at hr hi]
    simp only [List.map_nil, List.nil_append, List.flatMap_nil]
    cases unpackNodes tail it <;> rfl
  | cons f fs ih =>
    obtain ⟨bs, h1, hb, ha, h2⟩ := f.law (h f (by simp))
    obtain ⟨bs', h3, h4⟩ := ih fun f hf => h f (by simp [hf])
    refine ⟨bs ++ bs', ?_, ?_⟩
    · intro tail pre more
      simp only [List.map_cons, List.flatMap_cons, List.cons_append, List.append_assoc, packNodes]
      have : packNode f.node pre (f.args ++ (fs.flatMap Field.args ++ more))
          = .ok (pre ++ bs, fs.flatMap Field.args ++ more) := by
        unfold packNode
        split
        · exact absurd (by assumption) hb
        · exact absurd (by assumption) ha
        · rw [h1]
      rw [this]
      dsimp only
      rw [h3, List.append_assoc]
    · intro tail it rest hr hi
      rw [List.append_assoc] at hr
      obtain ⟨it', h5, h6, h7⟩ := h2 it _ hr
      have h8 := (unpackNode_inside h5 hi).2
      have h9 := h4 tail it' rest h6 (by rw [h7]; exact h8)
      simp only [List.map_cons, List.flatMap_cons, List.cons_append, unpackNodes]
      rw [h5]
      dsimp only
      rw [h9, h7]
      cases unpackNodes tail ⟨it.slice, it.slice.length - rest.length⟩ <;>
        simp [Except.map]

theorem isDir_back : IsDirective "X" .back false := ⟨'X', [], by decide, by decide⟩
theorem isDir_at : IsDirective "@" .atPos false := ⟨'@', [], by decide, by decide⟩

/-! ## Quoted-printable: the shape of the text -/

/-- No blank before a newline; `K` bounds the lines; the last line has at most `col` characters. -/
structure Shape (K : Nat) (out : List Nat) (col : Nat) : Prop where
  short : ∀ line, line <:+: out → 10 ∉ line → line.length ≤ K
  last : ∀ line, line <:+ out → 10 ∉ line → line.length ≤ col
  blank : ∀ x, [x, 10] <:+: out → x ≠ 9 ∧ x ≠ 32
  ascii : ∀ x ∈ out, x = 9 ∨ x = 10 ∨ (32 ≤ x ∧ x ≤ 126)

theorem infix_push {line out : List Nat} {c : Nat} (h : line <:+: out ++ [c]) :
    line <:+: out ∨ line <:+ out ++ [c] := by
  obtain ⟨s, t, ht⟩ := h
  rcases List.eq_nil_or_concat t with rfl | ⟨t', x, rfl⟩
  · right; exact ⟨s, by simpa using ht⟩
  · left
    refine ⟨s, t', ?_⟩
    have := congrArg List.dropLast ht
    simpa [← List.append_assoc] using this

theorem suffix_push {line out : List Nat} {c : Nat} (h : line <:+ out ++ [c]) :
    line = [] ∨ ∃ l, line = l ++ [c] ∧ l <:+ out := by
  rcases List.eq_nil_or_concat line with rfl | ⟨l, x, rfl⟩
  · exact Or.inl rfl
  · right
    obtain ⟨s, hs⟩ := h
    rw [List.concat_eq_append, ← List.append_assoc] at hs
    have h1 := (List.append_inj' hs rfl)
    have hx : x = c := by simpa using h1.2
    subst hx
    exact ⟨l, by simp, s, h1.1⟩

theorem Shape.push {K col c : Nat} {out : List Nat} (h : Shape K out col) (hc : c ≠ 10)
    (ha : c = 9 ∨ (32 ≤ c ∧ c ≤ 126)) (hk : col + 1 ≤ K) : Shape K (out ++ [c]) (col + 1) := by
  have hlast : ∀ line, line <:+ out ++ [c] → 10 ∉ line → line.length ≤ col + 1 := by
    intro line hs hn
    rcases suffix_push hs with rfl | ⟨l, rfl, hl⟩
    · simp
    · have := h.last l hl (by simp at hn; exact hn.1)
      simp; exact this
  refine ⟨?_, hlast, ?_, ?_⟩
  · intro line hs hn
    rcases infix_push hs with hi | hs
    · exact h.short line hi hn
    · exact Nat.le_trans (hlast line hs hn) hk
  · intro x hx
    rcases infix_push hx with hi | hs
    · exact h.blank x hi
    · rcases suffix_push hs with h0 | ⟨l, h0, _⟩
      · simp at h0
      · have := congrArg List.getLast? h0
        simp at this
        exact absurd this.symm hc
  · intro x hx
    rcases List.mem_append.1 hx with hx | hx
    · exact h.ascii x hx
    · simp at hx; subst hx; tauto

theorem Shape.newline {K col : Nat} {out : List Nat} (h : Shape K out col)
    (hl : out.getLast? ≠ some 9 ∧ out.getLast? ≠ some 32) : Shape K (out ++ [10]) 0 := by
  have hlast : ∀ line, line <:+ out ++ [10] → 10 ∉ line → line.length ≤ 0 := by
    intro line hs hn
    rcases suffix_push hs with rfl | ⟨l, rfl, hl⟩
    · simp
    · simp at hn
  refine ⟨?_, hlast, ?_, ?_⟩
  · intro line hs hn
    rcases infix_push hs with hi | hs
    · exact h.short line hi hn
    · exact Nat.le_trans (hlast line hs hn) (Nat.zero_le _)
  · intro x hx
    rcases infix_push hx with hi | hs
    · exact h.blank x hi
    · rcases suffix_push hs with h0 | ⟨l, h0, hlo⟩
      · simp at h0
      · have h1 : l = [x] := by
          have := congrArg List.dropLast h0
          simpa using this.symm
        subst h1
        obtain ⟨s, rfl⟩ := hlo
        simp at hl
        exact hl
  · intro x hx
    rcases List.mem_append.1 hx with hx | hx
    · exact h.ascii x hx
    · simp at hx; tauto

theorem Shape.zero {K : Nat} {out : List Nat} (h : Shape K out 0) :
    out.getLast? ≠ some 9 ∧ out.getLast? ≠ some 32 := by
  rcases List.eq_nil_or_concat out with rfl | ⟨l, x, rfl⟩
  · simp
  · by_cases hx : x = 10
    · subst hx; simp
    · have := h.last [x] ⟨l, by simp⟩ (by simpa using fun h => hx h.symm)
      simp at this

theorem upHex_ascii {v : Nat} (h : v < 16) : upHex v ≠ 10 ∧ 32 ≤ upHex v ∧ upHex v ≤ 126 := by
  unfold upHex; split <;> omega

theorem qpLoop_shape (limit : Nat) (data out : List Nat) (col : Nat) (hb : ∀ b ∈ data, b < 256)
    (h : Shape (limit + 4) out col) (hc : col ≤ limit + 3) :
    ∃ col' ≤ limit + 3, Shape (limit + 4) (qpLoop limit out col data) col' := by
  induction data generalizing out col with
  | nil => exact ⟨col, hc, h⟩
  | cons b data ih =>
    have hb' : ∀ b ∈ data, b < 256 := fun x hx => hb x (by simp [hx])
    have hlt := hb b (by simp)
    unfold qpLoop
    by_cases h10 : b = 10
    · rw [if_pos h10]
      split
      · have h1 := h.push (c := 61) (by omega) (by omega) (by omega)
        have h2 := h1.newline (by simp)
        have h3 := h2.newline (by simp)
        simpa [List.append_assoc] using ih _ 0 hb' h3 (by omega)
      · rename_i hn
        refine ih _ 0 hb' (h.newline ?_) (by omega)
        by_cases h0 : col = 0
        · subst h0; exact h.zero
        · constructor
          · intro h9; exact hn ⟨by omega, Or.inl h9⟩
          · intro h32; exact hn ⟨by omega, Or.inr h32⟩
    · rw [if_neg h10]
      have hmid : ∃ c', c' ≤ limit ∧ c' = (if limit < col then 0 else col) ∧
          Shape (limit + 4) (if limit < col then out ++ [61, 10] else out) c' := by
        split
        · have h1 := h.push (c := 61) (by omega) (by omega) (by omega)
          have h2 := h1.newline (by simp)
          refine ⟨0, by omega, rfl, ?_⟩
          simpa [List.append_assoc] using h2
        · exact ⟨col, by omega, rfl, h⟩
      obtain ⟨c', hc', hce, hs⟩ := hmid
      dsimp only
      rw [← hce]
      split
      · rename_i hp
        refine ih _ (c' + 1) hb' (hs.push h10 ?_ (by omega)) (by omega)
        simp only [qpPlain, Bool.or_eq_true, beq_iff_eq, Bool.and_eq_true, decide_eq_true_eq,
          bne_iff_ne] at hp
        omega
      · obtain ⟨a1, a2, a3⟩ := upHex_ascii (show b / 16 < 16 by omega)
        obtain ⟨b1, b2, b3⟩ := upHex_ascii (show b % 16 < 16 by omega)
        have h1 := hs.push (c := 61) (by omega) (by omega) (by omega)
        have h2 := h1.push (c := upHex (b / 16)) a1 (Or.inr ⟨a2, a3⟩) (by omega)
        have h3 := h2.push (c := upHex (b % 16)) b1 (Or.inr ⟨b2, b3⟩) (by omega)
        simpa [List.append_assoc] using ih _ (c' + 1 + 1 + 1) hb' h3 (by omega)

theorem qpEncode_shape (n : Nat) (data : List Nat) (hb : ∀ b ∈ data, b < 256) :
    ∃ col, Shape ((if 1 < n then n else 72) + 4) (qpEncode n data) col ∧
      (data ≠ [] → (qpEncode n data).getLast? = some 10) := by
  unfold qpEncode
  generalize (if 1 < n then n else 72) = k
  have h0 : Shape (k + 4) [] 0 :=
    ⟨by intro l hl; simp at hl; simp [hl], by intro l hl; simp at hl; simp [hl],
      by intro x hx; simp at hx, by simp⟩
  split
  · rename_i he
    refine ⟨0, h0, ?_⟩
    intro hne
    simp at he
    exact absurd he hne
  · obtain ⟨col, hc, hs⟩ := qpLoop_shape k data [] 0 hb h0 (by omega)
    dsimp only
    split
    · have h1 := hs.push (c := 61) (by omega) (by omega) (by omega)
      have h2 := h1.newline (by simp)
      refine ⟨0, by simpa [List.append_assoc] using h2, by simp⟩
    · rename_i hl
      exact ⟨col, hs, fun _ => by simpa using hl⟩

/-! ## Base64: other characters are skipped -/

theorem b64_skip (x y : List Nat) (c : Nat) (hc : b64val c = none) (h61 : c ≠ 61) (buf : List Nat)
    (pad : Nat) : b64DecodeLoop buf pad (x ++ c :: y) = b64DecodeLoop buf pad (x ++ y) := by
  induction x generalizing buf pad with
  | nil =>
    rw [List.nil_append, List.nil_append]
    conv_lhs => unfold b64DecodeLoop
    rw [if_neg h61, hc]
  | cons a x ih =>
    rw [List.cons_append, List.cons_append]
    unfold b64DecodeLoop
    cases b64val a <;> simp only [ih]

end Verif.Pack
