import Verif.Sprintf.Lemmas

/-!
# C156: the format string is read as its grammar says
-/

namespace Verif.Sprintf

/-! ### Format strings, independently of the reader -/

inductive WidthSpec where
  | none
  | num (w : Nat)
  | star

inductive PrecSpec where
  | none
  | bare
  | num (p : Nat)
  | star

inductive Piece where
  | lit (c : Char)
  | percent
  | dir (flags : List Char) (w : WidthSpec) (p : PrecSpec) (conv : Char)

def numText (n : Nat) : List Char := (digs 10 n).map (dchar false)

def widthText : WidthSpec → List Char
  | .none => []
  | .num w => numText w
  | .star => ['*']

def precText : PrecSpec → List Char
  | .none => []
  | .bare => ['.']
  | .num p => '.' :: numText p
  | .star => ['.', '*']

def pieceText : Piece → List Char
  | .lit c => [c]
  | .percent => ['%', '%']
  | .dir fl w p c => '%' :: (fl ++ (widthText w ++ (precText p ++ [c])))

def text (ps : List Piece) : List Char := (ps.map pieceText).flatten

def flagChars : List Char := ['0', '-', '+', ' ', '#']

/-- The conversion a letter stands for. -/
def convs : List (Char × Conv) :=
  [('d', .d), ('i', .d), ('u', .d), ('b', .b false), ('B', .b true), ('o', .o), ('x', .x false), ('X', .x true),
   ('s', .s)]

/-- Literal characters are not `%`, numbers fit a machine word, a width has no leading zero (it would be a
flag). -/
def Piece.Ok : Piece → Prop
  | .lit c => c ≠ '%'
  | .percent => True
  | .dir fl w p c => (∀ x ∈ fl, x ∈ flagChars) ∧ (∀ n, w = .num n → 0 < n ∧ n < 2 ^ 64) ∧
      (∀ n, p = .num n → n < 2 ^ 64) ∧ ∃ k, (c, k) ∈ convs

/-- The flags: each letter counts wherever it stands and however often; `-` turns `0` off, `+` the space. -/
def flagsOf (fl : List Char) : Flags where
  zero := fl.contains '0' && !fl.contains '-'
  minus := fl.contains '-'
  plus := fl.contains '+'
  space := fl.contains ' ' && !fl.contains '+'
  hash := fl.contains '#'

/-- A negative width argument is a width and the `-` flag. -/
def widthOf (f : Flags) : WidthSpec → List Arg → Except Err (Flags × Nat × List Arg)
  | .none, as => .ok (f, 0, as)
  | .num w, as => .ok (f, w, as)
  | .star, as => do
    let (v, as) ← starArg as
    .ok (if v < 0 then { f with minus := true, zero := false } else f, v.natAbs, as)

/-- A negative precision argument is no precision. -/
def precOf : PrecSpec → List Arg → Except Err (Option Nat × List Arg)
  | .none, as => .ok (none, as)
  | .bare, as => .ok (some 0, as)
  | .num p, as => .ok (some p, as)
  | .star, as => do
    let (v, as) ← starArg as
    .ok (if v < 0 then none else some v.natAbs, as)

/-- Pieces take their arguments from left to right, the width before the precision before the value. -/
def meaning : List Piece → List Arg → Except Err (List Char)
  | [], _ => .ok []
  | .lit c :: ps, as => do
    let r ← meaning ps as
    .ok (c :: r)
  | .percent :: ps, as => do
    let r ← meaning ps as
    .ok ('%' :: r)
  | .dir fl w p c :: ps, as => do
    let (f, width, as) ← widthOf (flagsOf fl) w as
    let (prec, as) ← precOf p as
    let (a, as) ← takeArg as
    let out ← emit ((convs.lookup c).getD .d) f width prec a
    let r ← meaning ps as
    .ok (out ++ r)

/-! ### Auxiliary -/

def setFlag (f : Flags) (c : Char) : Flags where
  zero := f.zero || c == '0'
  minus := f.minus || c == '-'
  plus := f.plus || c == '+'
  space := f.space || c == ' '
  hash := f.hash || c == '#'

theorem takeFlags_run : ∀ (fl : List Char) (f : Flags) (c : Char) (t : List Char),
    (∀ x ∈ fl, x ∈ flagChars) → c ∉ flagChars →
    takeFlags f (fl ++ c :: t) = (fl.foldl setFlag f, c :: t) := by
  intro fl
  induction fl with
  | nil =>
    intro f c t _ hc
    simp only [flagChars, List.mem_cons, List.not_mem_nil, not_or] at hc
    simp only [List.nil_append, List.foldl_nil]
    unfold takeFlags
    split <;> simp_all
  | cons x fl ih =>
    intro f c t hf hc
    have hx := hf x (by simp)
    have := fun f => ih f c t (fun y hy => hf y (List.mem_cons_of_mem _ hy)) hc
    simp only [flagChars, List.mem_cons, List.not_mem_nil, or_false] at hx
    simp only [List.cons_append, List.foldl_cons]
    rcases hx with rfl | rfl | rfl | rfl | rfl <;>
      simp only [takeFlags, this] <;> congr 2 <;> cases f <;> simp [setFlag] <;> decide

theorem foldl_setFlag : ∀ (fl : List Char) (f : Flags),
    (fl.foldl setFlag f).zero = (f.zero || fl.contains '0') ∧
    (fl.foldl setFlag f).minus = (f.minus || fl.contains '-') ∧
    (fl.foldl setFlag f).plus = (f.plus || fl.contains '+') ∧
    (fl.foldl setFlag f).space = (f.space || fl.contains ' ') ∧
    (fl.foldl setFlag f).hash = (f.hash || fl.contains '#') := by
  intro fl
  induction fl with
  | nil => intro f; simp
  | cons x fl ih =>
    intro f
    obtain ⟨h1, h2, h3, h4, h5⟩ := ih (setFlag f x)
    have hc : ∀ a b : Char, (a == b) = (b == a) := fun a b => by
      by_cases h : a = b
      · subst h; rfl
      · rw [beq_eq_false_iff_ne.2 h, beq_eq_false_iff_ne.2 (Ne.symm h)]
    simp only [List.foldl_cons]
    refine ⟨h1.trans ?_, h2.trans ?_, h3.trans ?_, h4.trans ?_, h5.trans ?_⟩ <;>
      (simp only [setFlag, List.contains_cons, Bool.or_assoc]; rw [hc])

theorem settle_flags (fl : List Char) : settle (fl.foldl setFlag {}) = flagsOf fl := by
  obtain ⟨h1, h2, h3, h4, h5⟩ := foldl_setFlag fl {}
  generalize fl.foldl setFlag {} = g at *
  cases g
  simp only [Bool.false_or] at h1 h2 h3 h4 h5
  simp [settle, flagsOf, h1, h2, h3, h4, h5]

theorem dchar_digit : ∀ d, d < 10 → (dchar false d).isDigit = true ∧ (dchar false d).toNat - 48 = d := by
  decide

theorem takeNum_run : ∀ (ds : List Nat) (acc : Nat) (c : Char) (t : List Char), (∀ d ∈ ds, d < 10) →
    c.isDigit = false → acc * 10 ^ ds.length + val 10 ds < 2 ^ 64 →
    takeNum acc (ds.map (dchar false) ++ c :: t) = .ok (acc * 10 ^ ds.length + val 10 ds, c :: t) := by
  intro ds
  induction ds with
  | nil =>
    intro acc c t _ hc _
    simp [takeNum, hc, val]
  | cons d ds ih =>
    intro acc c t hd hc hlt
    obtain ⟨h1, h2⟩ := dchar_digit d (hd d (by simp))
    have he : acc * 10 ^ (d :: ds).length + val 10 (d :: ds) =
        (acc * 10 + d) * 10 ^ ds.length + val 10 ds := by
      simp only [List.length_cons, val, Nat.pow_succ, Nat.add_mul, Nat.mul_assoc, Nat.mul_comm 10]
      omega
    rw [he] at hlt ⊢
    have hp : 0 < 10 ^ ds.length := Nat.pow_pos (by decide)
    have hle : acc * 10 + d ≤ (acc * 10 + d) * 10 ^ ds.length := Nat.le_mul_of_pos_right _ hp
    simp only [List.map_cons, List.cons_append, takeNum, h1, h2, if_true]
    rw [if_pos (by omega)]
    exact ih _ c t (fun x hx => hd x (List.mem_cons_of_mem _ hx)) hc hlt

theorem takeNum_text (n : Nat) (c : Char) (t : List Char) (hc : c.isDigit = false) (hn : n < 2 ^ 64) :
    takeNum 0 (numText n ++ c :: t) = .ok (n, c :: t) := by
  obtain ⟨h1, h2, _, _⟩ := digs_spec (b := 10) (by decide) n
  have := takeNum_run (digs 10 n) 0 c t h2 hc (by omega)
  rw [h1] at this
  simpa [numText] using this

theorem takeWidth_other (f : Flags) {c : Char} (t : List Char) (as : List Arg) (h : c ≠ '*') :
    takeWidth f (c :: t) as = (do
      let (w, t) ← takeNum 0 (c :: t)
      .ok (f, w, t, as)) := by
  unfold takeWidth
  split
  · rename_i h'; simp at h'; exact absurd h'.1 h
  · rfl

theorem takePrec_dot {c : Char} (t : List Char) (as : List Arg) (h : c ≠ '*') :
    takePrec ('.' :: c :: t) as = (do
      let (p, t) ← takeNum 0 (c :: t)
      .ok (some p, t, as)) := by
  unfold takePrec
  split
  · rename_i h'; simp at h'; exact absurd h'.1 h
  · rename_i h'; simp at h'; subst h'; rfl
  · rename_i h1 h2; exact absurd rfl (h2 _)

theorem takePrec_other {c : Char} (t : List Char) (as : List Arg) (h : c ≠ '.') :
    takePrec (c :: t) as = .ok (none, c :: t, as) := by
  unfold takePrec
  split
  · rename_i h'; simp at h'; exact absurd h'.1 h
  · rename_i h'; simp at h'; exact absurd h'.1 h
  · rfl

/-- The first character of a number. -/
theorem numText_head (n : Nat) : ∃ d r, d < 10 ∧ numText n = dchar false d :: r ∧ (n ≠ 0 → d ≠ 0) := by
  obtain ⟨h1, h2, h3, h4⟩ := digs_spec (b := 10) (by decide) n
  cases hq : digs 10 n with
  | nil => exact absurd hq h3
  | cons d ds =>
    refine ⟨d, ds.map (dchar false), h2 d (by simp [hq]), by simp [numText, hq], ?_⟩
    intro hn hd
    apply h4 hn
    simp [hq, hd]

theorem dchar_not : ∀ d, d < 10 → dchar false d ≠ '*' ∧ dchar false d ≠ '.' ∧ dchar false d ≠ '%' ∧
    (d ≠ 0 → dchar false d ∉ flagChars) := by decide

theorem conv_not {c : Char} {k : Conv} (h : (c, k) ∈ convs) : c.isDigit = false ∧ c ≠ '*' ∧ c ≠ '.' ∧
    c ≠ '%' ∧ c ∉ flagChars ∧ ∀ t, takeConv (c :: t) = .ok ((convs.lookup c).getD .d, t) := by
  simp only [convs, List.mem_cons, List.not_mem_nil, or_false, Prod.mk.injEq] at h
  rcases h with h | h | h | h | h | h | h | h | h <;> obtain ⟨rfl, rfl⟩ := h <;>
    exact ⟨by decide, by decide, by decide, by decide, by decide, fun t => rfl⟩

/-- What stands behind the width: a `.` or the letter. -/
theorem prec_head (p : PrecSpec) (c : Char) (t : List Char) :
    ∃ x r, precText p ++ c :: t = x :: r ∧ (x = '.' ∨ x = c) := by
  cases p with
  | none => exact ⟨c, t, rfl, .inr rfl⟩
  | bare => exact ⟨'.', _, rfl, .inl rfl⟩
  | num n => exact ⟨'.', _, rfl, .inl rfl⟩
  | star => exact ⟨'.', _, rfl, .inl rfl⟩

theorem takePrec_spec (p : PrecSpec) {c : Char} {k : Conv} (hc : (c, k) ∈ convs) (t : List Char)
    (as : List Arg) (hp : ∀ n, p = .num n → n < 2 ^ 64) :
    takePrec (precText p ++ c :: t) as = (precOf p as).map (fun r => (r.1, c :: t, r.2)) := by
  obtain ⟨h1, h2, h3, h4, h5, h6⟩ := conv_not hc
  cases p with
  | none => exact takePrec_other t as h3
  | bare =>
    show takePrec ('.' :: c :: t) as = _
    rw [takePrec_dot t as h2]
    simp only [takeNum, h1, Bool.false_eq_true, if_false]
    rfl
  | num n =>
    obtain ⟨d, r, hd, hr, _⟩ := numText_head n
    show takePrec ('.' :: (numText n ++ c :: t)) as = _
    have hnum := takeNum_text n c t h1 (hp n rfl)
    rw [hr] at hnum ⊢
    rw [List.cons_append] at hnum ⊢
    rw [takePrec_dot _ as (dchar_not d hd).1, hnum]
    rfl
  | star =>
    show takePrec ('.' :: '*' :: c :: t) as = _
    simp only [takePrec, precOf]
    cases starArg as with
    | error e => rfl
    | ok v =>
      obtain ⟨v, as'⟩ := v
      simp only [bind, Except.bind, Except.map, List.isEmpty_cons, Bool.false_eq_true, if_false]
      by_cases hv : v < 0
      · rw [if_neg (by omega), if_pos hv]
      · rw [if_pos (by omega), if_neg hv, show v.toNat = v.natAbs by omega]

theorem takeWidth_spec (w : WidthSpec) (f : Flags) {x : Char} (r : List Char) (as : List Arg)
    (hx : x.isDigit = false ∧ x ≠ '*') (hw : ∀ n, w = .num n → 0 < n ∧ n < 2 ^ 64) :
    takeWidth f (widthText w ++ x :: r) as = (widthOf f w as).map (fun q => (q.1, q.2.1, x :: r, q.2.2)) := by
  cases w with
  | none =>
    show takeWidth f (x :: r) as = _
    rw [takeWidth_other f r as hx.2]
    simp only [takeNum, hx.1, Bool.false_eq_true, if_false]
    rfl
  | num n =>
    obtain ⟨d, q, hd, hq, _⟩ := numText_head n
    show takeWidth f (numText n ++ x :: r) as = _
    have hnum := takeNum_text n x r hx.1 (hw n rfl).2
    rw [hq] at hnum ⊢
    rw [List.cons_append] at hnum ⊢
    rw [takeWidth_other f _ as (dchar_not d hd).1, hnum]
    rfl
  | star =>
    show takeWidth f ('*' :: x :: r) as = _
    simp only [takeWidth, widthOf]
    cases starArg as with
    | error e => rfl
    | ok v =>
      obtain ⟨v, as'⟩ := v
      simp only [bind, Except.bind, Except.map, List.isEmpty_cons, Bool.false_eq_true, if_false]
      by_cases hv : v < 0
      · rw [if_pos hv, if_pos hv]
      · rw [if_neg hv, if_neg hv, show v.toNat = v.natAbs by omega]

/-- What stands behind the flags is no flag, and no second `%`. -/
theorem width_head (w : WidthSpec) (p : PrecSpec) {c : Char} {k : Conv} (hc : (c, k) ∈ convs) (t : List Char)
    (hw : ∀ n, w = .num n → 0 < n ∧ n < 2 ^ 64) :
    ∃ x r, widthText w ++ (precText p ++ c :: t) = x :: r ∧ x ∉ flagChars ∧ x ≠ '%' := by
  obtain ⟨h1, h2, h3, h4, h5, h6⟩ := conv_not hc
  cases w with
  | none =>
    obtain ⟨x, r, hr, hx⟩ := prec_head p c t
    refine ⟨x, r, hr, ?_⟩
    rcases hx with rfl | rfl
    · exact ⟨by decide, by decide⟩
    · exact ⟨h5, h4⟩
  | num n =>
    obtain ⟨d, r, hd, hr, h0⟩ := numText_head n
    refine ⟨dchar false d, r ++ (precText p ++ c :: t), by simp [widthText, hr], ?_⟩
    have hn := (hw n rfl).1
    exact ⟨(dchar_not d hd).2.2.2 (h0 (by omega)), (dchar_not d hd).2.2.1⟩
  | star => exact ⟨'*', _, rfl, by decide, by decide⟩

theorem directive_spec (fl : List Char) (w : WidthSpec) (p : PrecSpec) (c : Char)
    (hok : (Piece.dir fl w p c).Ok) (t : List Char) (as : List Arg) :
    directive (fl ++ (widthText w ++ (precText p ++ c :: t))) as = (do
      let (f, width, as) ← widthOf (flagsOf fl) w as
      let (prec, as) ← precOf p as
      let (a, as) ← takeArg as
      let out ← emit ((convs.lookup c).getD .d) f width prec a
      .ok (out, t, as)) := by
  obtain ⟨hf, hw, hp, k, hc⟩ := hok
  obtain ⟨h1, h2, h3, h4, h5, h6⟩ := conv_not hc
  obtain ⟨x, r, hr, hx, _⟩ := width_head w p hc t hw
  have hflags : takeFlags {} (fl ++ (widthText w ++ (precText p ++ c :: t))) =
      (fl.foldl setFlag {}, widthText w ++ (precText p ++ c :: t)) := by
    rw [hr]; exact takeFlags_run fl {} x r hf hx
  obtain ⟨y, s, hs, hy⟩ := prec_head p c t
  have hyd : y.isDigit = false ∧ y ≠ '*' := by
    rcases hy with rfl | rfl
    · exact ⟨by decide, by decide⟩
    · exact ⟨h1, h2⟩
  have hwidth := takeWidth_spec w (flagsOf fl) s as hyd hw
  rw [← hs] at hwidth
  simp only [directive, hflags, settle_flags, hwidth]
  cases widthOf (flagsOf fl) w as with
  | error e => rfl
  | ok q =>
    obtain ⟨f, width, as1⟩ := q
    simp only [bind, Except.bind, Except.map, takePrec_spec p hc t as1 hp]
    cases precOf p as1 with
    | error e => rfl
    | ok q =>
      obtain ⟨prec, as2⟩ := q
      simp only [h6]

/-! ### The claim -/

/-- A format string made of literal characters, `%%` and directives gives what its pieces mean one after the
other: flags in any order, width and precision as numbers or from the arguments, arguments taken from left to
right, and the same error if they run out or do not fit. -/
theorem C156_format : ∀ (ps : List Piece) (as : List Arg) (n : Nat), (∀ p ∈ ps, p.Ok) →
    (text ps).length ≤ n → format n (text ps) as = meaning ps as := by
  intro ps
  induction ps with
  | nil =>
    intro as n _ _
    cases n <;> simp [text, format, meaning]
  | cons p ps ih =>
    intro as n hok hn
    have hok' : ∀ q ∈ ps, q.Ok := fun q hq => hok q (List.mem_cons_of_mem _ hq)
    have hp := hok p (by simp)
    have ht : text (p :: ps) = pieceText p ++ text ps := by simp [text]
    rw [ht] at hn ⊢
    rw [List.length_append] at hn
    cases n with
    | zero => cases p <;> simp [pieceText] at hn
    | succ n =>
      cases p with
      | lit c =>
        simp only [pieceText, List.length_cons, List.length_nil] at hn
        have hc : c ≠ '%' := hp
        show format (n + 1) (c :: text ps) as = _
        rw [meaning, ← ih as n hok' (by omega)]
        rw [format]
        · rintro rfl; exact absurd rfl hc
        · intro t h; exact absurd h hc
        · intro h; exact absurd h hc
      | percent =>
        simp only [pieceText, List.length_cons, List.length_nil] at hn
        show format (n + 1) ('%' :: '%' :: text ps) as = _
        rw [meaning, ← ih as n hok' (by omega), format]
      | dir fl w pr c =>
        obtain ⟨hf, hw, hpr, k, hc⟩ := hp
        obtain ⟨x, r, hr, hx, hxp⟩ := width_head w pr hc (text ps) hw
        have hte : pieceText (.dir fl w pr c) ++ text ps =
            '%' :: (fl ++ (widthText w ++ (precText pr ++ c :: text ps))) := by simp [pieceText]
        have hlen : (text ps).length ≤ n := by
          simp only [pieceText, List.length_cons, List.length_append] at hn
          omega
        have hd := directive_spec fl w pr c ⟨hf, hw, hpr, k, hc⟩ (text ps) as
        have hhead : ∃ y s, fl ++ (widthText w ++ (precText pr ++ c :: text ps)) = y :: s ∧ y ≠ '%' := by
          cases fl with
          | nil => exact ⟨x, r, hr, hxp⟩
          | cons y fl =>
            refine ⟨y, _, rfl, ?_⟩
            have := hf y (by simp)
            rintro rfl
            revert this; decide
        obtain ⟨y, s, hys, hy⟩ := hhead
        have hfmt : format (n + 1) ('%' :: y :: s) as = (do
            let (out, t, as) ← directive (y :: s) as
            let r ← format n t as
            .ok (out ++ r)) := by
          rw [format]
          · intro h; simp at h
          · intro t h; simp at h; exact hy h.1
        rw [hte, hys, hfmt, ← hys, hd, meaning]
        cases widthOf (flagsOf fl) w as with
        | error e => rfl
        | ok q =>
          obtain ⟨f, width, as1⟩ := q
          simp only [bind, Except.bind]
          cases precOf pr as1 with
          | error e => rfl
          | ok q =>
            obtain ⟨prec, as2⟩ := q
            simp only
            cases takeArg as2 with
            | error e => rfl
            | ok q =>
              obtain ⟨a, as3⟩ := q
              simp only
              cases emit ((convs.lookup c).getD .d) f width prec a with
              | error e => rfl
              | ok out =>
                simp only
                rw [ih as3 n hok' hlen]

/-- `"a%-+5d%%%*s"` -/
example : ∀ p ∈ [Piece.lit 'a', .dir ['-', '+'] (.num 5) .none 'd', .percent, .dir [] .star .none 's'], p.Ok := by
  simp [Piece.Ok, flagChars, convs]

example : text [Piece.lit 'a', .dir ['-', '+'] (.num 5) .none 'd', .percent, .dir [] .star .none 's'] =
    "a%-+5d%%%*s".toList := by
  simp [text, pieceText, widthText, precText, numText, digs]; decide

/-- Running out of arguments is an error wherever it happens. -/
theorem C156_too_few (fl : List Char) (w : WidthSpec) (p : PrecSpec) (c : Char)
    (hok : (Piece.dir fl w p c).Ok) (ps : List Piece) (hps : ∀ q ∈ ps, q.Ok) (n : Nat)
    (hn : (text (.dir fl w p c :: ps)).length ≤ n) :
    format n (text (.dir fl w p c :: ps)) [] = .error .tooFew := by
  rw [C156_format _ _ _ (by intro q hq
                            rcases List.mem_cons.1 hq with rfl | hq
                            · exact hok
                            · exact hps q hq) hn]
  cases w <;> cases p <;> rfl

end Verif.Sprintf
