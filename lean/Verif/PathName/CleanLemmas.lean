import Verif.PathName.Lemmas

/-! # Lemmas on joining, cleaning and splitting names -/

namespace Verif.PathName

/-- a name that begins at the root -/
def Abs (s : Str) : Prop := s.head? = some '/'

instance (s : Str) : Decidable (Abs s) := by unfold Abs; infer_instance

theorem concat_of_last (s : Str) (c : Char) (h : s.getLast? = some c) : ∃ q, s = q ++ [c] := by
  refine ⟨s.dropLast, ?_⟩
  have hne : s ≠ [] := by rintro rfl; simp at h
  rw [List.getLast?_eq_some_getLast hne] at h
  simp only [Option.some.injEq] at h
  rw [← h, List.dropLast_concat_getLast hne]

theorem cons_of_head (s : Str) (c : Char) (h : s.head? = some c) : ∃ q, s = c :: q := by
  cases s with
  | nil => simp at h
  | cons d r => simp at h; exact ⟨r, by rw [h]⟩

theorem getLast?_app (a b : Str) (h : b ≠ []) : (a ++ b).getLast? = b.getLast? := by
  rw [List.getLast?_append]
  cases e : b.getLast? with
  | none => rw [List.getLast?_eq_none_iff] at e; exact absurd e h
  | some c => rfl

theorem names_dropTrail (s : Str) : names (dropTrail s) = names s := by
  obtain ⟨sl, hsl, hs, -⟩ := dropTrail_eq s
  conv => rhs; rw [hs]
  rw [names_trail _ _ hsl]

theorem names_joinStep (a b : Str) : names (joinStep a b) = names a ++ names b := by
  unfold joinStep
  by_cases hl : a.getLast? = some '/' <;> by_cases hr : b.head? = some '/'
  · obtain ⟨q, rfl⟩ := cons_of_head b _ hr
    simp only [hl, List.head?_cons, beq_self_eq_true, Bool.and_self, if_true]
    rw [names_slash, names_dropTrail, names_cons_slash]
  · simp only [hl, beq_self_eq_true, Bool.true_and, Bool.not_true, Bool.false_and]
    obtain ⟨q, rfl⟩ := concat_of_last a _ hl
    rw [if_neg (by simpa using hr)]
    simp only [Bool.false_eq_true, if_false]
    rw [List.append_assoc, List.singleton_append, names_slash, names_trail]
    intro c hc; simpa using hc
  · obtain ⟨q, rfl⟩ := cons_of_head b _ hr
    have : (a.getLast? == some '/') = false := by simpa using hl
    simp only [this, List.head?_cons, beq_self_eq_true, Bool.false_and, Bool.not_true, Bool.and_false,
      Bool.false_eq_true, if_false]
    rw [names_slash, names_cons_slash]
  · have h1 : (a.getLast? == some '/') = false := by simpa using hl
    have h2 : (b.head? == some '/') = false := by simpa using hr
    simp only [h1, h2, Bool.and_self, Bool.not_false, Bool.false_eq_true, if_false, if_true]
    rw [names_slash]

theorem names_foldl_join (a : Str) (ps : List Str) :
    names (ps.foldl joinStep a) = names a ++ ps.flatMap names := by
  induction ps generalizing a with
  | nil => simp
  | cons p ps ih => rw [List.foldl_cons, ih, names_joinStep, List.flatMap_cons, List.append_assoc]

theorem word_head (x : Str) (h : Word x) : x.head? ≠ some '/' := by
  intro e
  obtain ⟨q, rfl⟩ := cons_of_head x _ e
  exact h.2 List.mem_cons_self

theorem word_last (x : Str) (h : Word x) : x.getLast? ≠ some '/' := by
  intro e
  obtain ⟨q, rfl⟩ := concat_of_last x _ e
  exact h.2 (by simp)

theorem withSlashes_last (xs : List Str) (h : ∀ x ∈ xs, Word x) : (withSlashes xs).getLast? ≠ some '/' := by
  induction xs with
  | nil => simp [withSlashes]
  | cons x r ih =>
    cases r with
    | nil => exact word_last x (h x List.mem_cons_self)
    | cons y r =>
      have hi := ih (fun z hz => h z (List.mem_cons_of_mem _ hz))
      have hne : withSlashes (y :: r) ≠ [] := by
        have hy := (h y (by simp)).1
        cases r with
        | nil => exact hy
        | cons z r => rw [withSlashes]; simp
      rw [withSlashes]
      rw [getLast?_app _ _ (by simp)]
      cases e : withSlashes (y :: r) with
      | nil => exact absurd e hne
      | cons c t => rw [e] at hi; rw [List.getLast?_cons_cons]; exact hi

theorem withSlashes_head (xs : List Str) (h : ∀ x ∈ xs, Word x) : (withSlashes xs).head? ≠ some '/' := by
  cases xs with
  | nil => simp [withSlashes]
  | cons x r =>
    have hx := h x List.mem_cons_self
    cases r with
    | nil => exact word_head x hx
    | cons y r =>
      rw [withSlashes]
      cases x with
      | nil => exact absurd rfl hx.1
      | cons c t => exact word_head (c :: t) hx

theorem withSlashes_concat (xs : List Str) (hne : xs ≠ []) (y : Str) :
    withSlashes (xs ++ [y]) = withSlashes xs ++ '/' :: y := by
  induction xs with
  | nil => exact absurd rfl hne
  | cons x r ih =>
    cases r with
    | nil => rfl
    | cons z r =>
      have := ih (by simp)
      rw [List.cons_append, List.cons_append, withSlashes, ← List.cons_append, this, withSlashes]
      simp

theorem join_words_aux (xs ys : List Str) (hne : xs ≠ []) (hx : ∀ x ∈ xs, Word x) (hy : ∀ x ∈ ys, Word x) :
    ys.foldl joinStep (withSlashes xs) = withSlashes (xs ++ ys) := by
  induction ys generalizing xs with
  | nil => simp
  | cons y ys ih =>
    have h1 : ((withSlashes xs).getLast? == some '/') = false := by simpa using withSlashes_last xs hx
    have h2 : (y.head? == some '/') = false := by simpa using word_head y (hy y List.mem_cons_self)
    have hs : joinStep (withSlashes xs) y = withSlashes (xs ++ [y]) := by
      unfold joinStep
      simp only [h1, h2, Bool.and_self, Bool.not_false, Bool.false_eq_true, if_false, if_true]
      rw [withSlashes_concat xs hne]
    rw [List.foldl_cons, hs, ih (xs ++ [y]) (by simp)
      (by intro x hm; rcases List.mem_append.1 hm with h | h
          · exact hx x h
          · simp at h; subst h; exact hy _ List.mem_cons_self)
      (fun x h => hy x (List.mem_cons_of_mem _ h))]
    simp

theorem join_words (xs : List Str) (h : ∀ x ∈ xs, Word x) : join xs = withSlashes xs := by
  cases xs with
  | nil => rfl
  | cons x r =>
    have := join_words_aux [x] r (by simp) (by intro y hy; simp at hy; subst hy; exact h _ List.mem_cons_self)
      (fun y hy => h y (List.mem_cons_of_mem _ hy))
    simpa [join, withSlashes] using this

theorem splitSl_withSlashes (xs : List Str) (hne : xs ≠ []) (h : ∀ x ∈ xs, '/' ∉ x) :
    splitSl (withSlashes xs) = xs := by
  induction xs with
  | nil => exact absurd rfl hne
  | cons x r ih =>
    cases r with
    | nil => exact splitSl_word x (h x List.mem_cons_self)
    | cons y r =>
      rw [withSlashes, splitSl_slash, splitSl_word x (h x List.mem_cons_self),
        ih (by simp) (fun z hz => h z (List.mem_cons_of_mem _ hz))]
      rfl

theorem joinStep_abs (a b : Str) : Abs (joinStep a b) ↔ Abs a ∨ a = [] := by
  unfold joinStep Abs
  by_cases hl : a.getLast? = some '/' <;> by_cases hr : b.head? = some '/'
  · simp only [hl, hr, beq_self_eq_true, Bool.and_self, if_true]
    obtain ⟨sl, hsl, hs, hd⟩ := dropTrail_eq a
    cases e : dropTrail a with
    | nil =>
      simp only [List.nil_append, hr, true_iff]
      rw [e, List.nil_append] at hs
      cases sl with
      | nil => right; exact hs
      | cons c r => left; rw [hs, hsl c List.mem_cons_self]; rfl
    | cons c r =>
      rw [e] at hs
      rw [hs]; simp
  · have h2 : (b.head? == some '/') = false := by simpa using hr
    simp only [hl, h2, beq_self_eq_true, Bool.true_and, Bool.not_true, Bool.false_and, Bool.false_eq_true, if_false]
    cases a with
    | nil => simp at hl
    | cons c r => simp
  · have : (a.getLast? == some '/') = false := by simpa using hl
    simp only [this, hr, beq_self_eq_true, Bool.false_and, Bool.not_true, Bool.and_false,
      Bool.false_eq_true, if_false]
    cases a with
    | nil => simpa using hr
    | cons c r => simp
  · have h1 : (a.getLast? == some '/') = false := by simpa using hl
    have h2 : (b.head? == some '/') = false := by simpa using hr
    simp only [h1, h2, Bool.and_self, Bool.not_false, Bool.false_eq_true, if_false, if_true]
    cases a with
    | nil => simp
    | cons c r => simp

/-! ## dirname -/

theorem lastSlash_none (b : Str) (h : '/' ∉ b) : lastSlash b = none := by
  induction b with
  | nil => rfl
  | cons c r ih =>
    simp only [List.mem_cons, not_or] at h
    rw [lastSlash, ih h.2]
    simp [Ne.symm h.1]

theorem lastSlash_at (q b : Str) (h : '/' ∉ b) : lastSlash (q ++ '/' :: b) = some q.length := by
  induction q with
  | nil => simp [lastSlash, lastSlash_none b h]
  | cons c r ih => simp [lastSlash, ih]

theorem names_squeezeLead (s : Str) : names (squeezeLead s) = names s := by
  unfold squeezeLead
  split_ifs
  · have : s = s.takeWhile (· == '/') ++ s.dropWhile (· == '/') := (List.takeWhile_append_dropWhile).symm
    conv => rhs; rw [this]
    rw [names_cons_slash, names_lead]
    apply slashes_of_all
    exact List.all_takeWhile
  · rfl

theorem dirnameOnce_slashes (s : Str) (h : Slashes s) : dirnameOnce s = if s = [] then ['.'] else ['/'] := by
  unfold dirnameOnce
  by_cases e : s = []
  · subst e; rfl
  · rw [if_pos ⟨e, all_of_slashes s h⟩, if_neg e]

theorem getLast?_pre (pre b : Str) (hb : Word b) : (pre ++ b).getLast? ≠ some '/' := by
  rw [getLast?_app _ _ hb.1]
  exact word_last b hb

theorem not_all_of_word (pre b sl : Str) (hb : Word b) : ¬ (pre ++ b ++ sl).all (· == '/') = true := by
  intro h
  have hs := slashes_of_all _ h
  obtain ⟨c, r, rfl⟩ := List.exists_cons_of_ne_nil hb.1
  have := hs c (by simp)
  subst this
  exact hb.2 List.mem_cons_self

theorem dirnameOnce_one (b sl : Str) (hb : Word b) (hsl : Slashes sl) : dirnameOnce (b ++ sl) = ['.'] := by
  have h0 := not_all_of_word [] b sl hb
  rw [List.nil_append] at h0
  unfold dirnameOnce
  rw [if_neg (fun h => h0 h.2), dropTrail_append b sl hsl (word_last b hb)]
  simp [hb.1, lastSlash_none b hb.2]

theorem dirnameOnce_pre (q b sl : Str) (hb : Word b) (hsl : Slashes sl) :
    dirnameOnce (q ++ ['/'] ++ b ++ sl) = if dropTrail q = [] then ['/'] else squeezeLead (dropTrail q) := by
  unfold dirnameOnce
  rw [if_neg (fun h => not_all_of_word _ b sl hb h.2), dropTrail_append _ sl hsl (getLast?_pre _ b hb)]
  have : q ++ ['/'] ++ b = q ++ '/' :: b := by simp
  simp only [this]
  rw [lastSlash_at q b hb.2, if_neg (by simp)]
  simp

/-! ## Splitting -/

theorem rindex_none (b b' sl : Str) (hb : '/' ∉ b) (hl : b'.length < b.length) (hsl : Slashes sl) :
    rindex b (b' ++ sl) = none := by
  have key : ∀ (b' sl : Str), b'.length < b.length → Slashes sl → ¬ b.isPrefixOf (b' ++ sl) = true := by
    intro b' sl hl hsl h
    rw [List.isPrefixOf_iff_prefix] at h
    obtain ⟨t, ht⟩ := h
    have h1 : (b ++ t)[b'.length]? = (b' ++ sl)[b'.length]? := by rw [ht]
    rw [List.getElem?_append_left hl, List.getElem?_append_right (Nat.le_refl _)] at h1
    rw [List.getElem?_eq_getElem hl] at h1
    have h2 := List.mem_of_getElem? h1.symm
    have := hsl _ h2
    exact hb (this ▸ List.getElem_mem hl)
  induction b' with
  | nil =>
    rw [List.nil_append]
    induction sl with
    | nil =>
      simp only [rindex]
      rw [if_neg]
      rintro rfl; simp at hl
    | cons c r ih =>
      rw [rindex, ih (fun c hc => hsl c (List.mem_cons_of_mem _ hc))]
      simp only
      have := key [] (c :: r) hl hsl
      rw [List.nil_append] at this
      simp [this]
  | cons c r ih =>
    rw [List.cons_append, rindex, ih (by simp at hl; omega)]
    simp only
    have := key (c :: r) sl hl hsl
    rw [List.cons_append] at this
    simp [this]

theorem rindex_self (b sl : Str) (hb : Word b) (hsl : Slashes sl) : rindex b (b ++ sl) = some 0 := by
  obtain ⟨c, r, rfl⟩ := List.exists_cons_of_ne_nil hb.1
  have h1 := rindex_none (c :: r) r sl hb.2 (by simp) hsl
  rw [List.cons_append, rindex, h1]
  have : (c :: r).isPrefixOf (c :: (r ++ sl)) = true := by
    rw [List.isPrefixOf_iff_prefix]; exact ⟨sl, rfl⟩
  simp [this]

theorem rindex_pre (pre b sl : Str) (hb : Word b) (hsl : Slashes sl) :
    rindex b (pre ++ b ++ sl) = some pre.length := by
  induction pre with
  | nil => exact rindex_self b sl hb hsl
  | cons c r ih => rw [List.cons_append, List.cons_append, rindex, ih]; rfl

theorem chop_pre (pre b sl : Str) (hb : Word b) (hsl : Slashes sl) (hp : pre = [] ∨ pre.getLast? = some '/') :
    chop (pre ++ b ++ sl) = some (pre, b) := by
  unfold chop
  rw [base_pre pre b sl hb hsl hp, rindex_pre pre b sl hb hsl, if_neg]
  · simp
  · rintro (h | h)
    · exact hb.1 h
    · rw [h] at hb; exact hb.2 (by simp)

theorem chop_slashes (s : Str) (h : Slashes s) : chop s = none := by
  unfold chop
  rw [base_slashes s h]
  split_ifs <;> simp_all

/-- the slashes at the beginning -/
def lead (s : Str) : Str := s.takeWhile (· == '/')

theorem lead_slashes (s : Str) : Slashes (lead s) := slashes_of_all _ List.all_takeWhile

theorem lead_of_slashes (s : Str) (h : Slashes s) : lead s = s := by
  unfold lead
  induction s with
  | nil => rfl
  | cons c r ih =>
    rw [h c List.mem_cons_self, List.takeWhile_cons_of_pos (by simp), ih (fun c hc => h c (List.mem_cons_of_mem _ hc))]

theorem lead_pre (pre b sl : Str) (hb : Word b) : lead (pre ++ b ++ sl) = lead pre := by
  unfold lead
  induction pre with
  | nil =>
    obtain ⟨c, r, rfl⟩ := List.exists_cons_of_ne_nil hb.1
    have : c ≠ '/' := by rintro rfl; exact hb.2 List.mem_cons_self
    rw [List.nil_append, List.cons_append, List.takeWhile_cons_of_neg (by simpa using this)]
    rfl
  | cons c r ih =>
    rw [List.cons_append, List.cons_append, List.takeWhile_cons, List.takeWhile_cons, ih]

theorem chopAll_eq (f : Nat) (s : Str) (ns : List Str) (hf : s.length < f) :
    chopAll f s ns = (lead s, names s ++ ns) := by
  induction f generalizing s ns with
  | zero => simp at hf
  | succ f ih =>
    rw [chopAll]
    rcases decompose s with hs | ⟨pre, b, sl, rfl, hb, hsl, hp⟩
    · rw [chop_slashes s hs, names_slashes s hs, lead_of_slashes s hs]; rfl
    · rw [chop_pre pre b sl hb hsl hp]
      simp only
      have : 0 < b.length := List.length_pos_iff.2 hb.1
      rw [ih pre (b :: ns) (by simp at hf; omega), lead_pre pre b sl hb, names_pre pre b sl hb hsl hp]
      simp

theorem splitNames_eq (s : Str) : splitNames s = (lead s, names s) := by
  unfold splitNames
  rw [chopAll_eq _ _ _ (by omega), List.append_nil]

theorem lead_ne (s : Str) : lead s ≠ [] ↔ Abs s := by
  unfold lead Abs
  cases s with
  | nil => simp
  | cons c r =>
    by_cases h : c = '/'
    · subst h; simp
    · rw [List.takeWhile_cons_of_neg (by simpa using h)]
      simp [h]

end Verif.PathName
