import Verif.Cause.Message
/-!
# What the report of an exception says (C161)
-/

namespace Verif.Cause

theorem pieces_ne (s : Str) : pieces s ≠ [] := by
  cases s with
  | nil => simp [pieces]
  | cons c cs =>
    simp only [pieces]
    split
    · simp
    · split <;> simp

theorem joinNl_cons (p : Str) {ps : List Str} (h : ps ≠ []) :
    joinNl (p :: ps) = p ++ '\n' :: joinNl ps := by
  cases ps with
  | nil => exact absurd rfl h
  | cons a l => rfl

theorem pieces_no_nl (s : Str) : ∀ p ∈ pieces s, '\n' ∉ p := by
  induction s with
  | nil => simp [pieces]
  | cons c cs ih =>
    simp only [pieces]
    split
    · simpa using ih
    · rename_i hc
      cases hp : pieces cs with
      | nil => exact absurd hp (pieces_ne cs)
      | cons p ps =>
        simp only [hp, List.mem_cons, forall_eq_or_imp] at ih ⊢
        refine ⟨?_, ih.2⟩
        rintro (h | h)
        · exact hc h.symm
        · exact ih.1 h

theorem join_pieces (s : Str) : joinNl (pieces s) = s := by
  induction s with
  | nil => rfl
  | cons c cs ih =>
    simp only [pieces]
    split
    · rename_i hc
      rw [joinNl_cons _ (pieces_ne cs), ih, hc]; rfl
    · cases hp : pieces cs with
      | nil => exact absurd hp (pieces_ne cs)
      | cons p ps =>
        rw [hp] at ih
        simp only
        cases ps with
        | nil => simp only [joinNl] at ih ⊢; rw [ih]
        | cons q qs =>
          rw [joinNl_cons _ (by simp)] at ih ⊢
          rw [← ih]; rfl

theorem restLine_false : restLine false = id := by funext l; simp [restLine]

/-- C161.  Without highlighting the message is kept as it is; the name of the
class stands after its first line. -/
theorem C161_message {e : Exc} (hm : e.msg ≠ []) {n : Str} (hn : e.name = some n) :
    ∃ first rest, e.msg = first ++ rest ∧ '\n' ∉ first ∧ (rest = [] ∨ rest.head? = some '\n') ∧
      detailed false e = first ++ " (".toList ++ e.cls ++ ")".toList ++ rest := by
  have hj := join_pieces e.msg
  cases hp : pieces e.msg with
  | nil => exact absurd hp (pieces_ne _)
  | cons p ps =>
    have hno : '\n' ∉ p := pieces_no_nl e.msg p (by simp [hp])
    rw [hp] at hj
    have he : e.msg.isEmpty = false := by simpa using hm
    cases ps with
    | nil =>
      refine ⟨p, [], by simpa [joinNl] using hj.symm, hno, .inl rfl, ?_⟩
      simp [detailed, he, hp, headLine, hn, joinNl]
    | cons q qs =>
      rw [joinNl_cons _ (by simp)] at hj
      refine ⟨p, '\n' :: joinNl (q :: qs), hj.symm, hno, .inr rfl, ?_⟩
      simp only [detailed, he, hp, headLine, hn, restLine_false, List.map_id]
      rw [if_neg (by simp), if_neg (by simp), joinNl_cons _ (by simp)]

/-- What a terminal shows: escape sequences up to `m` are invisible. -/
def visible : Bool → Str → Str
  | _, [] => []
  | true, c :: cs => visible (c != 'm') cs
  | false, c :: cs => if c = esc then visible true cs else c :: visible false cs

theorem vis_plain {s : Str} (h : esc ∉ s) (t : Str) : visible false (s ++ t) = s ++ visible false t := by
  induction s with
  | nil => rfl
  | cons c cs ih =>
    simp only [List.mem_cons, not_or] at h
    have : c ≠ esc := fun e => h.1 e.symm
    simp [visible, this, ih h.2]

theorem vis_bold (t : Str) : visible false (bold ++ t) = visible false t := by
  simp [bold, visible, esc]
theorem vis_boldUnder (t : Str) : visible false (boldUnder ++ t) = visible false t := by
  simp [boldUnder, visible, esc]
theorem vis_off (t : Str) : visible false (off ++ t) = visible false t := by
  simp [off, visible, esc]

theorem vis_nl (t : Str) : visible false ('\n' :: t) = '\n' :: visible false t := by
  simp [visible, esc]

theorem vis_head {e : Exc} {p : Str} (h1 : esc ∉ p) (h2 : esc ∉ e.cls) (t : Str) :
    visible false (headLine true e p ++ t) = headLine false e p ++ visible false t := by
  cases hn : e.name with
  | none => simp [headLine, hn, vis_bold, vis_off, vis_plain h1]
  | some n =>
    have a : ∀ t, visible false (" (".toList ++ t) = " (".toList ++ visible false t :=
      fun t => vis_plain (by decide) t
    have b : ∀ t, visible false (")".toList ++ t) = ")".toList ++ visible false t :=
      fun t => vis_plain (by decide) t
    simp only [headLine, hn, if_true, List.append_assoc, vis_bold, vis_off, vis_boldUnder,
      vis_plain h1, vis_plain h2, a, b]
    simp

theorem vis_rest {p : Str} (h : esc ∉ p) (t : Str) :
    visible false (restLine true p ++ t) = p ++ visible false t := by
  cases p with
  | nil => simp [restLine]
  | cons c cs =>
    simp only [restLine, if_true, List.isEmpty_cons, Bool.false_eq_true, if_false, List.append_assoc,
      vis_bold, vis_plain h, vis_off]

theorem vis_join {ps : List Str} (h : ∀ p ∈ ps, esc ∉ p) (t : Str) :
    visible false (joinNl (ps.map (restLine true)) ++ t) = joinNl ps ++ visible false t := by
  induction ps with
  | nil => rfl
  | cons p ps ih =>
    cases ps with
    | nil => simpa [joinNl] using vis_rest (h p (by simp)) t
    | cons q qs =>
      have ih := ih fun x hx => h x (by simp [List.mem_cons.1 hx])
      rw [List.map_cons, joinNl_cons _ (by simp), joinNl_cons _ (by simp), List.append_assoc,
        vis_rest (h p (by simp)), List.cons_append, vis_nl, ih]
      simp

theorem pieces_sub (s : Str) : ∀ p ∈ pieces s, ∀ c ∈ p, c ∈ s := by
  induction s with
  | nil => simp [pieces]
  | cons a cs ih =>
    simp only [pieces]
    split
    · intro p hp c hc
      rcases List.mem_cons.1 hp with rfl | hp
      · simp at hc
      · exact List.mem_cons_of_mem _ (ih p hp c hc)
    · cases hq : pieces cs with
      | nil => exact absurd hq (pieces_ne cs)
      | cons q qs =>
        intro p hp c hc
        rw [hq] at ih
        rcases List.mem_cons.1 hp with rfl | hp
        · rcases List.mem_cons.1 hc with rfl | hc
          · simp
          · exact List.mem_cons_of_mem _ (ih q (by simp) c hc)
        · exact List.mem_cons_of_mem _ (ih p (by simp [hp]) c hc)

/-- No escape sequences of its own. -/
structure Exc.plain (e : Exc) : Prop where
  name : ∀ n, e.name = some n → esc ∉ n
  cls : esc ∉ e.cls
  msg : esc ∉ e.msg
  bt : ∀ l ∈ e.bt, esc ∉ l

theorem vis_detailed {e : Exc} (h : e.plain) (t : Str) :
    visible false (detailed true e ++ t) = detailed false e ++ visible false t := by
  by_cases hm : e.msg.isEmpty
  · simp only [detailed, hm, if_true, List.append_assoc, vis_boldUnder, Bool.false_eq_true, if_false]
    have hb : esc ∉ (if e.runtime then "unhandled exception".toList else e.name.getD e.cls) := by
      split
      · decide
      · cases hn : e.name with
        | none => exact h.cls
        | some n => exact h.name n hn
    rw [vis_plain hb, vis_off]
  · simp only [detailed, hm]
    cases hp : pieces e.msg with
    | nil => exact absurd hp (pieces_ne _)
    | cons p ps =>
      have hall : ∀ q ∈ p :: ps, esc ∉ q := fun q hq m =>
        h.msg (pieces_sub e.msg q (by rw [hp]; exact hq) esc m)
      have hps : ∀ q ∈ ps, esc ∉ q := fun q hq => hall q (by simp [hq])
      simp only [Bool.false_eq_true, if_false]
      cases ps with
      | nil => simpa [joinNl] using vis_head (hall p (by simp)) h.cls t
      | cons q qs =>
        rw [joinNl_cons _ (by simp), joinNl_cons _ (by simp), List.append_assoc,
          vis_head (hall p (by simp)) h.cls, List.cons_append, vis_nl, vis_join hps,
          restLine_false, List.map_id]
        simp

theorem vis_flatten {ls : List Str} (h : ∀ l ∈ ls, esc ∉ l) (t : Str) :
    visible false (ls.flatten ++ t) = ls.flatten ++ visible false t :=
  vis_plain (by simpa using h) t

theorem digits_plain (k : Nat) : esc ∉ (toString k).toList := by
  intro h
  have : (toString k).toList = Nat.toDigits 10 k := by simp [toString, Nat.repr]
  rw [this] at h
  have := Nat.isDigit_of_mem_toDigits (by omega) (by omega) h
  revert this; decide

theorem trailer_plain (k : Nat) : esc ∉ trailer k := by
  have := digits_plain k
  simp only [trailer, List.mem_append, not_or]
  exact ⟨⟨by decide, this⟩, by decide⟩

theorem numbered_plain {i : Nat} {ls : List Str} (h : ∀ l ∈ ls, esc ∉ l) :
    ∀ l ∈ numbered i ls, esc ∉ l := by
  induction ls generalizing i with
  | nil => simp [numbered]
  | cons a ls ih =>
    simp only [numbered, List.mem_cons, forall_eq_or_imp] at h ⊢
    refine ⟨?_, ih h.2⟩
    simp only [List.mem_append, not_or]
    exact ⟨⟨⟨⟨by decide, digits_plain i⟩, by decide⟩, h.1⟩, by decide⟩

theorem vis_nlStr (t : Str) : visible false ("\n".toList ++ t) = "\n".toList ++ visible false t :=
  vis_plain (by decide) t

theorem vis_one {e : Exc} (h : e.plain) (bottom : Bool) (limit : Option Nat) (t : Str) :
    visible false (one true bottom limit e ++ t) = one false bottom limit e ++ visible false t := by
  cases hb : e.bt with
  | nil => simp only [one, hb, List.append_assoc, vis_detailed h, vis_nlStr]
  | cons loc rest =>
    have hl := h.bt loc (by simp [hb])
    have hr : ∀ l ∈ rest, esc ∉ l := fun l hl => h.bt l (by simp [hb, hl])
    simp only [one, hb]
    have hs : ∀ l ∈ shownFrames limit rest, esc ∉ l := by
      intro l hl
      simp only [shownFrames] at hl
      split at hl
      · split at hl
        · exact hr l (List.mem_of_mem_take hl)
        · exact hr l hl
      · exact hr l hl
    have ht : ∀ l ∈ leftOut limit rest, esc ∉ l := by
      intro l hl
      simp only [leftOut] at hl
      split at hl
      · split at hl
        · rw [List.mem_singleton.1 hl]; exact trailer_plain _
        · simp at hl
      · simp at hl
    generalize shownFrames limit rest = shown at hs ⊢
    generalize leftOut limit rest = tr at ht ⊢
    have c1 : ∀ t, visible false (": ".toList ++ t) = ": ".toList ++ visible false t :=
      fun t => vis_plain (by decide) t
    have c2 : ∀ t, visible false ("Traceback".toList ++ t) = "Traceback".toList ++ visible false t :=
      fun t => vis_plain (by decide) t
    have c3 : ∀ t, visible false (" (most recent call last):\n".toList ++ t) =
      " (most recent call last):\n".toList ++ visible false t := fun t => vis_plain (by decide) t
    have c4 : "Traceback (most recent call last):\n".toList =
      "Traceback".toList ++ " (most recent call last):\n".toList := by decide
    cases bottom with
    | true =>
      have hf : ∀ l ∈ (numbered shown.length shown ++ tr).reverse, esc ∉ l := by
        intro l hl
        rcases List.mem_append.1 (List.mem_reverse.1 hl) with m | m
        · exact numbered_plain hs l m
        · exact ht l m
      simp only [if_true, List.append_assoc, vis_bold, vis_off, c1, c2, c3, vis_flatten hf,
        vis_plain hl, vis_detailed h, vis_nlStr, c4, Bool.false_eq_true, if_false]
    | false =>
      have hf : ∀ l ∈ shown.map (fun l => "\tfrom ".toList ++ l ++ "\n".toList) ++ tr, esc ∉ l := by
        intro l hl
        rcases List.mem_append.1 hl with m | m
        · obtain ⟨x, hx, rfl⟩ := List.mem_map.1 m
          simp only [List.mem_append, not_or]
          exact ⟨⟨by decide, hs x hx⟩, by decide⟩
        · exact ht l m
      have hv := vis_flatten hf
      generalize (shown.map (fun l => "\tfrom ".toList ++ l ++ "\n".toList) ++ tr).flatten = body
        at hv ⊢
      simp only [List.append_assoc, c1, Bool.false_eq_true, if_false,
        vis_plain hl, vis_detailed h, vis_nlStr, hv]

/-- C161.  Highlighting changes nothing that is visible. -/
theorem C161_highlight (bottom : Bool) (limit : Option Nat) (chain : List Exc)
    (h : ∀ e ∈ chain, e.plain) :
    visible false (full true bottom limit chain) = full false bottom limit chain := by
  induction chain generalizing bottom with
  | nil => rfl
  | cons e es ih =>
    simp only [full]
    rw [vis_one (h e (by simp)), ih false fun x hx => h x (by simp [hx])]

/-- The lines of the report of one exception: where and what, then the callers,
the nearest first, at most `limit` of them, and how many are left out. -/
def block (limit : Option Nat) (e : Exc) : List Str :=
  match e.bt with
  | [] => [detailed false e]
  | loc :: rest =>
    [loc ++ ": ".toList ++ detailed false e] ++
    (rest.take (limit.getD rest.length)).map ("\tfrom ".toList ++ ·) ++
    if rest.length ≤ limit.getD rest.length then [] else
      ["\t ... ".toList ++ (toString (rest.length - limit.getD rest.length)).toList ++
        " levels...".toList]

/-- Lines, each ended by a newline. -/
def unlines (ls : List Str) : Str := (ls.map (· ++ "\n".toList)).flatten

theorem one_top (limit : Option Nat) (e : Exc) : one false false limit e = unlines (block limit e) := by
  cases hb : e.bt with
  | nil => simp [one, block, hb, unlines]
  | cons loc rest =>
    have hu : ∀ l : List Str, (l.map (fun l => "\tfrom ".toList ++ l ++ "\n".toList)) =
        (l.map ("\tfrom ".toList ++ ·)).map (· ++ "\n".toList) := by
      intro l; simp [Function.comp_def]
    cases limit with
    | none =>
      simp only [one, shownFrames, leftOut, block, hb, unlines, Option.getD_none, Nat.le_refl, if_true, List.take_length,
        hu, List.append_nil, Bool.false_eq_true, if_false]
      simp
    | some n =>
      by_cases h : rest.length > n
      · have h' : ¬ rest.length ≤ n := by omega
        simp only [one, shownFrames, leftOut, block, hb, unlines, Option.getD_some, h, h', if_true, hu,
          Bool.false_eq_true, if_false, trailer]
        have : " levels...\n".toList = " levels...".toList ++ "\n".toList := by decide
        rw [this]
        simp
      · have h' : rest.length ≤ n := by omega
        simp only [one, shownFrames, leftOut, block, hb, unlines, Option.getD_some, h, h', if_true, hu,
          Bool.false_eq_true, if_false, List.take_of_length_le h']
        simp

theorem pieces_line {l : Str} (h : '\n' ∉ l) (t : Str) :
    pieces (l ++ '\n' :: t) = l :: pieces t := by
  induction l with
  | nil => simp [pieces]
  | cons c cs ih =>
    simp only [List.mem_cons, not_or] at h
    have : c ≠ '\n' := fun e => h.1 e.symm
    simp [pieces, this, ih h.2]

theorem pieces_unlines {ls : List Str} (h : ∀ l ∈ ls, '\n' ∉ l) (t : Str) :
    pieces (unlines ls ++ t) = ls ++ pieces t := by
  induction ls with
  | nil => rfl
  | cons l ls ih =>
    have ih := ih fun x hx => h x (by simp [hx])
    have : unlines (l :: ls) ++ t = l ++ '\n' :: (unlines ls ++ t) := by simp [unlines]
    rw [this, pieces_line (h l (by simp)), ih]; rfl

theorem full_top (limit : Option Nat) (chain : List Exc) :
    full false false limit chain = unlines (chain.flatMap (block limit)) := by
  induction chain with
  | nil => rfl
  | cons e es ih => simp [full, one_top, ih, unlines]

/-- C161.  The lines of the report are the lines of each exception of the chain
of causes, one after the other, and nothing else.  (When no message, class name
or frame contains a newline.) -/
theorem C161_top (limit : Option Nat) (chain : List Exc)
    (h : ∀ e ∈ chain, ∀ l ∈ block limit e, '\n' ∉ l) :
    pieces (full false false limit chain) = chain.flatMap (block limit) ++ [[]] := by
  have := pieces_unlines (ls := chain.flatMap (block limit)) (by
    intro l hl
    obtain ⟨e, he, hl⟩ := List.mem_flatMap.1 hl
    exact h e he l hl) []
  rw [full_top]
  simpa [pieces] using this

/-- C161.  Without a limit every frame of every exception is on a line of its
own; with a limit the lines shown and the number left out add up. -/
theorem C161_frames {e : Exc} {loc : Str} {rest : List Str} (hb : e.bt = loc :: rest) :
    (∀ l ∈ rest, "\tfrom ".toList ++ l ∈ block none e) ∧
    ∀ n, (block (some n) e).length = 1 + min n rest.length + if rest.length ≤ n then 0 else 1 := by
  constructor
  · intro l hl
    simp only [block, hb, Option.getD_none, List.take_length, Nat.le_refl, if_true]
    simp only [List.append_nil, List.mem_append, List.mem_map]
    exact .inr ⟨l, hl, rfl⟩
  · intro n
    simp only [block, hb, Option.getD_some]
    by_cases h : rest.length ≤ n <;> simp [h] <;> omega

/-- C161 (partial: the numbers are those of `C161_numbers_fails`).  With
`order: :bottom` the callers stand in the opposite order above the message. -/
theorem C161_bottom_partial {e : Exc} {loc : Str} {rest : List Str} (hb : e.bt = loc :: rest) :
    ∃ mid : List Str, mid.length = rest.length ∧
      one false true none e = "Traceback (most recent call last):\n".toList ++ mid.flatten ++
        (loc ++ ": ".toList ++ detailed false e ++ "\n".toList) ∧
      ∀ k, (hk : k < rest.length) → ∃ num : Nat,
        mid[rest.length - 1 - k]? = some ("\t".toList ++ (toString num).toList ++ ": from ".toList ++
          rest[k] ++ "\n".toList) := by
  have hlen : ∀ (ls : List Str) i, (numbered i ls).length = ls.length := by
    intro ls
    induction ls with
    | nil => simp [numbered]
    | cons a ls ih => intro i; simp [numbered, ih]
  have hget : ∀ (ls : List Str) i k, (hk : k < ls.length) → (numbered i ls)[k]? =
      some ("\t".toList ++ (toString (i - k)).toList ++ ": from ".toList ++ ls[k] ++ "\n".toList) := by
    intro ls
    induction ls with
    | nil => intro i k hk; simp at hk
    | cons a ls ih =>
      intro i k hk
      cases k with
      | zero => simp [numbered]
      | succ k =>
        have := ih (i - 1) k (by simpa using hk)
        simp only [numbered, List.getElem?_cons_succ, this, List.getElem_cons_succ]
        rw [show i - 1 - k = i - (k + 1) by omega]
  refine ⟨(numbered rest.length rest).reverse, by simp [hlen], by simp [one, shownFrames, leftOut, hb], fun k hk => ?_⟩
  refine ⟨rest.length - k, ?_⟩
  rw [List.getElem?_reverse (by rw [hlen]; omega), hlen,
    show rest.length - 1 - (rest.length - 1 - k) = k by omega]
  exact hget rest rest.length k hk

/-- C161 fails for the numbers with `order: :bottom`: each frame should carry its
distance from the line of the error (as the comment in the source says), but
they count the other way: `a` called by `b` called by `c`. -/
theorem C161_numbers_fails : one false true none
    ⟨some "E".toList, "E".toList, false, "m".toList, ["a".toList, "b".toList, "c".toList]⟩ =
    "Traceback (most recent call last):\n\t1: from c\n\t2: from b\na: m (E)\n".toList := by
  decide +kernel

/-- A chain of two exceptions, with two messages of two lines, and a limit. -/
example : full false false (some 1)
    [⟨some "E".toList, "E".toList, false, "m\nn".toList, ["a".toList, "b".toList, "c".toList]⟩,
     ⟨none, "#<Class:0x1>".toList, false, "x".toList, []⟩] =
    "a: m (E)\nn\n\tfrom b\n\t ... 1 levels...\nx\n".toList := by decide +kernel

example : (⟨some "E".toList, "E".toList, false, "m\nn".toList, ["a".toList]⟩ : Exc).plain where
  name n h := by cases h; decide
  cls := by decide
  msg := by decide
  bt := by decide

end Verif.Cause
