import Verif.Json.Complete
import Mathlib.Data.List.Induction

/-
  Hashes built key by key, and the completeness of the parser on values.
-/
namespace Verif.Json

/-! ### Hashes -/

theorem lookup_cons' {V : Type} (p : List Char × V) (m : List (List Char × V)) (q : List Char) :
    (p :: m).lookup q = if q = p.1 then some p.2 else m.lookup q := by
  rw [List.lookup_cons]
  by_cases h : q = p.1
  · simp [h]
  · rw [if_neg h, beq_false_of_ne h]

theorem insertKV_keys {F : Type} (m : List (List Char × JV F)) (k : List Char) (v : JV F) :
    (insertKV m k v).map (·.1) = if k ∈ m.map (·.1) then m.map (·.1) else m.map (·.1) ++ [k] := by
  induction m with
  | nil => simp [insertKV]
  | cons p m ih =>
    obtain ⟨k', v'⟩ := p
    unfold insertKV
    by_cases h : k' = k
    · simp [h]
    · rw [if_neg h]
      simp only [List.map_cons, ih, List.mem_cons]
      by_cases hk : k ∈ m.map (·.1)
      · simp [hk]
      · rw [if_neg hk, if_neg]
        · rfl
        · rintro (e | e)
          · exact h e.symm
          · exact hk e

theorem insertKV_lookup {F : Type} (m : List (List Char × JV F)) (k : List Char) (v : JV F) (q : List Char) :
    (insertKV m k v).lookup q = if q = k then some v else m.lookup q := by
  induction m with
  | nil =>
    simp only [insertKV, lookup_cons', List.lookup_nil]
  | cons p m ih =>
    obtain ⟨k', v'⟩ := p
    unfold insertKV
    by_cases h : k' = k
    · subst h
      rw [if_pos rfl]
      simp only [lookup_cons']
      by_cases hq : q = k'
      · simp [hq]
      · simp [hq]
    · rw [if_neg h]
      simp only [lookup_cons', ih]
      by_cases hq : q = k'
      · subst hq
        simp [h]
      · simp [hq]

/-- the parser's Hash for the pairs `kvs` -/
def build {F : Type} (kvs : List (List Char × JV F)) : List (List Char × JV F) :=
  kvs.foldl (fun m p => insertKV m p.1 p.2) []

theorem build_snoc {F : Type} (kvs : List (List Char × JV F)) (p : List Char × JV F) :
    build (kvs ++ [p]) = insertKV (build kvs) p.1 p.2 := by
  unfold build; rw [List.foldl_append]; rfl

theorem build_collapsed {F : Type} (kvs : List (List Char × JV F)) : Collapsed kvs (build kvs) := by
  induction kvs using List.reverseRecOn with
  | nil => exact ⟨rfl, fun _ => rfl⟩
  | append_singleton kvs p ih =>
    obtain ⟨h1, h2⟩ := ih
    refine ⟨?_, ?_⟩
    · rw [build_snoc, insertKV_keys, h1, List.map_append, List.reverse_append]
      simp only [List.map_cons, List.map_nil, List.reverse_cons, List.reverse_nil, List.nil_append,
        List.singleton_append, List.mem_reverse, List.mem_dedup]
      by_cases hm : p.1 ∈ kvs.map (·.1)
      · rw [if_pos hm, List.dedup_cons_of_mem (by simpa using hm)]
      · rw [if_neg hm, List.dedup_cons_of_notMem (by simpa using hm), List.reverse_cons]
    · intro q
      rw [build_snoc, insertKV_lookup, List.reverse_append]
      simp only [List.reverse_cons, List.reverse_nil, List.nil_append, List.singleton_append, lookup_cons', h2]

theorem lookup_none {V : Type} {m : List (List Char × V)} {k : List Char} (h : k ∉ m.map (·.1)) :
    m.lookup k = none := by
  induction m with
  | nil => rfl
  | cons p m ih =>
    simp only [List.map_cons, List.mem_cons, not_or] at h
    rw [lookup_cons', ih h.2]
    simp [h.1]

theorem keys_ext {V : Type} : ∀ {m m' : List (List Char × V)}, m.map (·.1) = m'.map (·.1) →
    (m.map (·.1)).Nodup → (∀ k, m.lookup k = m'.lookup k) → m = m'
  | [], [], _, _, _ => rfl
  | [], _ :: _, h, _, _ => by cases h
  | _ :: _, [], h, _, _ => by cases h
  | (k, v) :: m, (k', v') :: m', h, hn, hl => by
    simp only [List.map_cons, List.cons.injEq] at h
    obtain ⟨rfl, h⟩ := h
    simp only [List.map_cons, List.nodup_cons] at hn
    have h0 := hl k
    simp only [lookup_cons', if_true, Option.some.injEq] at h0
    subst h0
    have : m = m' := by
      apply keys_ext h hn.2
      intro q
      by_cases hq : q = k
      · subst hq
        rw [lookup_none hn.1, lookup_none (by rw [← h]; exact hn.1)]
      · have := hl q
        rw [lookup_cons', lookup_cons'] at this
        simpa [hq] using this
    rw [this]

theorem collapsed_unique {V : Type} {kvs m m' : List (List Char × V)} (h : Collapsed kvs m) (h' : Collapsed kvs m') :
    m = m' := by
  apply keys_ext (h.1.trans h'.1.symm)
  · rw [h.1, List.nodup_reverse]; exact List.nodup_dedup _
  · intro k; rw [h.2, h'.2]

theorem collapsed_eq {F : Type} {kvs m : List (List Char × JV F)} (h : Collapsed kvs m) : build kvs = m :=
  collapsed_unique (build_collapsed kvs) h

theorem lookup_reverse {V : Type} {m : List (List Char × V)} (h : (m.map (·.1)).Nodup) (q : List Char) :
    m.reverse.lookup q = m.lookup q := by
  induction m with
  | nil => rfl
  | cons p m ih =>
    obtain ⟨k, v⟩ := p
    simp only [List.map_cons, List.nodup_cons] at h
    rw [List.reverse_cons, List.lookup_append, ih h.2, lookup_cons']
    by_cases hq : q = k
    · subst hq
      rw [lookup_none h.1]; simp
    · rw [lookup_cons']
      simp [hq]

/-- pairs with distinct keys are kept as they are -/
theorem collapsed_self {V : Type} {m : List (List Char × V)} (h : (m.map (·.1)).Nodup) : Collapsed m m :=
  ⟨by rw [List.Nodup.dedup (List.nodup_reverse.mpr h), List.reverse_reverse], fun q => (lookup_reverse h q).symm⟩

/-! ### The first character of a value -/

theorem digs_head {ds : List Char} (h : Digs ds) : ∃ c cs, ds = c :: cs ∧ Dig c := by
  obtain ⟨hne, hd⟩ := h
  cases ds with
  | nil => exact absurd rfl hne
  | cons c cs => exact ⟨c, cs, rfl, hd c (by simp)⟩

theorem int_head {t : List Char} {i : Int} (h : IntTok t i) : ∃ c cs, t = c :: cs ∧ (c = '-' ∨ Dig c) := by
  cases h with
  | pos h => obtain ⟨c, cs, e, hd⟩ := digs_head h.1; exact ⟨c, cs, e, Or.inr hd⟩
  | neg h => exact ⟨_, _, rfl, Or.inl rfl⟩

theorem num_head {P : FloatIO} {t : List Char} {v : JV P.F} (h : NumF P t v) :
    ∃ c cs, t = c :: cs ∧ (c = '-' ∨ Dig c) := by
  cases h with
  | int h => exact int_head h
  | big h => exact int_head h
  | flo h =>
    obtain ⟨a, i, f, e, ha, -, -, -, rfl⟩ := h
    obtain ⟨c, cs, rfl, hc⟩ := int_head ha
    exact ⟨c, cs ++ f ++ e, by simp, hc⟩

theorem num_char {c : Char} (h : c = '-' ∨ Dig c) : Ascii c ∧ ∀ d : Char, Ascii d → d ≠ '-' → ¬ Dig d → B c ≠ B d := by
  have hc : Ascii c := by
    rcases h with rfl | h
    · exact ascii_lit
    · exact ascii_of_dig h
  refine ⟨hc, fun d hd h1 h2 e => ?_⟩
  rw [B_inj hc hd] at e
  subst e
  rcases h with h | h
  · exact h1 h
  · exact h2 h

theorem notDig {c : Char} (h : ¬ (48 ≤ c.toNat ∧ c.toNat ≤ 57) := by decide) : ¬ Dig c := h

theorem text_head {P : FloatIO} {S : List Char → List Char → Prop} {t : List Char} {v : JV P.F}
    (h : JText (NumF P) S t v) :
    ∃ c cs, t = c :: cs ∧ Ascii c ∧ isWs (B c) = false ∧ B c ≠ B ']' := by
  cases h with
  | null => exact ⟨'n', _, rfl, ascii_lit, rfl, by decide⟩
  | tru => exact ⟨'t', _, rfl, ascii_lit, rfl, by decide⟩
  | fals => exact ⟨'f', _, rfl, ascii_lit, rfl, by decide⟩
  | num h =>
    obtain ⟨c, cs, rfl, hc⟩ := num_head h
    obtain ⟨ha, hd⟩ := num_char hc
    refine ⟨c, cs, rfl, ha, ?_, hd _ ascii_lit (by decide) notDig⟩
    cases hw : isWs (B c) with
    | false => rfl
    | true =>
      exfalso
      rcases (isWs_B ha).mp hw with e | e | e | e <;> subst e <;>
        exact (hd _ ascii_lit (by decide) notDig) rfl
  | str => exact ⟨'"', _, rfl, ascii_lit, rfl, by decide⟩
  | arr0 => exact ⟨'[', _, rfl, ascii_lit, rfl, by decide⟩
  | arr => exact ⟨'[', _, rfl, ascii_lit, rfl, by decide⟩
  | obj0 => exact ⟨'{', _, rfl, ascii_lit, rfl, by decide⟩
  | obj => exact ⟨'{', _, rfl, ascii_lit, rfl, by decide⟩

/-! ### White space before a value -/

theorem skipWs_idem (s : List Byte) : skipWs (skipWs s) = skipWs s := by
  unfold skipWs
  induction s with
  | nil => rfl
  | cons b s ih =>
    cases h : isWs b with
    | true => rw [List.dropWhile_cons_of_pos h]; exact ih
    | false =>
      rw [List.dropWhile_cons_of_neg (by simp [h]), List.dropWhile_cons_of_neg (by simp [h])]

theorem pValue_skip (P : FloatIO) (n : Nat) (s : List Byte) : pValue P n (skipWs s) = pValue P n s := by
  cases n with
  | zero => rfl
  | succ n => simp only [pValue, skipWs_idem]

theorem pValue_ws (P : FloatIO) (n : Nat) {w : List Char} (h : Ws w) (s : List Byte) :
    pValue P n (utf8 w ++ s) = pValue P n s := by
  rw [← pValue_skip, skipWs_ws h, pValue_skip]

theorem pItems_skip {P : FloatIO} {n k : Nat} {acc : List (JV P.F)} {s : List Byte} :
    pItems (pValue P n) k acc (skipWs s) = pItems (pValue P n) k acc s := by
  cases k with
  | zero => rfl
  | succ k => simp only [pItems, pValue_skip]

theorem pKey_skip (s : List Byte) : pKey (skipWs s) = pKey s := by
  unfold pKey; rw [skipWs_idem]

theorem pKey_ws {w : List Char} (h : Ws w) (s : List Byte) : pKey (utf8 w ++ s) = pKey s := by
  rw [← pKey_skip, skipWs_ws h, pKey_skip]

theorem pPairs_skip {F : Type} {pv : PV F} {k : Nat} {acc : List (List Char × JV F)} {s : List Byte} :
    pPairs pv k acc (skipWs s) = pPairs pv k acc s := by
  cases k with
  | zero => rfl
  | succ k => simp only [pPairs, pKey_skip]

theorem stop_ws {w : List Char} (h : Ws w) {s : List Byte} (hs : Stop s) : Stop (utf8 w ++ s) := by
  cases w with
  | nil => exact hs
  | cons c cs =>
    rw [utf8_cons_ascii (ws_ascii h c (by simp))]
    intro b hb
    simp only [List.cons_append, List.head?_cons, Option.mem_def, Option.some.injEq] at hb
    subst hb
    rcases h c (by simp) with e | e | e | e <;> subst e <;> decide

theorem stop_nil : Stop [] := by intro b hb; cases hb

theorem stop_lit {b : Byte} {r : List Byte} (h : isDigit b = false ∧ b ≠ B '.' ∧ b ≠ B 'e' ∧ b ≠ B 'E' := by decide) :
    Stop (b :: r) := by
  intro x hx
  simp only [List.head?_cons, Option.mem_def, Option.some.injEq] at hx
  subst hx; exact h

/-! ### Values -/

theorem pValue_num (P : FloatIO) (n : Nat) {c : Char} (h : c = '-' ∨ Dig c) (r : List Byte) :
    pValue P (n + 1) (B c :: r) = pNumber P (B c :: r) := by
  obtain ⟨ha, hd⟩ := num_char h
  have hw : isWs (B c) = false := by
    cases hw : isWs (B c) with
    | false => rfl
    | true =>
      exfalso
      rcases (isWs_B ha).mp hw with e | e | e | e <;> subst e <;>
        exact (hd _ ascii_lit (by decide) notDig) rfl
  have hn : B c = B '-' ∨ isDigit (B c) = true := by
    rcases h with rfl | h
    · exact Or.inl rfl
    · exact Or.inr ((isDigit_B ha).mpr h)
  simp only [pValue, skipWs_stop hw]
  rw [if_neg (hd '"' ascii_lit (by decide) notDig), if_neg (hd '{' ascii_lit (by decide) notDig),
    if_neg (hd '[' ascii_lit (by decide) notDig), if_neg (hd 't' ascii_lit (by decide) notDig),
    if_neg (hd 'f' ascii_lit (by decide) notDig), if_neg (hd 'n' ascii_lit (by decide) notDig), if_pos hn]

theorem pKey_ok {b s w : List Char} (hs : JStr b s) (hw : Ws w) (r : List Byte) :
    pKey (B '"' :: (utf8 b ++ B '"' :: (utf8 w ++ B ':' :: r))) = some (s, r) := by
  unfold pKey
  rw [skipWs_stop rfl]
  simp only [if_true, pString_ok hs, skipWs_ws hw]
  rw [skipWs_stop rfl]
  simp

theorem items_head {P : FloatIO} {S : List Char → List Char → Prop} {t : List Char} {vs : List (JV P.F)}
    (h : JItems (NumF P) S t vs) (s : List Byte) : ∃ b r, skipWs (utf8 t ++ s) = b :: r ∧ b ≠ B ']' := by
  cases h with
  | one hw hw' ht =>
    obtain ⟨c, cs, rfl, ha, h1, h2⟩ := text_head ht
    rw [utf8_append, List.append_assoc, skipWs_ws hw, List.cons_append, utf8_cons_ascii ha, List.cons_append,
      skipWs_stop h1]
    exact ⟨_, _, rfl, h2⟩
  | cons hw hw' ht _ =>
    obtain ⟨c, cs, rfl, ha, h1, h2⟩ := text_head ht
    rw [utf8_append, List.append_assoc, skipWs_ws hw, List.cons_append, utf8_cons_ascii ha, List.cons_append,
      skipWs_stop h1]
    exact ⟨_, _, rfl, h2⟩

theorem pairs_head {F : Type} {N : List Char → JV F → Prop} {S : List Char → List Char → Prop} {t : List Char}
    {kvs : List (List Char × JV F)} (h : JPairs N S t kvs) (s : List Byte) :
    ∃ b r, skipWs (utf8 t ++ s) = b :: r ∧ b ≠ B '}' := by
  cases h with
  | one hw =>
    rw [utf8_append, List.append_assoc, skipWs_ws hw, utf8_cons_ascii ascii_lit, List.cons_append,
      skipWs_stop rfl]
    exact ⟨_, _, rfl, by decide⟩
  | cons hw =>
    rw [utf8_append, List.append_assoc, skipWs_ws hw, utf8_cons_ascii ascii_lit, List.cons_append,
      skipWs_stop rfl]
    exact ⟨_, _, rfl, by decide⟩

mutual
theorem text_ok {P : FloatIO} {t : List Char} {v : JV P.F} : JText (NumF P) JStr t v →
    ∀ {n : Nat} {rest : List Byte}, t.length ≤ n → Stop rest → pValue P n (utf8 t ++ rest) = some (v, rest)
  | .null, n, rest, hn, hr => by
    cases n with
    | zero => exact absurd hn (by decide)
    | succ n => rfl
  | .tru, n, rest, hn, hr => by
    cases n with
    | zero => exact absurd hn (by decide)
    | succ n => rfl
  | .fals, n, rest, hn, hr => by
    cases n with
    | zero => exact absurd hn (by decide)
    | succ n => rfl
  | .num h, n, rest, hn, hr => by
    have hnum := pNumber_ok P h hr
    obtain ⟨c, cs, rfl, hc⟩ := num_head h
    cases n with
    | zero => exact absurd hn (by simp)
    | succ n =>
      rw [utf8_cons_ascii (num_char hc).1, List.cons_append] at hnum ⊢
      rw [pValue_num P n hc, hnum]
  | .str h, n, rest, hn, hr => by
    cases n with
    | zero => exact absurd hn (by simp)
    | succ n =>
      rw [utf8_cons_ascii ascii_lit, utf8_append, utf8_cons_ascii ascii_lit, utf8_nil]
      simp only [List.cons_append, List.append_assoc, List.nil_append, pValue]
      rw [skipWs_stop rfl]
      simp only [if_true, pString_ok h]
      rfl
  | .arr0 hw, n, rest, hn, hr => by
    cases n with
    | zero => exact absurd hn (by simp)
    | succ n =>
      rw [utf8_cons_ascii ascii_lit, utf8_append, utf8_cons_ascii ascii_lit, utf8_nil]
      simp only [List.cons_append, List.append_assoc, List.nil_append, pValue]
      rw [skipWs_stop rfl]
      simp only [if_neg (show B '[' ≠ B '"' by decide), if_neg (show B '[' ≠ B '{' by decide), if_true, pArray,
        skipWs_ws hw]
      rw [skipWs_stop rfl]
      simp
  | .arr h, n, rest, hn, hr => by
    cases n with
    | zero => exact absurd hn (by simp)
    | succ n =>
      rename_i t' vs
      simp only [List.length_cons, List.length_append, List.length_nil] at hn
      rw [utf8_cons_ascii ascii_lit, utf8_append, utf8_cons_ascii ascii_lit, utf8_nil]
      simp only [List.cons_append, List.append_assoc, List.nil_append, pValue]
      rw [skipWs_stop rfl]
      simp only [if_neg (show B '[' ≠ B '"' by decide), if_neg (show B '[' ≠ B '{' by decide), if_true, pArray]
      obtain ⟨b, r, hs, hb⟩ := items_head h (B ']' :: rest)
      have hl := utf8_length t'
      have := items_ok h (n := n) (k := (utf8 t' ++ B ']' :: rest).length + 1) (acc := []) (rest := rest) (by omega)
        (by simp only [List.length_append, List.length_cons]; omega)
      rw [← pItems_skip, hs] at this
      rw [hs]
      simp only [if_neg hb]
      exact this
  | .obj0 hw, n, rest, hn, hr => by
    cases n with
    | zero => exact absurd hn (by simp)
    | succ n =>
      rw [utf8_cons_ascii ascii_lit, utf8_append, utf8_cons_ascii ascii_lit, utf8_nil]
      simp only [List.cons_append, List.append_assoc, List.nil_append, pValue]
      rw [skipWs_stop rfl]
      simp only [if_neg (show B '{' ≠ B '"' by decide), if_true, pObject, skipWs_ws hw]
      rw [skipWs_stop rfl]
      simp
  | .obj h hc, n, rest, hn, hr => by
    cases n with
    | zero => exact absurd hn (by simp)
    | succ n =>
      rename_i t' kvs m
      simp only [List.length_cons, List.length_append, List.length_nil] at hn
      rw [utf8_cons_ascii ascii_lit, utf8_append, utf8_cons_ascii ascii_lit, utf8_nil]
      simp only [List.cons_append, List.append_assoc, List.nil_append, pValue]
      rw [skipWs_stop rfl]
      simp only [if_neg (show B '{' ≠ B '"' by decide), if_true, pObject]
      obtain ⟨b, r, hs, hb⟩ := pairs_head h (B '}' :: rest)
      have hl := utf8_length t'
      have := pairs_ok h (n := n) (k := (utf8 t' ++ B '}' :: rest).length + 1) (pre := []) (rest := rest) (by omega)
        (by simp only [List.length_append, List.length_cons]; omega)
      rw [← pPairs_skip, hs] at this
      rw [hs]
      simp only [if_neg hb]
      rw [List.nil_append, collapsed_eq hc] at this
      exact this

theorem items_ok {P : FloatIO} {t : List Char} {vs : List (JV P.F)} : JItems (NumF P) JStr t vs →
    ∀ {n k : Nat} {acc : List (JV P.F)} {rest : List Byte}, t.length ≤ n → t.length < k →
      pItems (pValue P n) k acc (utf8 t ++ B ']' :: rest) = some (.arr (acc ++ vs), rest)
  | .one hw hw' ht, n, k, acc, rest, hn, hk => by
    cases k with
    | zero => exact absurd hk (by omega)
    | succ k =>
      simp only [List.length_append] at hn hk
      simp only [utf8_append, List.append_assoc, pItems]
      rw [pValue_ws P n hw, text_ok ht (by omega) (stop_ws hw' stop_lit)]
      simp only
      rw [skipWs_ws hw', skipWs_stop rfl]
      simp only [if_neg (show B ']' ≠ B ',' by decide), if_true]
  | .cons hw hw' ht hr, n, k, acc, rest, hn, hk => by
    cases k with
    | zero => exact absurd hk (by omega)
    | succ k =>
      simp only [List.length_append, List.length_cons] at hn hk
      simp only [utf8_append, List.append_assoc, pItems]
      rw [utf8_cons_ascii ascii_lit, List.cons_append, pValue_ws P n hw,
        text_ok ht (by omega) (stop_ws hw' stop_lit)]
      simp only
      rw [skipWs_ws hw', skipWs_stop rfl]
      simp only [if_true]
      rw [items_ok hr (by omega) (by omega)]
      simp

theorem pairs_ok {P : FloatIO} {t : List Char} {kvs : List (List Char × JV P.F)} : JPairs (NumF P) JStr t kvs →
    ∀ {n k : Nat} {pre : List (List Char × JV P.F)} {rest : List Byte}, t.length ≤ n → t.length < k →
      pPairs (pValue P n) k (build pre) (utf8 t ++ B '}' :: rest) = some (.obj (build (pre ++ kvs)), rest)
  | .one hw hw' hw'' hw3 hs ht, n, k, pre, rest, hn, hk => by
    cases k with
    | zero => exact absurd hk (by omega)
    | succ k =>
      simp only [List.length_append, List.length_cons] at hn hk
      simp only [utf8_append, utf8_cons_ascii (ascii_lit : Ascii '"'), utf8_cons_ascii (ascii_lit : Ascii ':'),
        List.append_assoc, List.cons_append, pPairs]
      rw [pKey_ws hw, pKey_ok hs hw']
      simp only
      rw [pValue_ws P n hw'', text_ok ht (by omega) (stop_ws hw3 stop_lit)]
      simp only
      rw [skipWs_ws hw3, skipWs_stop rfl]
      simp only [if_neg (show B '}' ≠ B ',' by decide), if_true, build_snoc]
  | .cons hw hw' hw'' hw3 hs ht hr, n, k, pre, rest, hn, hk => by
    cases k with
    | zero => exact absurd hk (by omega)
    | succ k =>
      rename_i s _ _ v kvs
      simp only [List.length_append, List.length_cons] at hn hk
      simp only [utf8_append, utf8_cons_ascii (ascii_lit : Ascii '"'), utf8_cons_ascii (ascii_lit : Ascii ':'),
        utf8_cons_ascii (ascii_lit : Ascii ','), List.append_assoc, List.cons_append, pPairs]
      rw [pKey_ws hw, pKey_ok hs hw']
      simp only
      rw [pValue_ws P n hw'', text_ok ht (by omega) (stop_ws hw3 stop_lit)]
      simp only
      rw [skipWs_ws hw3, skipWs_stop rfl]
      simp only [if_true]
      have := pairs_ok hr (n := n) (k := k) (pre := pre ++ [(s, v)]) (rest := rest) (by omega) (by omega)
      rw [build_snoc] at this
      rw [this, List.append_assoc]
      rfl
end

end Verif.Json
