import Verif.Bop.Model

/-!
# Operators and their redefinition: lemmas
-/

namespace Verif.Bop

theorem search_append (tbl : Mod → Op → Option Entry) (o : Op) (l₁ l₂ : List Mod)
    (h : ∀ k ∈ l₁, tbl k o = none) : search tbl o (l₁ ++ l₂) = search tbl o l₂ := by
  induction l₁ with
  | nil => rfl
  | cons x xs ih =>
    simp only [List.cons_append, search, h x (by simp)]
    exact ih (fun k hk => h k (by simp [hk]))

theorem search_congr (t₁ t₂ : Mod → Op → Option Entry) (o : Op) (l : List Mod)
    (h : ∀ k ∈ l, t₁ k o = t₂ k o) : search t₁ o l = search t₂ o l := by
  induction l with
  | nil => rfl
  | cons x xs ih =>
    simp only [search, h x (by simp)]
    rw [ih (fun k hk => h k (by simp [hk]))]

/-- Only the part of the chain up to the first hit matters. -/
theorem search_congr_upto (t₁ t₂ : Mod → Op → Option Entry) (o : Op) (l₁ l₂ : List Mod) (k : Mod)
    (hk : k ∈ l₁) (hks : t₁ k o ≠ none) (h : ∀ j ∈ l₁, t₁ j o = t₂ j o) :
    search t₁ o (l₁ ++ l₂) = search t₂ o (l₁ ++ l₂) := by
  induction l₁ with
  | nil => simp at hk
  | cons x xs ih =>
    simp only [List.cons_append, search, ← h x (by simp)]
    cases hx : t₁ x o with
    | some e => rfl
    | none =>
      simp only
      have : k ∈ xs := by
        rcases List.mem_cons.1 hk with rfl | h'
        · exact absurd hx hks
        · exact h'
      exact ih this (fun j hj => h j (by simp [hj]))

theorem search_insertAfter (tbl : Mod → Op → Option Entry) (o : Op) (c m : Mod)
    (hm : tbl m o = none) (l : List Mod) : search tbl o (insertAfter c m l) = search tbl o l := by
  induction l with
  | nil => rfl
  | cons x xs ih =>
    unfold insertAfter
    split
    · simp [search, hm]
    · simp only [search, ih]

theorem search_insertBefore (tbl : Mod → Op → Option Entry) (o : Op) (c m : Mod)
    (hm : tbl m o = none) (l : List Mod) : search tbl o (insertBefore c m l) = search tbl o l := by
  induction l with
  | nil => rfl
  | cons x xs ih =>
    unfold insertBefore
    split
    · simp [search, hm]
    · simp only [search, ih]

theorem search_found (tbl : Mod → Op → Option Entry) (o : Op) (l : List Mod) (e : Entry)
    (h : search tbl o l = some e) : ∃ m ∈ l, tbl m o = some e := by
  induction l with
  | nil => simp [search] at h
  | cons x xs ih =>
    simp only [search] at h
    cases hx : tbl x o with
    | some e' =>
      rw [hx] at h
      simp only [Option.some.injEq] at h
      exact ⟨x, by simp, by rw [hx, h]⟩
    | none =>
      rw [hx] at h
      obtain ⟨m, hm, he⟩ := ih h
      exact ⟨m, by simp [hm], he⟩

/-- An action that the redefinition table can see, or that does not matter.

A change to the method table of `m` is seen when `m` is the tracked class
itself; it does not matter for a class that does not have `m` among its
ancestors, or that finds the operator before it comes to `m`. -/
def Seen (w : World) (m : Mod) (o : Op) : Prop :=
  ∀ c, (c, o) ∈ tracked →
    m = c ∨ m ∉ w.anc c ∨
      ∃ l₁ l₂, w.anc c = l₁ ++ m :: l₂ ∧ m ∉ l₁ ∧ m ∉ l₂ ∧ ∃ k ∈ l₁, w.tbl k o ≠ none

/-- The actions of C106's partial theorem: method tables change where it is
seen, visibility of operators stays, modules without operators are included or
prepended anywhere, new classes are new. -/
def Benign (w : World) : Act → Prop
  | .define m o _ | .undef m o | .remove m o => Seen w m o
  | .visibility _ _ _ => False
  | .incl _ m | .prep _ m => ∀ o, w.tbl m o = none
  | .derive c _ => METHOD < c ∧ (∀ o, w.tbl c o = none)

/-- Every action of a program is benign when it happens. -/
def BenignRun (w : World) : List Act → Prop
  | [] => True
  | a :: rest => Benign w a ∧ BenignRun (act w a) rest

/-- What holds at every point of such a program. -/
structure Inv (w : World) : Prop where
  keep : ∀ c o, (c, o) ∈ tracked → (c, o) ∈ w.redef ∨ lookup w c o = lookup boot c o
  bit : ∀ o, vmOp o = true → (INTEGER, o) ∈ w.redef → o ∈ w.flags
  pub : ∀ m o e, w.tbl m o = some e → e.priv = false
  own : ∀ m o m' o' p, w.tbl m o = some ⟨some (.builtin m' o'), p⟩ → m' = m ∧ o' = o
  only : ∀ p ∈ w.redef, p ∈ tracked

theorem inv_boot : Inv boot where
  keep := fun _ _ _ => Or.inr rfl
  bit := by intro o _ h; simp [boot] at h
  pub := by
    intro m o e h
    simp only [boot, bootTbl] at h
    split at h
    · simp only [Option.some.injEq] at h; rw [← h]
    · cases h
  own := by
    intro m o m' o' p h
    simp only [boot, bootTbl] at h
    split at h
    · simp only [Option.some.injEq, Entry.mk.injEq, Impl.builtin.injEq] at h
      exact ⟨h.1.1.symm, h.1.2.symm⟩
    · cases h
  only := by simp [boot]

theorem mark_tbl (w : World) (c : Mod) (o : Op) : (mark w c o).tbl = w.tbl := by
  unfold mark; split <;> rfl

theorem mark_anc (w : World) (c : Mod) (o : Op) : (mark w c o).anc = w.anc := by
  unfold mark; split <;> rfl

theorem mark_mono (w : World) (c : Mod) (o : Op) (p : Mod × Op) (h : p ∈ w.redef) :
    p ∈ (mark w c o).redef := by
  unfold mark; split
  · exact List.mem_cons_of_mem _ h
  · exact h

theorem mark_self (w : World) (c : Mod) (o : Op) (h : (c, o) ∈ tracked) :
    (c, o) ∈ (mark w c o).redef := by
  unfold mark; rw [if_pos h]; simp

/-- A change of one entry that is marked keeps the invariant. -/
theorem inv_entry (w w' : World) (m : Mod) (o : Op) (e : Option Entry) (hi : Inv w)
    (hs : Seen w m o) (ht : w'.tbl = (setEntry w m o e).tbl) (ha : w'.anc = w.anc)
    (hr : w'.redef = (mark w m o).redef) (hf : w'.flags = (mark w m o).flags)
    (hp : ∀ x, e = some x → x.priv = false ∧ (x.impl = none ∨ ∃ n, x.impl = some (.user n))) :
    Inv w' where
  keep := by
    intro c o' hc
    rw [hr]
    rcases hi.keep c o' hc with h | h
    · exact Or.inl (mark_mono w m o _ h)
    · by_cases ho : o' = o
      · subst ho
        rcases hs c hc with rfl | hn | ⟨l₁, l₂, hl, hm₁, hm₂, k, hk, hks⟩
        · exact Or.inl (mark_self w _ _ hc)
        · right
          rw [← h]
          unfold lookup
          rw [ha, ht]
          apply search_congr
          intro k hk
          unfold setEntry
          simp only
          rw [if_neg]
          rintro ⟨rfl, -⟩
          exact hn hk
        · right
          rw [← h]
          unfold lookup
          rw [ha, ht, hl]
          symm
          apply search_congr_upto _ _ _ _ _ k hk hks
          intro j hj
          unfold setEntry
          simp only
          rw [if_neg]
          rintro ⟨rfl, -⟩
          exact hm₁ hj
      · right
        rw [← h]
        unfold lookup
        rw [ha, ht]
        apply search_congr
        intro k _
        unfold setEntry
        simp only
        rw [if_neg]
        rintro ⟨-, h⟩
        exact ho h
  bit := by
    intro o' hv h
    rw [hr] at h
    rw [hf]
    unfold mark at h ⊢
    split at h
    · rename_i htr
      rw [if_pos htr]
      simp only [List.mem_cons, Prod.mk.injEq] at h
      simp only
      rcases h with ⟨h1, h2⟩ | h
      · subst h2
        rw [if_pos ⟨h1.symm, hv⟩]
        simp
      · have := hi.bit o' hv h
        split
        · exact List.mem_cons_of_mem _ this
        · exact this
    · rename_i htr
      rw [if_neg htr]
      exact hi.bit o' hv h
  pub := by
    intro m' o' x hx
    rw [ht] at hx
    unfold setEntry at hx
    simp only at hx
    split at hx
    · exact (hp x hx).1
    · exact hi.pub _ _ _ hx
  own := by
    intro m' o' m'' o'' p hx
    rw [ht] at hx
    unfold setEntry at hx
    simp only at hx
    split at hx
    · rcases (hp _ hx).2 with h | ⟨n, h⟩ <;> simp at h
    · exact hi.own _ _ _ _ _ hx
  only := by
    intro p hp'
    rw [hr] at hp'
    unfold mark at hp'
    split at hp'
    · rename_i htr
      simp only [List.mem_cons] at hp'
      rcases hp' with rfl | h
      · exact htr
      · exact hi.only p h
    · exact hi.only p hp'

theorem mark_setEntry_redef (w : World) (m : Mod) (o : Op) (e : Option Entry) :
    (mark (setEntry w m o e) m o).redef = (mark w m o).redef := by
  unfold mark setEntry; split <;> rfl

theorem mark_setEntry_flags (w : World) (m : Mod) (o : Op) (e : Option Entry) :
    (mark (setEntry w m o e) m o).flags = (mark w m o).flags := by
  unfold mark setEntry; split <;> rfl

theorem tracked_small : ∀ p ∈ tracked, p.1 ≤ METHOD := by decide

theorem inv_act (w : World) (a : Act) (hi : Inv w) (hb : Benign w a) : Inv (act w a) := by
  cases a with
  | define m o n =>
    refine inv_entry w _ m o (some ⟨some (.user n), false⟩) hi hb ?_ ?_ ?_ ?_ ?_
    · simp only [act, insertMethod, mark_tbl]
    · simp only [act, insertMethod, mark_anc]; rfl
    · exact mark_setEntry_redef ..
    · exact mark_setEntry_flags ..
    · intro x hx; cases hx; exact ⟨rfl, Or.inr ⟨n, rfl⟩⟩
  | undef m o =>
    refine inv_entry w _ m o (some ⟨none, false⟩) hi hb ?_ ?_ ?_ ?_ ?_
    · simp only [act, insertMethod, mark_tbl]
    · simp only [act, insertMethod, mark_anc]; rfl
    · exact mark_setEntry_redef ..
    · exact mark_setEntry_flags ..
    · intro x hx; cases hx; exact ⟨rfl, Or.inl rfl⟩
  | remove m o =>
    refine inv_entry w _ m o none hi hb ?_ ?_ ?_ ?_ ?_
    · simp only [act, setEntry, mark_tbl]
    · simp only [act, setEntry, mark_anc]
    · rfl
    · rfl
    · intro x hx; cases hx
  | visibility m o p => exact absurd hb (by simp [Benign])
  | incl c m =>
    refine ⟨?_, hi.bit, hi.pub, hi.own, hi.only⟩
    intro k o hk
    rcases hi.keep k o hk with h | h
    · exact Or.inl h
    · right
      rw [← h]
      simp only [lookup, act]
      split
      · rfl
      · exact search_insertAfter _ _ _ _ (hb o) _
  | prep c m =>
    refine ⟨?_, hi.bit, hi.pub, hi.own, hi.only⟩
    intro k o hk
    rcases hi.keep k o hk with h | h
    · exact Or.inl h
    · right
      rw [← h]
      simp only [lookup, act]
      split
      · rfl
      · exact search_insertBefore _ _ _ _ (hb o) _
  | derive c parent =>
    refine ⟨?_, hi.bit, hi.pub, hi.own, hi.only⟩
    intro k o hk
    rcases hi.keep k o hk with h | h
    · exact Or.inl h
    · right
      rw [← h]
      simp only [lookup, act]
      have : k ≠ c := by
        intro hkc
        have h1 := tracked_small _ hk
        have h2 := hb.1
        subst hkc
        exact absurd h1 (Nat.not_le.2 h2)
      rw [if_neg this]

theorem inv_acts (w : World) (l : List Act) (hi : Inv w) (hb : BenignRun w l) : Inv (acts w l) := by
  induction l generalizing w with
  | nil => exact hi
  | cons a rest ih => exact ih _ (inv_act w a hi hb.1) hb.2

/-! ## Answers in a world satisfying the invariant -/

/-- Nothing is private, so `self` receivers make no difference. -/
theorem resolve_fcall {w : World} (hi : Inv w) (f g : Bool) (c : Mod) (o : Op) :
    resolve f (lookup w c o) = resolve g (lookup w c o) := by
  cases hl : lookup w c o with
  | none => rfl
  | some e =>
    obtain ⟨m, -, hm⟩ := search_found _ _ _ _ hl
    have := hi.pub _ _ _ hm
    obtain ⟨i, p⟩ := e
    simp only at this
    subst this
    cases i with
    | none => rfl
    | some i => simp [resolve]

/-- A native answer always belongs to a tracked pair of the receiver's core
class. -/
theorem rawNative_tracked (o : Op) (t : Tag) (h : rawNative o t = true) :
    (coreClass t, o) ∈ tracked := by
  cases o <;> cases t <;> first | (exact absurd h (by decide)) | decide

theorem asm_tracked (o : Op) (h : vmOp o = true) : (INTEGER, o) ∈ tracked := by
  cases o <;> first | (exact absurd h (by decide)) | decide

/-- The value is an instance of its core class itself, if it has a tag that is
answered by tag. -/
def Exact (v : Val) : Prop :=
  v.tag = .other ∨ v.tag = .array ∨ v.tag = .hash ∨ v.cls = coreClass v.tag

theorem rawNative_exact (o : Op) (v : Val) (hx : Exact v) (h : rawNative o v.tag = true) :
    v.cls = coreClass v.tag := by
  rcases hx with h' | h' | h' | h'
  · rw [h'] at h; cases o <;> exact absurd h (by decide)
  · rw [h'] at h; cases o <;> exact absurd h (by decide)
  · rw [h'] at h; cases o <;> exact absurd h (by decide)
  · exact h'

theorem guarded_ok {w : World} (hi : Inv w) (f g : Bool) (v : Val) (o : Op) (hx : Exact v) :
    guarded w f v o = resolve g (lookup w v.cls o) := by
  unfold guarded
  split
  · exact resolve_fcall hi ..
  · rename_i hr
    split
    · rename_i hn
      have hc := rawNative_exact o v hx hn
      have ht := rawNative_tracked o v.tag hn
      rw [← hc] at ht
      rcases hi.keep _ _ ht with h | h
      · exact absurd h hr
      · unfold native
        rw [← hc, ← h]
        exact resolve_fcall hi ..
    · exact resolve_fcall hi ..

/-- An entry that leads to a builtin `!=` is only found when looking for `!=`. -/
theorem builtin_name {w : World} (hi : Inv w) (f : Bool) (c : Mod) (o : Op) (m : Mod) (o' : Op)
    (h : resolve f (lookup w c o) = .impl (.builtin m o')) : o' = o := by
  cases hl : lookup w c o with
  | none => rw [hl] at h; cases h
  | some e =>
    rw [hl] at h
    obtain ⟨k, -, hk⟩ := search_found _ _ _ _ hl
    obtain ⟨i, p⟩ := e
    cases i with
    | none => cases h
    | some i =>
      simp only [resolve] at h
      split at h
      · cases h
      · cases h
        exact (hi.own _ _ _ _ _ hk).2

theorem rubyOp_ne_ne {w : World} (hi : Inv w) (f : Bool) (v : Val) (o : Op) (ho : o ≠ .ne) :
    rubyOp w f v o = resolve f (lookup w v.cls o) := by
  unfold rubyOp
  split
  · rename_i m h
    exact absurd (builtin_name hi f _ _ _ _ h).symm ho
  · rfl

theorem asmHit_iff (w : World) (o : Op) (v r : Val) (fits : Bool) (h : asmHit w o v r fits = true) :
    vmOp o = true ∧ v.tag = .fixnum ∧ (unary o = true ∨ r.tag = .fixnum) ∧ o ∉ w.flags := by
  unfold asmHit at h
  simp only [Bool.and_eq_true, Bool.or_eq_true, decide_eq_true_eq, Bool.not_eq_true',
    List.contains_eq_mem, decide_eq_false_iff_not] at h
  exact ⟨h.1.1.1.1, h.1.1.1.2, h.1.1.2, h.2⟩

/-- Operators other than `!=`. -/
theorem evalOp_ok {w : World} (hi : Inv w) (f : Bool) (v r : Val) (fits : Bool) (o : Op)
    (ho : o ≠ .ne) (hx : Exact v) (hm : o = .index → v.cls ≠ METHOD) :
    evalOp w f v r fits o = rubyOp w f v o := by
  rw [rubyOp_ne_ne hi f v o ho]
  unfold evalOp
  split
  · rename_i hh
    obtain ⟨h1, h2, -, h4⟩ := asmHit_iff _ _ _ _ _ hh
    have ht := asm_tracked o h1
    have hc : v.cls = INTEGER := by
      rcases hx with h' | h' | h' | h'
      · rw [h2] at h'; cases h'
      · rw [h2] at h'; cases h'
      · rw [h2] at h'; cases h'
      · rw [h', h2]; rfl
    have hnr : (INTEGER, o) ∉ w.redef := fun h => h4 (hi.bit o h1 h)
    have hk := (hi.keep _ _ ht).resolve_left hnr
    have : asmRun o = native .fixnum o := by
      cases o <;> first | rfl | exact absurd rfl ho
    rw [this, hc]
    unfold native
    show resolve true (lookup boot INTEGER o) = _
    rw [← hk]
    exact resolve_fcall hi ..
  · split
    · exact absurd rfl ho
    · unfold getIndex
      split
      · rfl
      · rename_i hr
        split
        · rename_i hc
          have hM := hm rfl
          have hck : lookup w v.cls .index = some ⟨some (.builtin v.cls .index), false⟩ := by
            rcases hc with h | h | h
            · have h0 := (hi.keep ARRAY .index (by decide)).resolve_left (by rw [← h]; exact hr)
              rw [h, h0]; decide
            · have h0 := (hi.keep HASH .index (by decide)).resolve_left (by rw [← h]; exact hr)
              rw [h, h0]; decide
            · exact absurd h hM
          rw [hck]
          simp [resolve]
        · rfl
    · unfold setIndex
      split
      · rename_i hc
        obtain ⟨h, -, hr⟩ := hc
        rw [h] at hr
        have h0 := (hi.keep ARRAY .indexAssign (by decide)).resolve_left hr
        rw [h, h0]
        cases f <;> decide
      · rfl
    · exact guarded_ok hi f f v o hx

end Verif.Bop
