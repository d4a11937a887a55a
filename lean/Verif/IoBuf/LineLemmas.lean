import Verif.IoBuf.IoLemmas
import Verif.IoBuf.IoSpec

/-!
# The line readers compute `lineSpec`
-/

namespace Verif.IoBuf

theorem completeChar_spec (k : Nat) :
    ∀ {io : Io} {buf : List Byte} {os os' : ROs} {res : Except RErr (List Byte)} {io' : Io},
      io.Inv → io.kind ≠ .stdin → io.completeChar k buf os = some (res, io', os') →
      Kept io io' ∧
      (∀ l, res = .ok l → (l, io'.rest) = complSpec k buf io.rest) ∧
      (∀ e, res = .error e → e.restartable = true → io'.rest = buf ++ io.rest) := by
  induction k with
  | zero =>
    intro io buf os os' res io' hI _ h
    simp [Io.completeChar] at h
    obtain ⟨rfl, rfl, rfl⟩ := h
    exact ⟨Kept.refl hI, by simp [complSpec], by simp⟩
  | succ k ih =>
    intro io buf os os' res io' hI hns h
    unfold Io.completeChar at h
    split at h
    · rename_i hm
      simp only [Option.some.injEq, Prod.mk.injEq] at h
      obtain ⟨rfl, rfl, rfl⟩ := h
      exact ⟨Kept.refl hI, by simp [complSpec, hm], by simp⟩
    · rename_i hm
      split at h
      · cases h
      · rename_i io₁ os₁ hr
        simp only [Option.some.injEq, Prod.mk.injEq] at h
        obtain ⟨rfl, rfl, rfl⟩ := h
        obtain ⟨r1, r2, _, _⟩ := read1Preserving_spec hI hr
        obtain ⟨r3, r4⟩ := r2 rfl
        refine ⟨r1, ?_, by simp⟩
        intro l hl
        simp only [Except.ok.injEq] at hl
        subst hl
        rw [r3, r4]
        simp [complSpec, hm]
      · rename_i b io₁ os₁ hr
        obtain ⟨r1, _, r3, _⟩ := read1Preserving_spec hI hr
        have hrest := r3 b rfl
        obtain ⟨i1, i2, i3⟩ := ih r1.inv (by rw [r1.kind]; exact hns) h
        refine ⟨r1.trans i1, ?_, ?_⟩
        · intro l hl
          rw [i2 l hl, hrest]
          simp [complSpec, hm]
        · intro e he hre
          rw [i3 e he hre, hrest]; simp
      · rename_i e io₁ os₁ hr
        simp only [Option.some.injEq, Prod.mk.injEq] at h
        obtain ⟨rfl, rfl, rfl⟩ := h
        obtain ⟨r1, _, _, r4⟩ := read1Preserving_spec hI hr
        refine ⟨r1, by simp, ?_⟩
        intro e' he' hre
        simp only [Except.error.injEq] at he'
        subst he'
        exact r4 _ rfl hre hns

theorem atLimit_spec {io : Io} {complete : Bool} {buf : List Byte} {os os' : ROs}
    {res : Except RErr (List Byte)} {io' : Io} (hI : io.Inv) (hns : io.kind ≠ .stdin)
    (h : io.atLimit complete buf os = some (res, io', os')) :
    Kept io io' ∧
    (∀ l, res = .ok l → (l, io'.rest) = limitSpec complete buf io.rest) ∧
    (∀ e, res = .error e → e.restartable = true → io'.rest = buf ++ io.rest) := by
  unfold Io.atLimit at h
  unfold limitSpec
  split at h
  · rename_i hc
    simp only [hc]
    exact completeChar_spec 16 hI hns h
  · rename_i hc
    simp only [Option.some.injEq, Prod.mk.injEq] at h
    obtain ⟨rfl, rfl, rfl⟩ := h
    exact ⟨Kept.refl hI, by simp [hc], by simp⟩

theorem sepLoop_spec (sep : List Byte) (limit : Option Nat) (complete : Bool) (k : Nat) :
    ∀ {io : Io} {buf : List Byte} {os os' : ROs} {res : Except RErr (List Byte)} {io' : Io},
      io.Inv → io.kind ≠ .stdin → io.sepLoop k sep limit complete buf os = some (res, io', os') →
      Kept io io' ∧
      (∀ l, res = .ok l → (l, io'.rest) = sepSpec sep limit complete buf io.rest) ∧
      (∀ e, res = .error e → e.restartable = true → io'.rest = buf ++ io.rest) := by
  induction k with
  | zero => simp [Io.sepLoop]
  | succ k ih =>
    intro io buf os os' res io' hI hns h
    unfold Io.sepLoop at h
    split at h
    · rename_i hl
      obtain ⟨a, b, c⟩ := atLimit_spec hI hns h
      refine ⟨a, ?_, c⟩
      intro l hl'
      rw [b l hl']
      cases hr : io.rest <;> rw [sepSpec, if_pos hl]
    · rename_i hl
      split at h
      · cases h
      · rename_i io₁ os₁ hr
        simp only [Option.some.injEq, Prod.mk.injEq] at h
        obtain ⟨rfl, rfl, rfl⟩ := h
        obtain ⟨r1, r2, _, _⟩ := read1Preserving_spec hI hr
        obtain ⟨r3, r4⟩ := r2 rfl
        refine ⟨r1, ?_, by simp⟩
        intro l hl'
        simp only [Except.ok.injEq] at hl'
        subst hl'
        rw [r3, r4]
        simp [sepSpec, hl]
      · rename_i b io₁ os₁ hr
        obtain ⟨r1, _, r3, _⟩ := read1Preserving_spec hI hr
        have hrest := r3 b rfl
        split at h
        · rename_i hs
          simp only [Option.some.injEq, Prod.mk.injEq] at h
          obtain ⟨rfl, rfl, rfl⟩ := h
          refine ⟨r1, ?_, by simp⟩
          intro l hl'
          simp only [Except.ok.injEq] at hl'
          subst hl'
          rw [hrest]
          simp only [sepSpec, hl, hs]
          simp
        · rename_i hs
          obtain ⟨i1, i2, i3⟩ := ih r1.inv (by rw [r1.kind]; exact hns) h
          refine ⟨r1.trans i1, ?_, ?_⟩
          · intro l hl'
            rw [i2 l hl', hrest]
            conv => rhs; unfold sepSpec
            simp only [hl, hs]
            simp
          · intro e he hre
            rw [i3 e he hre, hrest]; simp
      · rename_i e io₁ os₁ hr
        simp only [Option.some.injEq, Prod.mk.injEq] at h
        obtain ⟨rfl, rfl, rfl⟩ := h
        obtain ⟨r1, _, _, r4⟩ := read1Preserving_spec hI hr
        refine ⟨r1, by simp, ?_⟩
        intro e' he' hre
        simp only [Except.error.injEq] at he'
        subst he'
        exact r4 _ rfl hre hns

theorem skipNl_spec (k : Nat) :
    ∀ {io : Io} {os os' : ROs} {res : Except RErr (Option Byte)} {io' : Io},
      io.Inv → io.kind ≠ .stdin → io.skipNl k os = some (res, io', os') →
      Kept io io' ∧
      (res = .ok none → io.rest.dropWhile (· == nl) = [] ∧ io'.rest = []) ∧
      (∀ b, res = .ok (some b) → io.rest.dropWhile (· == nl) = b :: io'.rest) ∧
      (∀ e, res = .error e → e.restartable = true →
        io'.rest.dropWhile (· == nl) = io.rest.dropWhile (· == nl)) := by
  induction k with
  | zero => simp [Io.skipNl]
  | succ k ih =>
    intro io os os' res io' hI hns h
    unfold Io.skipNl at h
    split at h
    · cases h
    · rename_i io₁ os₁ hr
      simp only [Option.some.injEq, Prod.mk.injEq] at h
      obtain ⟨rfl, rfl, rfl⟩ := h
      obtain ⟨r1, r2, _, _⟩ := read1Preserving_spec hI hr
      obtain ⟨r3, r4⟩ := r2 rfl
      exact ⟨r1, fun _ => by rw [r3, r4]; simp, by simp, by simp⟩
    · rename_i b io₁ os₁ hr
      obtain ⟨r1, _, r3, _⟩ := read1Preserving_spec hI hr
      have hrest := r3 b rfl
      split at h
      · rename_i hb
        obtain ⟨i1, i2, i3, i4⟩ := ih r1.inv (by rw [r1.kind]; exact hns) h
        have hd : io.rest.dropWhile (· == nl) = io₁.rest.dropWhile (· == nl) := by
          rw [hrest, List.dropWhile_cons]; simp [hb]
        rw [hd]
        exact ⟨r1.trans i1, i2, i3, i4⟩
      · rename_i hb
        simp only [Option.some.injEq, Prod.mk.injEq] at h
        obtain ⟨rfl, rfl, rfl⟩ := h
        refine ⟨r1, by simp, ?_, by simp⟩
        intro c hc
        simp at hc
        subst hc
        rw [hrest, List.dropWhile_cons]; simp [hb]
    · rename_i e io₁ os₁ hr
      simp only [Option.some.injEq, Prod.mk.injEq] at h
      obtain ⟨rfl, rfl, rfl⟩ := h
      obtain ⟨r1, _, _, r4⟩ := read1Preserving_spec hI hr
      refine ⟨r1, by simp, by simp, ?_⟩
      intro e' he' hre
      simp only [Except.error.injEq] at he'
      subst he'
      rw [r4 _ rfl hre hns]; simp

theorem paraLoop_spec (limit : Option Nat) (complete : Bool) (k : Nat) :
    ∀ {io : Io} {buf : List Byte} {os os' : ROs} {res : Except RErr (List Byte × Bool)} {io' : Io},
      io.Inv → io.kind ≠ .stdin → io.paraLoop k limit complete buf os = some (res, io', os') →
      Kept io io' ∧
      (∀ l f, res = .ok (l, f) → (l, f, io'.rest) = paraSpec limit complete buf io.rest) ∧
      (∀ e, res = .error e → e.restartable = true → io'.rest = buf ++ io.rest) := by
  induction k with
  | zero => simp [Io.paraLoop]
  | succ k ih =>
    intro io buf os os' res io' hI hns h
    unfold Io.paraLoop at h
    split at h
    · rename_i hl
      split at h
      · cases h
      · rename_i buf' io₁ os₁ ha
        simp only [Option.some.injEq, Prod.mk.injEq] at h
        obtain ⟨rfl, rfl, rfl⟩ := h
        obtain ⟨a, b, c⟩ := atLimit_spec hI hns ha
        refine ⟨a, ?_, by simp⟩
        intro l f hlf
        simp only [Except.ok.injEq, Prod.mk.injEq] at hlf
        obtain ⟨rfl, rfl⟩ := hlf
        have hb := b _ rfl
        unfold paraSpec
        split <;> (simp only [hl]; rename_i hr; rw [hr] at hb; rw [← hb]; simp)
      · rename_i e io₁ os₁ ha
        simp only [Option.some.injEq, Prod.mk.injEq] at h
        obtain ⟨rfl, rfl, rfl⟩ := h
        obtain ⟨a, b, c⟩ := atLimit_spec hI hns ha
        refine ⟨a, by simp, ?_⟩
        intro e' he' hre
        simp only [Except.error.injEq] at he'
        subst he'
        exact c _ rfl hre
    · rename_i hl
      split at h
      · cases h
      · rename_i io₁ os₁ hr
        simp only [Option.some.injEq, Prod.mk.injEq] at h
        obtain ⟨rfl, rfl, rfl⟩ := h
        obtain ⟨r1, r2, _, _⟩ := read1Preserving_spec hI hr
        obtain ⟨r3, r4⟩ := r2 rfl
        refine ⟨r1, ?_, by simp⟩
        intro l f hl'
        simp only [Except.ok.injEq, Prod.mk.injEq] at hl'
        obtain ⟨rfl, rfl⟩ := hl'
        rw [r3, r4]
        simp [paraSpec, hl]
      · rename_i b io₁ os₁ hr
        obtain ⟨r1, _, r3, _⟩ := read1Preserving_spec hI hr
        have hrest := r3 b rfl
        split at h
        · rename_i hs
          simp only [Option.some.injEq, Prod.mk.injEq] at h
          obtain ⟨rfl, rfl, rfl⟩ := h
          refine ⟨r1, ?_, by simp⟩
          intro l f hl'
          simp only [Except.ok.injEq, Prod.mk.injEq] at hl'
          obtain ⟨rfl, rfl⟩ := hl'
          rw [hrest]
          simp only [paraSpec, hl, hs]
          simp
        · rename_i hs
          obtain ⟨i1, i2, i3⟩ := ih r1.inv (by rw [r1.kind]; exact hns) h
          refine ⟨r1.trans i1, ?_, ?_⟩
          · intro l f hl'
            rw [i2 l f hl', hrest]
            conv => rhs; unfold paraSpec
            simp only [hl, hs]
            simp
          · intro e he hre
            rw [i3 e he hre, hrest]; simp
      · rename_i e io₁ os₁ hr
        simp only [Option.some.injEq, Prod.mk.injEq] at h
        obtain ⟨rfl, rfl, rfl⟩ := h
        obtain ⟨r1, _, _, r4⟩ := read1Preserving_spec hI hr
        refine ⟨r1, by simp, ?_⟩
        intro e' he' hre
        simp only [Except.error.injEq] at he'
        subst he'
        exact r4 _ rfl hre hns

theorem swallow_spec (k : Nat) :
    ∀ {io : Io} {buf : List Byte} {os os' : ROs} {res : Except RErr Unit} {io' : Io},
      io.Inv → io.kind ≠ .stdin → io.swallow k buf os = some (res, io', os') →
      Kept io io' ∧
      (res = .ok () → io'.rest = io.rest.dropWhile (· == nl)) ∧
      (∀ e, res = .error e → e.restartable = true →
        ∃ r, io'.rest = buf ++ r ∧ r.dropWhile (· == nl) = io.rest.dropWhile (· == nl)) := by
  induction k with
  | zero => simp [Io.swallow]
  | succ k ih =>
    intro io buf os os' res io' hI hns h
    unfold Io.swallow at h
    split at h
    · cases h
    · rename_i io₁ os₁ hr
      simp only [Option.some.injEq, Prod.mk.injEq] at h
      obtain ⟨rfl, rfl, rfl⟩ := h
      obtain ⟨r1, r2, _, _⟩ := read1Preserving_spec hI hr
      obtain ⟨r3, r4⟩ := r2 rfl
      exact ⟨r1, fun _ => by rw [r3, r4]; simp, by simp⟩
    · rename_i b io₁ os₁ hr
      obtain ⟨r1, _, r3, _⟩ := read1Preserving_spec hI hr
      have hrest := r3 b rfl
      split at h
      · rename_i hb
        obtain ⟨i1, i2, i3⟩ := ih r1.inv (by rw [r1.kind]; exact hns) h
        have hd : io.rest.dropWhile (· == nl) = io₁.rest.dropWhile (· == nl) := by
          rw [hrest, List.dropWhile_cons]; simp [hb]
        rw [hd]
        exact ⟨r1.trans i1, i2, i3⟩
      · rename_i hb
        simp only [Option.some.injEq, Prod.mk.injEq] at h
        obtain ⟨rfl, rfl, rfl⟩ := h
        have hns₁ : io₁.kind ≠ .stdin := by rw [r1.kind]; exact hns
        obtain ⟨u1, u2⟩ := ungetQuiet_spec r1.inv hns₁ [b]
        refine ⟨r1.trans u1, ?_, by simp⟩
        intro _
        rw [u2, hrest, List.dropWhile_cons]; simp [hb]
    · rename_i e io₁ os₁ hr
      simp only [Option.some.injEq, Prod.mk.injEq] at h
      obtain ⟨rfl, rfl, rfl⟩ := h
      obtain ⟨r1, _, _, r4⟩ := read1Preserving_spec hI hr
      refine ⟨r1, by simp, ?_⟩
      intro e' he' hre
      simp only [Except.error.injEq] at he'
      subst he'
      exact ⟨_, r4 _ rfl hre hns, rfl⟩

/-! ### Facts about the specifications -/

theorem complSpec_append (k : Nat) : ∀ (buf rest : List Byte),
    (complSpec k buf rest).1 ++ (complSpec k buf rest).2 = buf ++ rest ∧
    buf <+: (complSpec k buf rest).1 := by
  induction k with
  | zero => intro buf rest; simp [complSpec]
  | succ k ih =>
    intro buf rest
    unfold complSpec
    split
    · simp
    · cases rest with
      | nil => simp
      | cons b r =>
        simp only
        obtain ⟨h1, h2⟩ := ih (buf ++ [b]) r
        refine ⟨by rw [h1]; simp, ?_⟩
        exact (List.prefix_append buf [b]).trans h2

theorem limitSpec_append (c : Bool) (buf rest : List Byte) :
    (limitSpec c buf rest).1 ++ (limitSpec c buf rest).2 = buf ++ rest ∧
    buf <+: (limitSpec c buf rest).1 := by
  unfold limitSpec
  split
  · exact complSpec_append 16 buf rest
  · simp

/-- A paragraph that a blank line ended is found again when it is read a second time, whatever
follows it. -/
theorem paraSpec_again (limit : Option Nat) (complete : Bool) (rest : List Byte) :
    ∀ (buf line r r' : List Byte), paraSpec limit complete buf rest = (line, true, r) →
      ∃ t, line = buf ++ t ∧ rest = t ++ r ∧ paraSpec limit complete buf (t ++ r') = (line, true, r') := by
  induction rest with
  | nil =>
    intro buf line r r' h
    unfold paraSpec at h
    split at h <;> simp at h
  | cons b rest ih =>
    intro buf line r r' h
    unfold paraSpec at h
    split at h
    · simp at h
    · rename_i hl
      split at h
      · rename_i hs
        simp only [Prod.mk.injEq] at h
        obtain ⟨rfl, _, rfl⟩ := h
        refine ⟨[b], rfl, rfl, ?_⟩
        simp only [List.cons_append, List.nil_append, paraSpec]
        rw [if_neg hl, if_pos hs]
      · rename_i hs
        obtain ⟨t, h1, h2, h3⟩ := ih _ _ _ r' h
        refine ⟨b :: t, by rw [h1]; simp, by rw [h2]; rfl, ?_⟩
        rw [List.cons_append, paraSpec, if_neg hl, if_neg hs]
        exact h3

/-- `sepSpec` with a newline and no limit: everything up to the first newline. -/
theorem sepSpec_nl (rest : List Byte) : ∀ (buf : List Byte),
    sepSpec [nl] none false buf rest
      = (match rest.findIdx? (· == nl) with
         | some i => (buf ++ rest.take (i + 1), rest.drop (i + 1))
         | none => (buf ++ rest, [])) := by
  induction rest with
  | nil => intro buf; simp [sepSpec]
  | cons b r ih =>
    intro buf
    unfold sepSpec
    simp only [Option.any_none, Bool.false_eq_true, if_false]
    have hsuf : [nl].isSuffixOf (buf ++ [b]) = (b == nl) := by
      simp [List.isSuffixOf, List.isPrefixOf]
      rw [Bool.beq_comm]
    rw [hsuf, List.findIdx?_cons]
    by_cases hb : (b == nl) = true
    · simp [hb]
    · simp only [hb]
      simp only [Bool.false_eq_true, if_false]
      rw [ih]
      cases r.findIdx? (· == nl) with
      | none => simp
      | some i => simp

theorem sepSpec_complete_irrel (sep : List Byte) (c : Bool) (rest : List Byte) :
    ∀ buf, sepSpec sep none c buf rest = sepSpec sep none false buf rest := by
  induction rest with
  | nil => intro buf; simp [sepSpec]
  | cons b r ih =>
    intro buf
    simp only [sepSpec, Option.any_none, Bool.false_eq_true, if_false, ih]

end Verif.IoBuf
