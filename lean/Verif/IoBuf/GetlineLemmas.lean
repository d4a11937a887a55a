import Verif.IoBuf.LineLemmas

/-!
# `getline` computes `lineSpec`, and an interrupted attempt leaves a stream that yields the same
-/

namespace Verif.IoBuf

theorem findIdx?_none_of_not_mem {l : List Byte} {d : Byte} (h : d ∉ l) :
    l.findIdx? (· == d) = none := by
  rw [List.findIdx?_eq_none_iff]
  intro x hx
  simp only [beq_eq_false_iff_ne, ne_eq]
  rintro rfl
  exact h hx

theorem findIdx?_of_append {l r : List Byte} {d : Byte} (h : d ∉ l) :
    (l ++ [d] ++ r).findIdx? (· == d) = some l.length := by
  rw [List.append_assoc, List.findIdx?_append, findIdx?_none_of_not_mem h]
  simp [List.findIdx?_cons]

theorem not_mem_of_findIdx?_none {l : List Byte} {d : Byte}
    (h : l.findIdx? (· == d) = none) : d ∉ l := by
  rw [List.findIdx?_eq_none_iff] at h
  intro hm
  have := h d hm
  simp at this

theorem findIdx?_some_split {l : List Byte} {d : Byte} {i : Nat}
    (h : l.findIdx? (· == d) = some i) :
    ∃ a b, l = a ++ [d] ++ b ∧ d ∉ a ∧ a.length = i := by
  rw [List.findIdx?_eq_some_iff_getElem] at h
  obtain ⟨hi, hd, hlt⟩ := h
  simp only [beq_iff_eq] at hd
  refine ⟨l.take i, l.drop (i + 1), ?_, ?_, ?_⟩
  · conv => lhs; rw [← List.take_append_drop i l, List.drop_eq_getElem_cons hi, hd]
    simp
  · intro hm
    obtain ⟨j, hj, hj'⟩ := List.getElem_of_mem hm
    have hj2 : j < i := by rw [List.length_take] at hj; omega
    have := hlt j hj2
    simp only [List.getElem_take] at hj'
    simp [hj'] at this
  · rw [List.length_take]; omega

/-- A newline-terminated line. -/
theorem lineSpec_nl_split (c : Bool) {a b : List Byte} (h : nl ∉ a) :
    lineSpec (some [nl]) none c (a ++ [nl] ++ b) = (some (a ++ [nl]), b) := by
  have : lineSpec (some [nl]) none c (a ++ [nl] ++ b)
      = (if (sepSpec [nl] none c [] (a ++ [nl] ++ b)).1 = [] then none
        else some (sepSpec [nl] none c [] (a ++ [nl] ++ b)).1,
        (sepSpec [nl] none c [] (a ++ [nl] ++ b)).2) := rfl
  rw [this, sepSpec_complete_irrel, sepSpec_nl, findIdx?_of_append h]
  simp [List.take_append, List.drop_append, List.take_of_length_le]

/-- A last line without a newline. -/
theorem lineSpec_nl_last (c : Bool) {a : List Byte} (h : nl ∉ a) :
    lineSpec (some [nl]) none c a = (if a = [] then none else some a, []) := by
  have : lineSpec (some [nl]) none c a
      = (if (sepSpec [nl] none c [] a).1 = [] then none
        else some (sepSpec [nl] none c [] a).1, (sepSpec [nl] none c [] a).2) := rfl
  rw [this, sepSpec_complete_irrel, sepSpec_nl, findIdx?_none_of_not_mem h]
  simp

theorem readLineUnderlying_spec {io : Io} {os os' : ROs} {res : Except RErr (Option (List Byte))}
    {io' : Io} (hI : io.Inv) (hpb : io.pushback = [])
    (h : io.readLineUnderlying os = some (res, io', os')) :
    Kept io io' ∧
    (∀ l, res = .ok l →
      (∃ a, l = some (a ++ [nl]) ∧ nl ∉ a ∧ io.rest = a ++ [nl] ++ io'.rest) ∨
      (nl ∉ io.rest ∧ io'.rest = [] ∧ l = if io.rest = [] then none else some io.rest)) ∧
    (∀ e, res = .error e → e.restartable = true → io.kind ≠ .stdin → io'.rest = io.rest) := by
  unfold Io.readLineUnderlying at h
  split at h
  · cases h
  · rename_i buf rd os₁ hr
    simp only [Option.some.injEq, Prod.mk.injEq] at h
    obtain ⟨rfl, rfl, rfl⟩ := h
    obtain ⟨got, g1, g2, g3, g4, g5, g6, _⟩ := readUntil_spec nl _ hI.rd hr
    simp only [List.nil_append] at g1
    subst g1
    have hd := Reader.key_data g3
    have hs := slice_split g4 g5
    refine ⟨⟨⟨g2, hI.pb⟩, rfl, g3⟩, ?_, by simp⟩
    intro l hl
    simp only [Except.ok.injEq] at hl
    subst hl
    simp only [Io.rest, hpb, List.nil_append, hd]
    rcases g6 rfl with ⟨a, ha, hna⟩ | ⟨hna, hend⟩
    · left
      refine ⟨a, ?_, hna, ?_⟩
      · rw [ha]; simp
      · rw [hs, ha]
    · right
      have h0 : io.rd.fd.data.drop rd.lp = [] := List.drop_eq_nil_of_le hend
      rw [h0] at hs
      simp only [List.append_nil] at hs
      rw [h0, hs]
      refine ⟨hna, rfl, ?_⟩
      by_cases hb : buf = []
      · simp [hb]
      · have := List.length_pos_iff.2 hb
        rw [if_neg (by omega), if_neg hb]
  · rename_i e buf rd os₁ hr
    obtain ⟨got, g1, g2, g3, g4, g5, _, g7⟩ := readUntil_spec nl _ hI.rd hr
    simp only [List.nil_append] at g1
    subst g1
    have hd := Reader.key_data g3
    have hs := slice_split g4 g5
    split at h
    · rename_i hc
      simp only [Option.some.injEq, Prod.mk.injEq] at h
      obtain ⟨rfl, rfl, rfl⟩ := h
      refine ⟨⟨⟨g2, fun hk => absurd hk hc.2⟩, rfl, g3⟩, by simp, ?_⟩
      intro e' _ _ _
      simp only [Io.rest, hpb, List.append_nil, List.nil_append, hd, hs]
    · rename_i hc
      simp only [Option.some.injEq, Prod.mk.injEq] at h
      obtain ⟨rfl, rfl, rfl⟩ := h
      refine ⟨⟨⟨g2, hI.pb⟩, rfl, g3⟩, by simp, ?_⟩
      intro e' he hre hns
      simp only [Except.error.injEq] at he
      subst he
      exact absurd ⟨hre, hns⟩ hc

theorem readLine_spec {io : Io} {os os' : ROs} {res : Except RErr (Option (List Byte))}
    {io' : Io} (c : Bool) (hI : io.Inv)
    (h : io.readLine os = some (res, io', os')) :
    Kept io io' ∧
    (∀ l, res = .ok l → (l, io'.rest) = lineSpec (some [nl]) none c io.rest) ∧
    (∀ e, res = .error e → e.restartable = true → io.kind ≠ .stdin →
      (io.pushback = [] ∨ nl ∈ io.pushback) → io'.rest = io.rest) := by
  unfold Io.readLine at h
  split at h
  · rename_i hpos
    have hne : io.pushback ≠ [] := List.length_pos_iff.1 hpos
    split at h
    · rename_i idx hidx
      simp only [Option.some.injEq, Prod.mk.injEq] at h
      obtain ⟨rfl, rfl, rfl⟩ := h
      obtain ⟨a, b, hab, hna, hlen⟩ := findIdx?_some_split hidx
      refine ⟨⟨⟨hI.rd, ?_⟩, rfl, rfl⟩, ?_, by simp⟩
      · intro hk
        exact absurd (hI.pb hk) hne
      · intro l hl
        simp only [Except.ok.injEq] at hl
        subst hl
        have ht : io.pushback.take (idx + 1) = a ++ [nl] := by
          rw [hab, ← hlen]; simp [List.take_append, List.take_of_length_le]
        have hdr : io.pushback.drop (idx + 1) = b := by
          rw [hab, ← hlen]; simp [List.drop_append]
        have hle : idx + 1 ≤ io.pushback.length := by rw [hab, ← hlen]; simp
        simp only [Io.rest, Io.takePushback, Option.getD_some, Nat.min_eq_left hle, ht, hdr]
        rw [hab, List.append_assoc _ b, lineSpec_nl_split c hna]
    · rename_i hidx
      have hnm := not_mem_of_findIdx?_none hidx
      have hI₁ : (io.takePushback none).2.Inv :=
        ⟨hI.rd, fun hk => absurd (hI.pb hk) hne⟩
      have hpb₁ : (io.takePushback none).2.pushback = [] := by
        simp [Io.takePushback]
      have hrest : io.rest = io.pushback ++ (io.takePushback none).2.rest := by
        simp [Io.rest, Io.takePushback]
      have htk : (io.takePushback none).1 = io.pushback := by
        simp [Io.takePushback]
      split at h
      · cases h
      · rename_i rest io₁ os₁ hr
        simp only [Option.some.injEq, Prod.mk.injEq] at h
        obtain ⟨rfl, rfl, rfl⟩ := h
        obtain ⟨r1, r2, _⟩ := readLineUnderlying_spec hI₁ hpb₁ hr
        refine ⟨⟨r1.inv, r1.kind, r1.key⟩, ?_, by simp⟩
        intro l hl
        simp only [Except.ok.injEq] at hl
        subst hl
        rw [hrest, htk]
        rcases r2 rest rfl with ⟨a, ha, hna, hre⟩ | ⟨hna, hre, hl⟩
        · rw [hre, ha]
          have : io.pushback ++ (a ++ [nl] ++ io₁.rest) = (io.pushback ++ a) ++ [nl] ++ io₁.rest := by
            simp
          rw [this, lineSpec_nl_split c (by simp [hnm, hna])]
          simp
        · rw [lineSpec_nl_last c (by simp [hnm, hna]), hre, hl]
          by_cases h0 : (io.takePushback none).2.rest = []
          · simp [h0, hne]
          · simp [h0, hne]
      · rename_i e io₁ os₁ hr
        simp only [Option.some.injEq, Prod.mk.injEq] at h
        obtain ⟨rfl, rfl, rfl⟩ := h
        obtain ⟨r1, _, _⟩ := readLineUnderlying_spec hI₁ hpb₁ hr
        refine ⟨⟨r1.inv, r1.kind, r1.key⟩, by simp, ?_⟩
        intro e' _ _ _ hcase
        rcases hcase with hc | hc
        · exact absurd hc hne
        · exact absurd hc hnm
  · rename_i hpos
    have hpb : io.pushback = [] := List.length_eq_zero_iff.1 (by omega)
    obtain ⟨r1, r2, r3⟩ := readLineUnderlying_spec hI hpb h
    refine ⟨r1, ?_, fun e he hre hns _ => r3 e he hre hns⟩
    intro l hl
    rcases r2 l hl with ⟨a, ha, hna, hre⟩ | ⟨hna, hre, hl⟩
    · rw [hre, ha, lineSpec_nl_split c hna]
    · rw [lineSpec_nl_last c hna, hre, hl]

/-- `gets` with the newline separator and no limit, on a stream with ungot bytes that hold no
newline: the one case in which an interrupt loses bytes. -/
def Io.fastPathHazard (io : Io) (sep : Option (List Byte)) (limit : Option Nat) : Prop :=
  sep = some [nl] ∧ limit = none ∧ io.pushback ≠ [] ∧ nl ∉ io.pushback

theorem getline_spec {io : Io} {k : Nat} {sep : Option (List Byte)} {limit : Option Nat}
    {complete : Bool} {os os' : ROs} {res : Except RErr (Option (List Byte))} {io' : Io}
    (hI : io.Inv) (hns : io.kind ≠ .stdin)
    (h : io.getline k sep limit complete os = some (res, io', os')) :
    Kept io io' ∧
    (∀ l, res = .ok l → (l, io'.rest) = lineSpec sep limit complete io.rest) ∧
    (∀ e, res = .error e → e.restartable = true → ¬ io.fastPathHazard sep limit →
      lineSpec sep limit complete io'.rest = lineSpec sep limit complete io.rest) := by
  unfold Io.getline at h
  split at h
  · rename_i hl
    simp only [Option.some.injEq, Prod.mk.injEq] at h
    obtain ⟨rfl, rfl, rfl⟩ := h
    exact ⟨Kept.refl hI, by simp [lineSpec, hl], by simp⟩
  · rename_i hl0
    split at h
    · -- no separator
      split at h
      · cases h
      · rename_i buf io₁ os₁ hr
        obtain ⟨r1, r2, _⟩ := readImpl_spec hI hr
        obtain ⟨rn, ra⟩ := r2 buf rfl
        have hns₁ : io₁.kind ≠ .stdin := by rw [r1.kind]; exact hns
        cases hlim : limit with
        | none =>
          obtain ⟨ra1, ra2⟩ := ra hlim
          simp only [hlim] at h
          rw [if_neg (by simp : ¬ (complete = true ∧ (none : Option Nat) = some buf.length))] at h
          split at h
          · rename_i hb
            simp only [Option.some.injEq, Prod.mk.injEq] at h
            obtain ⟨rfl, rfl, rfl⟩ := h
            refine ⟨r1, ?_, by simp⟩
            intro l hl
            simp only [Except.ok.injEq] at hl
            subst hl
            rw [ra2]
            simp [lineSpec, ← ra1, hb]
          · rename_i hb
            simp only [Option.some.injEq, Prod.mk.injEq] at h
            obtain ⟨rfl, rfl, rfl⟩ := h
            refine ⟨r1, ?_, by simp⟩
            intro l hl
            simp only [Except.ok.injEq] at hl
            subst hl
            rw [ra2]
            simp [lineSpec, ← ra1, hb]
        | some n =>
          obtain ⟨rn1, rn2⟩ := rn n hlim
          have hn0 : n ≠ 0 := by rintro rfl; exact hl0 hlim
          rw [hlim] at h
          have hbuf : buf = [] ↔ io.rest = [] := by
            rw [rn1]; simp [hn0]
          split at h
          · rename_i hb
            simp only [Option.some.injEq, Prod.mk.injEq] at h
            obtain ⟨rfl, rfl, rfl⟩ := h
            refine ⟨r1, ?_, by simp⟩
            intro l hl
            simp only [Except.ok.injEq] at hl
            subst hl
            have h0 := hbuf.1 hb
            rw [rn2, h0]
            simp [lineSpec, hn0]
          · rename_i hb
            have hne : io.rest ≠ [] := fun h => hb (hbuf.2 h)
            split at h
            · rename_i hc
              obtain ⟨hc1, hc2⟩ := hc
              simp only [Option.some.injEq] at hc2
              have hle : n ≤ io.rest.length := by
                rw [rn1, List.length_take] at hc2; omega
              split at h
              · cases h
              · rename_i buf' io₂ os₂ hcc
                simp only [Option.some.injEq, Prod.mk.injEq] at h
                obtain ⟨rfl, rfl, rfl⟩ := h
                obtain ⟨c1, c2, _⟩ := completeChar_spec 16 r1.inv hns₁ hcc
                refine ⟨r1.trans c1, ?_, by simp⟩
                intro l hl
                simp only [Except.ok.injEq] at hl
                subst hl
                have := c2 _ rfl
                rw [rn1, rn2] at this
                unfold lineSpec limitSpec
                rw [if_neg (by simpa using hn0)]
                simp only [hne, hle, hc1, if_true, if_false, ← this]
              · rename_i e io₂ os₂ hcc
                simp only [Option.some.injEq, Prod.mk.injEq] at h
                obtain ⟨rfl, rfl, rfl⟩ := h
                obtain ⟨c1, _, c3⟩ := completeChar_spec 16 r1.inv hns₁ hcc
                refine ⟨r1.trans c1, by simp, ?_⟩
                intro e' he hre _
                simp only [Except.error.injEq] at he
                subst he
                rw [c3 _ rfl hre, rn1, rn2, List.take_append_drop]
            · rename_i hc
              simp only [Option.some.injEq, Prod.mk.injEq] at h
              obtain ⟨rfl, rfl, rfl⟩ := h
              refine ⟨r1, ?_, by simp⟩
              intro l hl
              simp only [Except.ok.injEq] at hl
              subst hl
              unfold lineSpec limitSpec
              rw [if_neg (by simpa using hn0)]
              simp only [hne, if_false]
              by_cases hle : n ≤ io.rest.length
              · have : buf.length = n := by rw [rn1, List.length_take]; omega
                have hcf : complete = false := by
                  cases complete with
                  | false => rfl
                  | true => exact absurd ⟨rfl, by rw [this]⟩ hc
                simp [hle, hcf, rn1, rn2]
              · rw [if_neg hle, rn2, rn1, List.take_of_length_le (by omega),
                  List.drop_eq_nil_of_le (by omega)]
      · rename_i e io₁ os₁ hr
        simp only [Option.some.injEq, Prod.mk.injEq] at h
        obtain ⟨rfl, rfl, rfl⟩ := h
        obtain ⟨r1, _, r3⟩ := readImpl_spec hI hr
        refine ⟨r1, by simp, ?_⟩
        intro e' he hre _
        simp only [Except.error.injEq] at he
        subst he
        rw [r3 _ rfl hre hns]
    · -- paragraph mode
      split at h
      · cases h
      · rename_i io₁ os₁ hs
        simp only [Option.some.injEq, Prod.mk.injEq] at h
        obtain ⟨rfl, rfl, rfl⟩ := h
        obtain ⟨s1, s2, _, _⟩ := skipNl_spec k hI hns hs
        obtain ⟨s3, s4⟩ := s2 rfl
        refine ⟨s1, ?_, by simp⟩
        intro l hl
        simp only [Except.ok.injEq] at hl
        subst hl
        simp [lineSpec, hl0, s3, s4]
      · rename_i b io₁ os₁ hs
        obtain ⟨s1, _, s3, _⟩ := skipNl_spec k hI hns hs
        have hskip := s3 b rfl
        have hns₁ : io₁.kind ≠ .stdin := by rw [s1.kind]; exact hns
        have hb : (b == nl) = false := by
          have := List.head?_dropWhile_not (fun x => x == nl) io.rest
          rw [hskip] at this
          simpa using this
        have hskip' : ∀ r, (b :: r).dropWhile (· == nl) = b :: r := by
          intro r; rw [List.dropWhile_cons]; simp [hb]
        have hspec : ∀ q r, q.dropWhile (· == nl) = b :: r →
            lineSpec (some []) limit complete q
              = (some (paraSpec limit complete [b] r).1,
                if (paraSpec limit complete [b] r).2.1 then
                  (paraSpec limit complete [b] r).2.2.dropWhile (· == nl)
                else (paraSpec limit complete [b] r).2.2) := by
          intro q r hq
          unfold lineSpec
          rw [if_neg hl0]
          simp only [hq]
        split at h
        · cases h
        · rename_i buf io₂ os₂ hp
          simp only [Option.some.injEq, Prod.mk.injEq] at h
          obtain ⟨rfl, rfl, rfl⟩ := h
          obtain ⟨p1, p2, _⟩ := paraLoop_spec limit complete k s1.inv hns₁ hp
          have := p2 _ _ rfl
          refine ⟨s1.trans p1, ?_, by simp⟩
          intro l hl
          simp only [Except.ok.injEq] at hl
          subst hl
          rw [hspec _ _ hskip, ← this]
          simp
        · rename_i buf io₂ os₂ hp
          obtain ⟨p1, p2, _⟩ := paraLoop_spec limit complete k s1.inv hns₁ hp
          have hpara := p2 _ _ rfl
          have hns₂ : io₂.kind ≠ .stdin := by rw [p1.kind]; exact hns₁
          split at h
          · cases h
          · rename_i io₃ os₃ hw
            simp only [Option.some.injEq, Prod.mk.injEq] at h
            obtain ⟨rfl, rfl, rfl⟩ := h
            obtain ⟨w1, w2, _⟩ := swallow_spec k p1.inv hns₂ hw
            refine ⟨(s1.trans p1).trans w1, ?_, by simp⟩
            intro l hl
            simp only [Except.ok.injEq] at hl
            subst hl
            rw [hspec _ _ hskip, ← hpara, w2 rfl]
            simp
          · rename_i e io₃ os₃ hw
            simp only [Option.some.injEq, Prod.mk.injEq] at h
            obtain ⟨rfl, rfl, rfl⟩ := h
            obtain ⟨w1, _, w3⟩ := swallow_spec k p1.inv hns₂ hw
            refine ⟨(s1.trans p1).trans w1, by simp, ?_⟩
            intro e' he hre _
            simp only [Except.error.injEq] at he
            subst he
            obtain ⟨r, hr1, hr2⟩ := w3 _ rfl hre
            obtain ⟨t, t1, t2, t3⟩ := paraSpec_again limit complete _ _ _ _ r hpara.symm
            rw [hspec _ _ hskip, ← hpara, hr1, t1]
            rw [show [b] ++ t ++ r = b :: (t ++ r) from rfl,
              hspec _ _ (hskip' (t ++ r)), t3, ← t1]
            simp [hr2]
        · rename_i e io₂ os₂ hp
          simp only [Option.some.injEq, Prod.mk.injEq] at h
          obtain ⟨rfl, rfl, rfl⟩ := h
          obtain ⟨p1, _, p3⟩ := paraLoop_spec limit complete k s1.inv hns₁ hp
          refine ⟨s1.trans p1, by simp, ?_⟩
          intro e' he hre _
          simp only [Except.error.injEq] at he
          subst he
          rw [hspec _ _ hskip, p3 _ rfl hre]
          exact hspec _ _ (hskip' _)
      · rename_i e io₁ os₁ hs
        simp only [Option.some.injEq, Prod.mk.injEq] at h
        obtain ⟨rfl, rfl, rfl⟩ := h
        obtain ⟨s1, _, _, s4⟩ := skipNl_spec k hI hns hs
        refine ⟨s1, by simp, ?_⟩
        intro e' he hre _
        simp only [Except.error.injEq] at he
        subst he
        unfold lineSpec
        rw [if_neg hl0, if_neg hl0]
        simp only [s4 _ rfl hre]
    · -- a separator
      rename_i s hsne
      have hspec : ∀ q, lineSpec (some s) limit complete q
          = (if (sepSpec s limit complete [] q).1 = [] then none
            else some (sepSpec s limit complete [] q).1, (sepSpec s limit complete [] q).2) := by
        intro q
        unfold lineSpec
        rw [if_neg hl0]
        cases s with
        | nil => exact absurd rfl (hsne)
        | cons a b => rfl
      split at h
      · rename_i hf
        obtain ⟨rfl, rfl⟩ := hf
        obtain ⟨r1, r2, r3⟩ := readLine_spec complete hI h
        refine ⟨r1, r2, ?_⟩
        intro e he hre hz
        rw [r3 e he hre hns]
        by_cases hp : io.pushback = []
        · exact Or.inl hp
        · by_cases hm : nl ∈ io.pushback
          · exact Or.inr hm
          · exact absurd ⟨rfl, rfl, hp, hm⟩ hz
      · split at h
        · cases h
        · rename_i buf io₁ os₁ hr
          simp only [Option.some.injEq, Prod.mk.injEq] at h
          obtain ⟨rfl, rfl, rfl⟩ := h
          obtain ⟨r1, r2, _⟩ := sepLoop_spec s limit complete k hI hns hr
          refine ⟨r1, ?_, by simp⟩
          intro l hl
          simp only [Except.ok.injEq] at hl
          subst hl
          rw [hspec, ← r2 _ rfl]
        · rename_i e io₁ os₁ hr
          simp only [Option.some.injEq, Prod.mk.injEq] at h
          obtain ⟨rfl, rfl, rfl⟩ := h
          obtain ⟨r1, _, r3⟩ := sepLoop_spec s limit complete k hI hns hr
          refine ⟨r1, by simp, ?_⟩
          intro e' he hre _
          simp only [Except.error.injEq] at he
          subst he
          rw [r3 _ rfl hre, List.nil_append]

end Verif.IoBuf
