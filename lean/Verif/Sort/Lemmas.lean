import Verif.Sort.Model
import Mathlib.Data.List.Basic
import Mathlib.Data.List.Perm.Basic
import Mathlib.Data.List.Chain

namespace Verif.Sort
variable {σ ε α : Type}

/-! ## Specification vocabulary -/

/-- The comparator never raises and always answers by `less`, whatever its state. -/
def Consistent (lt : Cmp σ ε α) (less : α → α → Bool) : Prop :=
  ∀ s a b, (lt s a b).2 = .ok (less a b)

/-- `less` is a strict weak order. -/
structure WeakOrder (less : α → α → Bool) : Prop where
  asymm : ∀ a b, less a b = true → less b a = false
  negTrans : ∀ a b c, less a b = false → less b c = false → less a c = false

/-- In order: no later element is less than an earlier one. -/
def Sorted (less : α → α → Bool) (l : List α) : Prop :=
  l.Pairwise (fun a b => less b a = false)

/-- Neither is less than the other. -/
def eqv (less : α → α → Bool) (x y : α) : Bool := !less x y && !less y x

/-- The elements equivalent to any given one appear in the same order. -/
def SameClasses (less : α → α → Bool) (l l' : List α) : Prop :=
  ∀ x, l.filter (eqv less x) = l'.filter (eqv less x)

/-- Consistent comparator with a weak order. -/
def Cons (lt : Cmp σ ε α) (less : α → α → Bool) : Prop :=
  Consistent lt less ∧ WeakOrder less

/-! ## Helpers -/

theorem SameClasses.refl (less : α → α → Bool) (l : List α) : SameClasses less l l := fun _ => rfl

theorem SameClasses.trans {less : α → α → Bool} {a b c : List α} (h1 : SameClasses less a b)
    (h2 : SameClasses less b c) : SameClasses less a c := fun x => (h1 x).trans (h2 x)

theorem SameClasses.append {less : α → α → Bool} {a b c d : List α} (h1 : SameClasses less a b)
    (h2 : SameClasses less c d) : SameClasses less (a ++ c) (b ++ d) := by
  intro x
  rw [List.filter_append, List.filter_append, h1 x, h2 x]

theorem SameClasses.cons {less : α → α → Bool} {a b : List α} (y : α) (h1 : SameClasses less a b) :
    SameClasses less (y :: a) (y :: b) := SameClasses.append (SameClasses.refl less [y]) h1

theorem not_both {less : α → α → Bool} (w : WeakOrder less) {x y z : α} (h : less x y = true)
    (h1 : eqv less z x = true) (h2 : eqv less z y = true) : False := by
  simp only [eqv, Bool.and_eq_true, Bool.not_eq_true'] at h1 h2
  have := w.negTrans x z y h1.2 h2.1
  rw [h] at this
  exact absurd this (by decide)

theorem sameClasses_swap {less : α → α → Bool} (w : WeakOrder less) {x y : α}
    (h : less x y = true) (l : List α) : SameClasses less (x :: y :: l) (y :: x :: l) := by
  intro z
  by_cases h1 : eqv less z x = true
  · by_cases h2 : eqv less z y = true
    · exact (not_both w h h1 h2).elim
    · simp [List.filter_cons, h1, h2]
  · by_cases h2 : eqv less z y = true <;> simp [List.filter_cons, h1, h2]

/-- An element smaller than everything in `l` may be moved from behind to the front. -/
theorem sameClasses_front {less : α → α → Bool} (w : WeakOrder less) {y : α} {l r : List α}
    (h : ∀ x ∈ l, less y x = true) : SameClasses less (y :: (l ++ r)) (l ++ y :: r) := by
  induction l with
  | nil => exact SameClasses.refl _ _
  | cons a l ih =>
    have h1 := h a (by simp)
    have h2 := ih (fun x hx => h x (by simp [hx]))
    exact (sameClasses_swap w h1 _).trans (SameClasses.cons a h2)

theorem less_of_le {less : α → α → Bool} (w : WeakOrder less) {y x z : α}
    (h1 : less y x = true) (h2 : less z x = false) : less y z = true := by
  by_contra hc
  rw [Bool.not_eq_true] at hc
  rw [w.negTrans y z x hc h2] at h1
  exact absurd h1 (by decide)

/-- The value of the comparator when it is consistent. -/
theorem Consistent.eq {lt : Cmp σ ε α} {less : α → α → Bool} (h : Consistent lt less) (s : σ)
    (a b : α) : lt s a b = ((lt s a b).1, .ok (less a b)) := by
  rw [← h s a b]

/-! ## insert_head -/

theorem insertLoop_spec (lt : Cmp σ ε α) (less : α → α → Bool) (tmp : α) (suf : List α) :
    ∀ (rest pre : List α) (hole : α) (hi : Nat) (s : σ),
      hi = pre.length + 1 + rest.length →
      ∃ o w s', insertLoop lt tmp hi (pre.length + 1) pre.length (pre ++ hole :: (rest ++ suf)) s
          = (o, pre ++ (w ++ suf), s') ∧ o ≠ .oob ∧ w.Perm (tmp :: rest) ∧
        (Cons lt less → o = .ok ∧ SameClasses less w (tmp :: rest) ∧
          (Sorted less rest → Sorted less w)) := by
  intro rest
  induction rest with
  | nil =>
    intro pre hole hi s hhi
    refine ⟨.ok, [tmp], s, ?_, by simp, List.Perm.refl _, fun _ => ⟨rfl, SameClasses.refl _ _, ?_⟩⟩
    · rw [insertLoop, if_neg (by simp at hhi; omega)]
      simp
    · intro _; simp [Sorted]
  | cons x rest ih =>
    intro pre hole hi s hhi
    rw [insertLoop, if_pos (by simp at hhi; omega)]
    have hx : (pre ++ hole :: (x :: rest ++ suf))[pre.length + 1]? = some x := by
      rw [List.getElem?_append_right (by omega)]
      simp
    have hset : ∀ t : α, (pre ++ hole :: (x :: rest ++ suf)).set pre.length t
        = pre ++ t :: (x :: rest ++ suf) := by
      intro t
      rw [List.set_append_right _ _ (le_refl _)]
      simp
    rw [hx]
    simp only []
    cases hl : lt s x tmp with
    | mk s' r =>
      cases r with
      | error e =>
        refine ⟨.err e, tmp :: x :: rest, s', ?_, by simp, List.Perm.refl _, ?_⟩
        · simp only [hset]; simp
        · rintro ⟨hc, -⟩
          have := hc s x tmp
          rw [hl] at this
          exact absurd this (by simp)
      | ok b =>
        cases b with
        | false =>
          refine ⟨.ok, tmp :: x :: rest, s', ?_, by simp, List.Perm.refl _, ?_⟩
          · simp only [hset]; simp
          · rintro ⟨hc, hw⟩
            refine ⟨rfl, SameClasses.refl _ _, fun hs => ?_⟩
            have hb := hc s x tmp
            rw [hl] at hb
            have hb : less x tmp = false := by simpa using hb.symm
            rw [Sorted, List.pairwise_cons]
            refine ⟨fun z hz => ?_, hs⟩
            rcases List.mem_cons.1 hz with rfl | hz
            · exact hb
            · exact hw.negTrans z x tmp ((List.pairwise_cons.1 hs).1 z hz) hb
        | true =>
          have hset' : (pre ++ hole :: (x :: rest ++ suf)).set (pre.length + 1 - 1) x
              = (pre ++ [x]) ++ x :: (rest ++ suf) := by
            simp only [Nat.add_sub_cancel, hset]; simp
          simp only [hset']
          obtain ⟨o, w, s'', e, ho, hp, hcons⟩ := ih (pre ++ [x]) x hi s' (by simp at hhi ⊢; omega)
          refine ⟨o, x :: w, s'', ?_, ho, ?_, ?_⟩
          · have : (pre ++ [x]).length = pre.length + 1 := by simp
            rw [this] at e
            rw [e]; simp
          · exact (List.Perm.cons x hp).trans (List.Perm.swap _ _ _)
          · rintro ⟨hc, hw⟩
            obtain ⟨h1, h2, h3⟩ := hcons ⟨hc, hw⟩
            have hb := hc s x tmp
            rw [hl] at hb
            have hb : less x tmp = true := by simpa using hb.symm
            refine ⟨h1, (SameClasses.cons x h2).trans (sameClasses_swap hw hb rest), fun hs => ?_⟩
            obtain ⟨g1, g2⟩ := List.pairwise_cons.1 hs
            rw [Sorted, List.pairwise_cons]
            refine ⟨fun z hz => ?_, h3 g2⟩
            rcases List.mem_cons.1 (hp.subset hz) with rfl | hz
            · exact hw.asymm _ _ hb
            · exact g1 z hz

theorem insertHead_spec (lt : Cmp σ ε α) (less : α → α → Bool) (pre suf : List α) (x : α)
    (rest : List α) (lo hi : Nat) (s : σ) (hlo : lo = pre.length)
    (hhi : hi = pre.length + 1 + rest.length) :
    ∃ o w s', insertHead lt lo hi (pre ++ (x :: rest ++ suf)) s = (o, pre ++ (w ++ suf), s') ∧
      o ≠ .oob ∧ w.Perm (x :: rest) ∧
      (Cons lt less → o = .ok ∧ SameClasses less w (x :: rest) ∧
        (Sorted less rest → Sorted less w)) := by
  subst hlo
  cases rest with
  | nil =>
    refine ⟨.ok, [x], s, ?_, by simp, List.Perm.refl _, fun _ => ⟨rfl, SameClasses.refl _ _, ?_⟩⟩
    · rw [insertHead, if_neg (by simp at hhi; omega)]
    · intro _; simp [Sorted]
  | cons y rest =>
    rw [insertHead, if_pos (by simp at hhi; omega)]
    have h0 : (pre ++ (x :: y :: rest ++ suf))[pre.length]? = some x := by
      rw [List.getElem?_append_right (by omega)]; simp
    have h1 : (pre ++ (x :: y :: rest ++ suf))[pre.length + 1]? = some y := by
      rw [List.getElem?_append_right (by omega)]; simp
    rw [h0, h1]
    simp only []
    cases hl : lt s y x with
    | mk s' r =>
      cases r with
      | error e =>
        refine ⟨.err e, x :: y :: rest, s', by simp, by simp, List.Perm.refl _, ?_⟩
        rintro ⟨hc, -⟩
        have := hc s y x
        rw [hl] at this
        exact absurd this (by simp)
      | ok b =>
        cases b with
        | false =>
          refine ⟨.ok, x :: y :: rest, s', by simp, by simp, List.Perm.refl _, ?_⟩
          rintro ⟨hc, hw⟩
          have hb := hc s y x
          rw [hl] at hb
          have hb : less y x = false := by simpa using hb.symm
          refine ⟨rfl, SameClasses.refl _ _, fun hs => ?_⟩
          rw [Sorted, List.pairwise_cons]
          refine ⟨fun z hz => ?_, hs⟩
          rcases List.mem_cons.1 hz with rfl | hz
          · exact hb
          · exact hw.negTrans z y x ((List.pairwise_cons.1 hs).1 z hz) hb
        | true =>
          have hset : (pre ++ (x :: y :: rest ++ suf)).set pre.length y
              = (pre ++ [y]) ++ y :: (rest ++ suf) := by
            rw [List.set_append_right _ _ (le_refl _)]; simp
          simp only [hset]
          obtain ⟨o, w, s'', e, ho, hp, hcons⟩ :=
            insertLoop_spec lt less x suf rest (pre ++ [y]) y hi s' (by simp at hhi ⊢; omega)
          have hl2 : (pre ++ [y]).length = pre.length + 1 := by simp
          rw [hl2] at e
          refine ⟨o, y :: w, s'', by rw [e]; simp, ho, ?_, ?_⟩
          · exact (List.Perm.cons y hp).trans (List.Perm.swap _ _ _)
          · rintro ⟨hc, hw⟩
            obtain ⟨h1, h2, h3⟩ := hcons ⟨hc, hw⟩
            have hb := hc s y x
            rw [hl] at hb
            have hb : less y x = true := by simpa using hb.symm
            refine ⟨h1, (SameClasses.cons y h2).trans (sameClasses_swap hw hb rest), fun hs => ?_⟩
            obtain ⟨g1, g2⟩ := List.pairwise_cons.1 hs
            rw [Sorted, List.pairwise_cons]
            refine ⟨fun z hz => ?_, h3 g2⟩
            rcases List.mem_cons.1 (hp.subset hz) with rfl | hz
            · exact hw.asymm _ _ hb
            · exact g1 z hz

/-! ## merge -/

theorem writeAt_append (xs : List α) : ∀ (p h q : List α), h.length = xs.length →
    writeAt (p ++ (h ++ q)) p.length xs = p ++ (xs ++ q) := by
  induction xs with
  | nil => intro p h q hl; rw [List.eq_nil_of_length_eq_zero hl]; rfl
  | cons x xs ih =>
    intro p h q hl
    cases h with
    | nil => simp at hl
    | cons a h =>
      rw [writeAt, List.set_append_right _ _ (le_refl _)]
      have := ih (p ++ [x]) h q (by simpa using hl)
      simp at this ⊢
      exact this

theorem mergeLo_spec (lt : Cmp σ ε α) (less : α → α → Bool) (buf suf : List α) (e hi : Nat)
    (he : buf.length = e) :
    ∀ (n : Nat) (L R A H : List α) (l : Nat) (s : σ), L.length + R.length = n →
      buf.drop l = L → l ≤ e → H.length = L.length →
      hi = A.length + H.length + R.length →
      ∃ o w s', mergeLo lt buf e hi l (A.length + H.length) A.length (A ++ (H ++ (R ++ suf))) s
          = (o, A ++ (w ++ suf), s') ∧ o ≠ .oob ∧ w.Perm (L ++ R) ∧
        (Cons lt less → o = .ok ∧ (Sorted less L → Sorted less R → 
          SameClasses less w (L ++ R) ∧ Sorted less w)) := by
  intro n
  induction n with
  | zero =>
    intro L R A H l s hn hd hle hH hhi
    have hL : L = [] := List.eq_nil_of_length_eq_zero (by omega)
    have hR : R = [] := List.eq_nil_of_length_eq_zero (by omega)
    subst hL hR
    have hHn : H = [] := List.eq_nil_of_length_eq_zero (by simpa using hH)
    subst hHn
    refine ⟨.ok, [], s, ?_, by simp, by simp, fun _ => ⟨rfl, fun _ _ => ⟨SameClasses.refl _ _, ?_⟩⟩⟩
    · rw [mergeLo, if_neg (by simp at hhi; omega)]
      rw [List.take_of_length_le (by omega), hd]
      simp [writeAt]
    · exact List.Pairwise.nil
  | succ n ih =>
    intro L R A H l s hn hd hle hH hhi
    have hlen : L.length = e - l := by rw [← hd, List.length_drop]; omega
    have hfill : ∀ V : List α, V = A ++ (H ++ (R ++ suf)) →
        writeAt V A.length ((buf.take e).drop l) = A ++ (L ++ R ++ suf) := by
      intro V hV
      rw [hV, List.take_of_length_le (by omega), hd, writeAt_append _ _ _ _ hH]
      simp
    rw [mergeLo]
    by_cases hc : l < e ∧ A.length + H.length < hi
    · rw [if_pos hc]
      cases L with
      | nil => simp at hlen; omega
      | cons x L =>
      cases R with
      | nil => simp at hhi; omega
      | cons y R =>
      cases H with
      | nil => simp at hH
      | cons h H =>
      have hy : (A ++ (h :: H ++ (y :: R ++ suf)))[A.length + (h :: H).length]? = some y := by
        rw [List.getElem?_append_right (by omega), List.getElem?_append_right (by simp)]
        simp
      have hx : buf[l]? = some x := by
        have := congrArg (fun z => z[0]?) hd
        simpa using this
      rw [hy, hx]
      simp only []
      cases hl : lt s y x with
      | mk s' r =>
      cases r with
      | error er =>
        refine ⟨.err er, x :: L ++ y :: R, s', ?_, by simp, List.Perm.refl _, ?_⟩
        · rw [hfill _ rfl]
        · rintro ⟨hcn, -⟩
          have := hcn s y x
          rw [hl] at this
          exact absurd this (by simp)
      | ok b =>
      cases b with
      | true =>
        have hset : (A ++ (h :: H ++ (y :: R ++ suf))).set A.length y
            = (A ++ [y]) ++ ((H ++ [y]) ++ (R ++ suf)) := by
          rw [List.set_append_right _ _ (le_refl _)]; simp
        obtain ⟨o, w, s'', e1, ho, hp, hcons⟩ := ih (x :: L) R (A ++ [y]) (H ++ [y]) l s'
          (by simp at hn ⊢; omega) hd hle (by simpa using hH) (by simp at hhi ⊢; omega)
        have hidx1 : (A ++ [y]).length + (H ++ [y]).length = A.length + (h :: H).length + 1 := by
          simp; omega
        have hidx2 : (A ++ [y]).length = A.length + 1 := by simp
        rw [hidx1, hidx2] at e1
        refine ⟨o, y :: w, s'', ?_, ho, ?_, ?_⟩
        · simp only [hset, e1]; simp
        · exact (List.Perm.cons y hp).trans List.perm_middle.symm
        · rintro ⟨hcn, hw⟩
          obtain ⟨h1, h2⟩ := hcons ⟨hcn, hw⟩
          have hb := hcn s y x
          rw [hl] at hb
          have hb : less y x = true := by simpa using hb.symm
          refine ⟨h1, fun hsL hsR => ?_⟩
          obtain ⟨g1, g2⟩ := List.pairwise_cons.1 hsR
          obtain ⟨k1, k2⟩ := h2 hsL g2
          have hall : ∀ z ∈ x :: L, less y z = true := by
            intro z hz
            rcases List.mem_cons.1 hz with rfl | hz
            · exact hb
            · exact less_of_le hw hb ((List.pairwise_cons.1 hsL).1 z hz)
          refine ⟨(SameClasses.cons y k1).trans (sameClasses_front hw hall), ?_⟩
          rw [Sorted, List.pairwise_cons]
          refine ⟨fun z hz => ?_, k2⟩
          rcases List.mem_append.1 (hp.subset hz) with hz | hz
          · exact hw.asymm _ _ (hall z hz)
          · exact g1 z hz
      | false =>
        have hset : (A ++ (h :: H ++ (y :: R ++ suf))).set A.length x
            = (A ++ [x]) ++ (H ++ (y :: R ++ suf)) := by
          rw [List.set_append_right _ _ (le_refl _)]; simp
        have hd' : buf.drop (l + 1) = L := by
          rw [← List.drop_drop, hd]; rfl
        obtain ⟨o, w, s'', e1, ho, hp, hcons⟩ := ih L (y :: R) (A ++ [x]) H (l + 1) s'
          (by simp at hn ⊢; omega) hd' (by omega) (by simpa using hH) (by simp at hhi ⊢; omega)
        have hidx1 : (A ++ [x]).length + H.length = A.length + (h :: H).length := by
          simp; omega
        have hidx2 : (A ++ [x]).length = A.length + 1 := by simp
        rw [hidx1, hidx2] at e1
        refine ⟨o, x :: w, s'', ?_, ho, ?_, ?_⟩
        · simp only [hset, e1]; simp
        · exact List.Perm.cons x hp
        · rintro ⟨hcn, hw⟩
          obtain ⟨h1, h2⟩ := hcons ⟨hcn, hw⟩
          have hb := hcn s y x
          rw [hl] at hb
          have hb : less y x = false := by simpa using hb.symm
          refine ⟨h1, fun hsL hsR => ?_⟩
          obtain ⟨g1, g2⟩ := List.pairwise_cons.1 hsL
          obtain ⟨k1, k2⟩ := h2 g2 hsR
          refine ⟨SameClasses.cons x k1, ?_⟩
          rw [Sorted, List.pairwise_cons]
          refine ⟨fun z hz => ?_, k2⟩
          rcases List.mem_append.1 (hp.subset hz) with hz | hz
          · exact g1 z hz
          · rcases List.mem_cons.1 hz with rfl | hz
            · exact hb
            · exact hw.negTrans z y x ((List.pairwise_cons.1 hsR).1 z hz) hb
    · rw [if_neg hc]
      refine ⟨.ok, L ++ R, s, by rw [hfill _ rfl], by simp, List.Perm.refl _,
        fun _ => ⟨rfl, fun hsL hsR => ⟨SameClasses.refl _ _, ?_⟩⟩⟩
      by_cases hL : L = []
      · subst hL; simpa using hsR
      · have : R = [] := by
          apply List.eq_nil_of_length_eq_zero
          have : 0 < L.length := List.length_pos_iff.2 hL
          omega
        subst this; simpa using hsL

theorem mergeHi_spec (lt : Cmp σ ε α) (less : α → α → Bool) (buf pre : List α) :
    ∀ (n : Nat) (L R A H : List α) (l r out : Nat) (s : σ), L.length + R.length = n →
      buf.take r = R → r ≤ buf.length → H.length = R.length → l = pre.length + L.length →
      out = l + R.length →
      ∃ o w s', mergeHi lt buf pre.length l r out (pre ++ L ++ (H ++ A)) s
          = (o, pre ++ (w ++ A), s') ∧ o ≠ .oob ∧ w.Perm (L ++ R) ∧
        (Cons lt less → o = .ok ∧ (Sorted less L → Sorted less R → 
          SameClasses less w (L ++ R) ∧ Sorted less w)) := by
  intro n
  induction n with
  | zero =>
    intro L R A H l r out s hn hd hle hH hl hout
    have hL : L = [] := List.eq_nil_of_length_eq_zero (by omega)
    have hR : R = [] := List.eq_nil_of_length_eq_zero (by omega)
    subst hL hR
    have hHn : H = [] := List.eq_nil_of_length_eq_zero (by simpa using hH)
    subst hHn
    refine ⟨.ok, [], s, ?_, by simp, by simp, fun _ => ⟨rfl, fun _ _ => ⟨SameClasses.refl _ _, ?_⟩⟩⟩
    · rw [mergeHi, if_neg (by simp at hl; omega), hd]
      simp [writeAt]
    · exact List.Pairwise.nil
  | succ n ih =>
    intro L R A H l r out s hn hd hle hH hl hout
    have hr : r = R.length := by rw [← hd, List.length_take]; omega
    have hfill : writeAt (pre ++ L ++ (H ++ A)) l (buf.take r) = pre ++ (L ++ R ++ A) := by
      rw [hd, hl, ← List.length_append, writeAt_append _ _ _ _ hH]
      simp
    rw [mergeHi]
    by_cases hc : pre.length < l ∧ 0 < r
    · rw [if_pos hc]
      rcases List.eq_nil_or_concat L with hL | ⟨L', x, hL⟩
      · subst hL; simp at hl; omega
      rcases List.eq_nil_or_concat R with hR | ⟨R', y, hR⟩
      · subst hR; simp at hr; omega
      rcases List.eq_nil_or_concat H with hHe | ⟨H', h, hHe⟩
      · subst hHe; subst hR; simp at hH
      simp only [List.concat_eq_append] at hL hR hHe
      subst hL hR hHe
      simp only [List.length_append, List.length_singleton] at hl hr hH hout hn
      have hy : buf[r - 1]? = some y := by
        have := congrArg (fun z => z[r - 1]?) hd
        simp only [List.getElem?_take] at this
        rw [if_pos (by omega)] at this
        rw [this, hr]; simp
      have hx : (pre ++ (L' ++ [x]) ++ (H' ++ [h] ++ A))[l - 1]? = some x := by
        rw [List.getElem?_append_left (by simp; omega), List.getElem?_append_right (by omega), hl]
        have : pre.length + (L'.length + 1) - 1 - pre.length = L'.length := by omega
        rw [this]; simp
      rw [hy, hx]
      simp only []
      cases hlt : lt s y x with
      | mk s' rr =>
      cases rr with
      | error er =>
        refine ⟨.err er, L' ++ [x] ++ (R' ++ [y]), s', by rw [hfill], by simp, List.Perm.refl _, ?_⟩
        rintro ⟨hcn, -⟩
        have := hcn s y x
        rw [hlt] at this
        exact absurd this (by simp)
      | ok b =>
      have hsetg : ∀ z : α, (pre ++ (L' ++ [x]) ++ (H' ++ [h] ++ A)).set (out - 1) z
          = pre ++ (L' ++ [x]) ++ (H' ++ ([z] ++ A)) := by
        intro z
        rw [List.set_append_right _ _ (by simp; omega)]
        have : out - 1 - (pre ++ (L' ++ [x])).length = H'.length := by simp; omega
        rw [this, List.append_assoc H', List.set_append_right _ _ (le_refl _)]
        simp
      cases b with
      | true =>
        obtain ⟨o, w, s'', e1, ho, hp, hcons⟩ := ih L' (R' ++ [y]) (x :: A) (x :: H') (l - 1) r (out - 1) s'
          (by simp; omega) hd hle (by simp; omega) (by omega) (by simp; omega)
        refine ⟨o, w ++ [x], s'', ?_, ho, ?_, ?_⟩
        · simp only [hsetg]
          have : pre ++ (L' ++ [x]) ++ (H' ++ ([x] ++ A)) = pre ++ L' ++ (x :: H' ++ (x :: A)) := by
            simp
          rw [this, e1]; simp
        · have h1 : (w ++ [x]).Perm ((L' ++ (R' ++ [y])) ++ [x]) := hp.append_right _
          refine h1.trans ?_
          rw [List.append_assoc, List.append_assoc L']
          exact List.Perm.append_left _ List.perm_append_comm
        · rintro ⟨hcn, hw⟩
          obtain ⟨h1, h2⟩ := hcons ⟨hcn, hw⟩
          have hb := hcn s y x
          rw [hlt] at hb
          have hb : less y x = true := by simpa using hb.symm
          refine ⟨h1, fun hsL hsR => ?_⟩
          obtain ⟨gL, -, gx⟩ := List.pairwise_append.1 hsL
          obtain ⟨gR, -, gy⟩ := List.pairwise_append.1 hsR
          obtain ⟨k1, k2⟩ := h2 gL hsR
          have hall : ∀ z ∈ R' ++ [y], less z x = true := by
            intro z hz
            rcases List.mem_append.1 hz with hz | hz
            · have h3 := gy z hz y (by simp)
              by_contra hcc
              rw [Bool.not_eq_true] at hcc
              rw [hw.negTrans y z x h3 hcc] at hb
              exact absurd hb (by decide)
            · rw [List.mem_singleton.1 hz]; exact hb
          constructor
          · refine (SameClasses.append k1 (SameClasses.refl less [x])).trans ?_
            rw [List.append_assoc, List.append_assoc L' [x]]
            refine SameClasses.append (SameClasses.refl _ _) ?_
            have : ∀ (S : List α), (∀ z ∈ S, less z x = true) →
                SameClasses less (S ++ [x]) ([x] ++ S) := by
              intro S hS
              induction S with
              | nil => exact SameClasses.refl _ _
              | cons a S ihS =>
                have := ihS (fun z hz => hS z (by simp [hz]))
                exact (SameClasses.cons a this).trans (sameClasses_swap hw (hS a (by simp)) S)
            exact this _ hall
          · rw [Sorted, List.pairwise_append]
            refine ⟨k2, by simp, fun z hz u hu => ?_⟩
            rw [List.mem_singleton.1 hu]
            rcases List.mem_append.1 (hp.subset hz) with hz | hz
            · exact gx z hz x (by simp)
            · exact hw.asymm _ _ (hall z hz)
      | false =>
        have hd' : buf.take (r - 1) = R' := by
          have h1 : buf.take (r - 1) = (buf.take r).take (r - 1) := by
            rw [List.take_take, Nat.min_eq_left (by omega)]
          rw [h1, hd, hr]; simp
        obtain ⟨o, w, s'', e1, ho, hp, hcons⟩ := ih (L' ++ [x]) R' (y :: A) H' l (r - 1) (out - 1) s'
          (by simp; omega) hd' (by omega) (by omega) (by simp; omega) (by omega)
        refine ⟨o, w ++ [y], s'', ?_, ho, ?_, ?_⟩
        · simp only [hsetg]
          have : pre ++ (L' ++ [x]) ++ (H' ++ ([y] ++ A)) = pre ++ (L' ++ [x]) ++ (H' ++ (y :: A)) := by
            simp
          rw [this, e1]; simp
        · have h1 : (w ++ [y]).Perm ((L' ++ [x] ++ R') ++ [y]) := hp.append_right _
          rw [List.append_assoc (L' ++ [x])] at h1
          exact h1
        · rintro ⟨hcn, hw⟩
          obtain ⟨h1, h2⟩ := hcons ⟨hcn, hw⟩
          have hb := hcn s y x
          rw [hlt] at hb
          have hb : less y x = false := by simpa using hb.symm
          refine ⟨h1, fun hsL hsR => ?_⟩
          obtain ⟨gL, -, gx⟩ := List.pairwise_append.1 hsL
          obtain ⟨gR, -, gy⟩ := List.pairwise_append.1 hsR
          obtain ⟨k1, k2⟩ := h2 hsL gR
          constructor
          · have := SameClasses.append k1 (SameClasses.refl less [y])
            rw [List.append_assoc (L' ++ [x])] at this
            exact this
          · rw [Sorted, List.pairwise_append]
            refine ⟨k2, by simp, fun z hz u hu => ?_⟩
            rw [List.mem_singleton.1 hu]
            rcases List.mem_append.1 (hp.subset hz) with hz | hz
            · rcases List.mem_append.1 hz with hz | hz
              · exact hw.negTrans y x z hb (gx z hz x (by simp))
              · rw [List.mem_singleton.1 hz]; exact hb
            · exact gy z hz y (by simp)
    · rw [if_neg hc]
      refine ⟨.ok, L ++ R, s, by rw [hfill], by simp, List.Perm.refl _,
        fun _ => ⟨rfl, fun hsL hsR => ⟨SameClasses.refl _ _, ?_⟩⟩⟩
      by_cases hL : L = []
      · subst hL; simpa using hsR
      · have : R = [] := by
          apply List.eq_nil_of_length_eq_zero
          have : 0 < L.length := List.length_pos_iff.2 hL
          omega
        subst this; simpa using hsL

theorem merge_spec (lt : Cmp σ ε α) (less : α → α → Bool) (cap : Nat) (pre L R suf : List α)
    (lo mid hi : Nat) (s : σ) (hlo : lo = pre.length) (hmid : mid = lo + L.length)
    (hhi : hi = mid + R.length) (hcap : min L.length R.length ≤ cap) :
    ∃ o w s', merge lt cap lo mid hi (pre ++ (L ++ R ++ suf)) s = (o, pre ++ (w ++ suf), s') ∧
      o ≠ .oob ∧ w.Perm (L ++ R) ∧
      (Cons lt less → o = .ok ∧ (Sorted less L → Sorted less R →
        SameClasses less w (L ++ R) ∧ Sorted less w)) := by
  subst hlo hmid hhi
  unfold merge
  split
  · rename_i h
    rw [if_pos (by simp at h hcap ⊢; omega)]
    have hb : ((pre ++ (L ++ R ++ suf)).drop pre.length).take (pre.length + L.length - pre.length)
        = L := by
      simp
    rw [hb]
    have := mergeLo_spec lt less L suf (pre.length + L.length - pre.length)
      (pre.length + L.length + R.length) (by omega) _ L R pre L 0 s rfl rfl (by omega) rfl rfl
    have e : pre ++ (L ++ R ++ suf) = pre ++ (L ++ (R ++ suf)) := by simp
    rw [e]
    exact this
  · rename_i h
    rw [if_pos (by simp at h hcap ⊢; omega)]
    have hb : ((pre ++ (L ++ R ++ suf)).drop (pre.length + L.length)).take
        (pre.length + L.length + R.length - (pre.length + L.length)) = R := by
      have : pre ++ (L ++ R ++ suf) = (pre ++ L) ++ (R ++ suf) := by simp
      rw [this, ← List.length_append, List.drop_left]
      simp
    rw [hb]
    have := mergeHi_spec lt less R pre _ L R suf R (pre.length + L.length)
      (pre.length + L.length + R.length - (pre.length + L.length))
      (pre.length + L.length + R.length) s rfl (by simp) (by omega) rfl rfl rfl
    have e : pre ++ (L ++ R ++ suf) = pre ++ L ++ (R ++ suf) := by simp
    rw [e]
    exact this

/-! ## Runs -/

theorem runLoop_spec (lt : Cmp σ ε α) (less : α → α → Bool) (want : Bool) :
    ∀ (n : Nat) (P Q : List α) (x : α) (s : σ), P.length = n →
      ∃ o st s' P1 P2, runLoop lt want n (P ++ x :: Q) s = (o, st, s') ∧ o ≠ .oob ∧
        P = P1 ++ P2 ∧ P1.length = st ∧
        (Cons lt less → o = .ok ∧ (P2 ++ [x]).IsChain (fun a b => less b a = want)) := by
  intro n
  induction n with
  | zero =>
    intro P Q x s hP
    have : P = [] := List.eq_nil_of_length_eq_zero hP
    subst this
    exact ⟨.ok, 0, s, [], [], rfl, by simp, rfl, rfl, fun _ => ⟨rfl, by simp⟩⟩
  | succ n ih =>
    intro P Q x s hP
    rcases List.eq_nil_or_concat P with h | ⟨P', y, h⟩
    · subst h; simp at hP
    simp only [List.concat_eq_append] at h
    subst h
    have hn : P'.length = n := by simpa using hP
    have h1 : (P' ++ [y] ++ x :: Q)[n + 1]? = some x := by
      rw [List.getElem?_append_right (by simp; omega)]; simp [hn]
    have h2 : (P' ++ [y] ++ x :: Q)[n]? = some y := by
      rw [List.append_assoc, List.getElem?_append_right (by omega)]; simp [hn]
    rw [runLoop, h1, h2]
    simp only []
    cases hl : lt s x y with
    | mk s' r =>
    cases r with
    | error e =>
      refine ⟨.err e, n + 1, s', P' ++ [y], [], rfl, by simp, by simp, by simp [hn], ?_⟩
      rintro ⟨hc, -⟩
      have := hc s x y
      rw [hl] at this
      exact absurd this (by simp)
    | ok b =>
      simp only []
      by_cases hb : b = want
      · rw [if_pos hb]
        obtain ⟨o, st, s'', P1, P2, e1, ho, hP', hst, hcons⟩ := ih P' (x :: Q) y s' hn
        refine ⟨o, st, s'', P1, P2 ++ [y], ?_, ho, by rw [hP']; simp, hst, ?_⟩
        · rw [← e1]; simp
        · intro hC
          obtain ⟨g1, g2⟩ := hcons hC
          refine ⟨g1, ?_⟩
          have hxy : less x y = want := by
            have := hC.1 s x y
            rw [hl] at this
            have : less x y = b := by simpa using this.symm
            rw [this, hb]
          rw [List.append_assoc]
          exact (List.isChain_split (c := y)).2 ⟨g2, by simp [hxy]⟩
      · rw [if_neg hb]
        exact ⟨.ok, n + 1, s', P' ++ [y], [], rfl, by simp, by simp, by simp [hn],
          fun _ => ⟨rfl, by simp⟩⟩

theorem sorted_of_chain {less : α → α → Bool} (w : WeakOrder less) {l : List α}
    (h : l.IsChain (fun a b => less b a = false)) : Sorted less l := by
  haveI : IsTrans α (fun a b => less b a = false) :=
    ⟨fun a b c h1 h2 => w.negTrans c b a h2 h1⟩
  exact List.isChain_iff_pairwise.1 h

theorem lt_trans' {less : α → α → Bool} (w : WeakOrder less) {a b c : α} (h1 : less a b = true)
    (h2 : less b c = true) : less a c = true :=
  less_of_le w h1 (w.asymm _ _ h2)

theorem desc_of_chain {less : α → α → Bool} (w : WeakOrder less) {l : List α}
    (h : l.IsChain (fun a b => less b a = true)) : l.Pairwise (fun a b => less b a = true) := by
  haveI : IsTrans α (fun a b => less b a = true) :=
    ⟨fun a b c h1 h2 => lt_trans' w h2 h1⟩
  exact List.isChain_iff_pairwise.1 h

theorem desc_reverse {less : α → α → Bool} (w : WeakOrder less) {l : List α}
    (h : l.Pairwise (fun a b => less b a = true)) :
    Sorted less l.reverse ∧ SameClasses less l.reverse l := by
  constructor
  · rw [Sorted, List.pairwise_reverse]
    exact h.imp (fun hab => w.asymm _ _ hab)
  · intro x
    rw [List.filter_reverse]
    have h1 : (l.filter (eqv less x)).Pairwise (fun a b => less b a = true) := h.filter _
    have h2 : ∀ z ∈ l.filter (eqv less x), eqv less x z = true := fun z hz =>
      (List.mem_filter.1 hz).2
    generalize l.filter (eqv less x) = f at h1 h2
    cases f with
    | nil => rfl
    | cons a f =>
      cases f with
      | nil => rfl
      | cons b f =>
        exfalso
        have := (List.pairwise_cons.1 h1).1 b (by simp)
        exact not_both w this (h2 b (by simp)) (h2 a (by simp))

theorem reverseSeg_append (P1 S Q : List α) (lo hi : Nat) (hlo : lo = P1.length)
    (hhi : hi = P1.length + S.length) :
    reverseSeg (P1 ++ (S ++ Q)) lo hi = P1 ++ (S.reverse ++ Q) := by
  subst hlo hhi
  have h1 : (P1 ++ (S ++ Q)).take (P1.length + S.length) = P1 ++ S := by
    rw [← List.append_assoc, ← List.length_append, List.take_left]
  have h2 : (P1 ++ (S ++ Q)).drop (P1.length + S.length) = Q := by
    rw [← List.append_assoc, ← List.length_append, List.drop_left]
  rw [reverseSeg, h1, h2]
  simp

theorem findRun_spec (lt : Cmp σ ε α) (less : α → α → Bool) (P Q : List α) (e : Nat) (s : σ)
    (he : e = P.length) (hpos : 0 < e) :
    ∃ o st s' P1 S, findRun lt e (P ++ Q) s = (o, st, P1 ++ (S ++ Q), s') ∧ o ≠ .oob ∧
      (o = .ok → P1.length = st) ∧ st < e ∧ (P1 ++ S).Perm P ∧
      (Cons lt less → o = .ok ∧ Sorted less S ∧ SameClasses less (P1 ++ S) P) := by
  cases e with
  | zero => omega
  | succ e =>
  cases e with
  | zero =>
    refine ⟨.ok, 0, s, [], P, by simp [findRun], by simp, fun _ => rfl, by omega, by simp,
      fun _ => ⟨rfl, ?_, SameClasses.refl _ _⟩⟩
    cases P with
    | nil => simp at he
    | cons a P =>
      have : P = [] := List.eq_nil_of_length_eq_zero (by rw [List.length_cons] at he; omega)
      subst this
      simp [Sorted]
  | succ k =>
    rcases List.eq_nil_or_concat P with h | ⟨P', x, h⟩
    · subst h; simp at he
    simp only [List.concat_eq_append] at h
    subst h
    rcases List.eq_nil_or_concat P' with h | ⟨P'', y, h⟩
    · subst h; simp at he
    simp only [List.concat_eq_append] at h
    subst h
    have hk : P''.length = k := by simp at he; omega
    have h1 : (P'' ++ [y] ++ [x] ++ Q)[k + 1]? = some x := by
      rw [List.append_assoc, List.getElem?_append_right (by simp; omega)]; simp [hk]
    have h2 : (P'' ++ [y] ++ [x] ++ Q)[k]? = some y := by
      rw [List.append_assoc, List.append_assoc, List.getElem?_append_right (by omega)]; simp [hk]
    rw [findRun, h1, h2]
    simp only []
    cases hl : lt s x y with
    | mk s' r =>
    have hform : P'' ++ [y] ++ [x] ++ Q = P'' ++ y :: (x :: Q) := by simp
    cases r with
    | error er =>
      refine ⟨.err er, k, s', P'', [y] ++ [x], by simp, by simp, fun _ => hk, by omega, by simp, ?_⟩
      rintro ⟨hc, -⟩
      have := hc s x y
      rw [hl] at this
      exact absurd this (by simp)
    | ok b =>
      have hxy : Cons lt less → less x y = b := by
        intro hC
        have := hC.1 s x y
        rw [hl] at this
        simpa using this.symm
      cases b with
      | true =>
        simp only []
        obtain ⟨o, st, s'', P1, P2, e1, ho, hP, hst, hcons⟩ :=
          runLoop_spec lt less true k P'' (x :: Q) y s' hk
        rw [hform, e1]
        have hle : P1.length + P2.length = P''.length := by rw [hP]; simp
        have hchain : Cons lt less → (P2 ++ [y] ++ [x]).IsChain (fun a b => less b a = true) := by
          intro hC
          rw [List.append_assoc]
          exact (List.isChain_split (c := y)).2 ⟨(hcons hC).2, by simp [hxy hC]⟩
        cases o with
        | oob => exact absurd rfl ho
        | err er =>
          refine ⟨.err er, st, s'', P1, P2 ++ [y] ++ [x], ?_, by simp, by simp, by omega,
            by rw [hP]; simp, ?_⟩
          · simp only [hP]; simp
          · intro hC; exact absurd (hcons hC).1 (by simp)
        | ok =>
          refine ⟨.ok, st, s'', P1, (P2 ++ [y] ++ [x]).reverse, ?_, by simp, fun _ => hst,
            by omega, ?_, ?_⟩
          · simp only []
            have : P'' ++ y :: (x :: Q) = P1 ++ ((P2 ++ [y] ++ [x]) ++ Q) := by rw [hP]; simp
            rw [this, reverseSeg_append _ _ _ _ _ hst.symm (by simp; omega)]
          · rw [hP]
            have := (List.reverse_perm (P2 ++ [y] ++ [x])).append_left P1
            simpa using this
          · intro hC
            obtain ⟨d1, d2⟩ := desc_reverse hC.2 (desc_of_chain hC.2 (hchain hC))
            refine ⟨rfl, d1, ?_⟩
            rw [hP]
            have := SameClasses.append (SameClasses.refl less P1) d2
            simpa using this
      | false =>
        simp only []
        obtain ⟨o, st, s'', P1, P2, e1, ho, hP, hst, hcons⟩ :=
          runLoop_spec lt less false k P'' (x :: Q) y s' hk
        rw [hform, e1]
        have hle : P1.length + P2.length = P''.length := by rw [hP]; simp
        refine ⟨o, st, s'', P1, P2 ++ [y] ++ [x], ?_, ho, fun _ => hst, by omega,
          by rw [hP]; simp, ?_⟩
        · simp only [hP]; simp
        · intro hC
          refine ⟨(hcons hC).1, ?_, by rw [hP]; simp [SameClasses.refl]⟩
          apply sorted_of_chain hC.2
          rw [List.append_assoc]
          exact (List.isChain_split (c := y)).2 ⟨(hcons hC).2, by simp [hxy hC]⟩

theorem extendRun_spec (lt : Cmp σ ε α) (less : α → α → Bool) (Q : List α) (e : Nat) :
    ∀ (n : Nat) (P S : List α) (s : σ), P.length = n → e = P.length + S.length →
      ∃ o st s' P1 S', extendRun lt n e (P ++ (S ++ Q)) s = (o, st, P1 ++ (S' ++ Q), s') ∧
        o ≠ .oob ∧ (o = .ok → P1.length = st) ∧ st ≤ n ∧ (P1 ++ S').Perm (P ++ S) ∧
        (Cons lt less → Sorted less S →
          o = .ok ∧ Sorted less S' ∧ SameClasses less (P1 ++ S') (P ++ S)) := by
  intro n
  induction n with
  | zero =>
    intro P S s hP he
    have : P = [] := List.eq_nil_of_length_eq_zero hP
    subst this
    exact ⟨.ok, 0, s, [], S, rfl, by simp, fun _ => rfl, by omega, List.Perm.refl _,
      fun _ hs => ⟨rfl, hs, SameClasses.refl _ _⟩⟩
  | succ n ih =>
    intro P S s hP he
    rw [extendRun]
    by_cases hm : e - (n + 1) < MIN_RUN
    · rw [if_pos hm]
      rcases List.eq_nil_or_concat P with h | ⟨P', x, h⟩
      · subst h; simp at hP
      simp only [List.concat_eq_append] at h
      subst h
      have hn : P'.length = n := by simpa using hP
      obtain ⟨o, w, s', e1, ho, hp, hcons⟩ := insertHead_spec lt less P' Q x S n e s hn.symm
        (by rw [he]; simp)
      have hform : P' ++ [x] ++ (S ++ Q) = P' ++ (x :: S ++ Q) := by simp
      rw [hform, e1]
      have hwl : w.length = S.length + 1 := by rw [hp.length_eq]; simp
      cases o with
      | oob => exact absurd rfl ho
      | err er =>
        refine ⟨.err er, n, s', P', w, rfl, by simp, by simp, by omega, ?_, ?_⟩
        · have := hp.append_left P'
          simpa using this
        · intro hC _; exact absurd (hcons hC).1 (by simp)
      | ok =>
        simp only []
        obtain ⟨o, st, s'', P1, S', e2, ho2, hst, hle, hp2, hcons2⟩ := ih P' w s' hn
          (by rw [he, hwl]; simp; omega)
        refine ⟨o, st, s'', P1, S', e2, ho2, hst, by omega, ?_, ?_⟩
        · have := hp2.trans (hp.append_left P')
          simpa using this
        · intro hC hs
          obtain ⟨g1, g2, g3⟩ := hcons hC
          obtain ⟨k1, k2, k3⟩ := hcons2 hC (g3 hs)
          refine ⟨k1, k2, k3.trans ?_⟩
          have := SameClasses.append (SameClasses.refl less P') g2
          simpa using this
    · rw [if_neg hm]
      exact ⟨.ok, n + 1, s, P, S, rfl, by simp, fun _ => hP, by omega, List.Perm.refl _,
        fun _ hs => ⟨rfl, hs, SameClasses.refl _ _⟩⟩

/-! ## The run stack -/

/-- The stack `runs` describes the consecutive segments `segs` starting at `e`. -/
inductive RunsAt : Nat → List Run → List (List α) → Prop
  | nil (e : Nat) : RunsAt e [] []
  | cons (e : Nat) (S : List α) {rs : List Run} {Ss : List (List α)}
      (h : RunsAt (e + S.length) rs Ss) : RunsAt e (⟨e, S.length⟩ :: rs) (S :: Ss)

theorem collapseLoop_none (lt : Cmp σ ε α) (cap : Nat) (runs : List Run) (v : List α) (s : σ)
    (h : collapse runs = none) : collapseLoop lt cap runs v s = (.ok, runs, v, s) := by
  rw [collapseLoop.eq_def, h]

theorem collapseLoop_false (lt : Cmp σ ε α) (cap : Nat) (a b : Run) (rs : List Run) (v : List α)
    (s : σ) (h : collapse (a :: b :: rs) = some false) :
    collapseLoop lt cap (a :: b :: rs) v s =
      match merge lt cap a.start (a.start + a.len) (b.start + b.len) v s with
      | (.ok, v', s') => collapseLoop lt cap (⟨a.start, a.len + b.len⟩ :: rs) v' s'
      | (o, v', s') => (o, a :: b :: rs, v', s') := by
  rw [collapseLoop.eq_def, h]; rfl

theorem collapseLoop_true (lt : Cmp σ ε α) (cap : Nat) (a b c : Run) (rs : List Run)
    (v : List α) (s : σ) (h : collapse (a :: b :: c :: rs) = some true) :
    collapseLoop lt cap (a :: b :: c :: rs) v s =
      match merge lt cap b.start (b.start + b.len) (c.start + c.len) v s with
      | (.ok, v', s') => collapseLoop lt cap (a :: ⟨b.start, b.len + c.len⟩ :: rs) v' s'
      | (o, v', s') => (o, a :: b :: c :: rs, v', s') := by
  rw [collapseLoop.eq_def, h]; rfl

theorem collapseLoop_spec (lt : Cmp σ ε α) (less : α → α → Bool) (cap : Nat) :
    ∀ (n : Nat) (runs : List Run) (P : List α) (segs : List (List α)) (s : σ), runs.length = n →
      RunsAt P.length runs segs → (P ++ segs.flatten).length / 2 ≤ cap →
      ∃ o runs' s' w, collapseLoop lt cap runs (P ++ segs.flatten) s = (o, runs', P ++ w, s') ∧
        o ≠ .oob ∧ w.Perm segs.flatten ∧
        (o = .ok → ∃ segs', RunsAt P.length runs' segs' ∧ w = segs'.flatten ∧
          (P.length = 0 → segs'.length ≤ 1) ∧
          (Cons lt less → (∀ S ∈ segs, Sorted less S) → ∀ S ∈ segs', Sorted less S)) ∧
        (Cons lt less → (∀ S ∈ segs, Sorted less S) →
          o = .ok ∧ SameClasses less w segs.flatten) := by
  intro n
  induction n with
  | zero =>
    intro runs P segs s hn hr hcap
    have : runs = [] := List.eq_nil_of_length_eq_zero hn
    subst this
    cases hr
    refine ⟨.ok, [], s, [], ?_, by simp, by simp, fun _ => ⟨[], .nil _, rfl, by simp, by simp⟩,
      fun _ _ => ⟨rfl, SameClasses.refl _ _⟩⟩
    rw [collapseLoop_none _ _ _ _ _ rfl]
    simp
  | succ n ih =>
    intro runs P segs s hn hr hcap
    have hdone : collapse runs = none →
        ∃ o runs' s' w, collapseLoop lt cap runs (P ++ segs.flatten) s = (o, runs', P ++ w, s') ∧
        o ≠ .oob ∧ w.Perm segs.flatten ∧
        (o = .ok → ∃ segs', RunsAt P.length runs' segs' ∧ w = segs'.flatten ∧
          (P.length = 0 → segs'.length ≤ 1) ∧
          (Cons lt less → (∀ S ∈ segs, Sorted less S) → ∀ S ∈ segs', Sorted less S)) ∧
        (Cons lt less → (∀ S ∈ segs, Sorted less S) →
          o = .ok ∧ SameClasses less w segs.flatten) := by
      intro hcol
      refine ⟨.ok, runs, s, segs.flatten, ?_, by simp, List.Perm.refl _,
        fun _ => ⟨segs, hr, rfl, ?_, fun _ h => h⟩, fun _ _ => ⟨rfl, SameClasses.refl _ _⟩⟩
      · rw [collapseLoop_none _ _ _ _ _ hcol]
      · intro h0
        cases hr with
        | nil => simp
        | cons _ S hr' =>
          cases hr' with
          | nil => simp
          | cons _ S' hr'' =>
            exfalso
            simp only [collapse] at hcol
            rw [if_pos (by simp [h0])] at hcol
            split at hcol
            · split at hcol <;> exact absurd hcol (by simp)
            · exact absurd hcol (by simp)
    cases hcol : collapse runs with
    | none => exact hdone hcol
    | some b =>
      cases hr with
      | nil => simp [collapse] at hcol
      | cons _ S hr' =>
      cases hr' with
      | nil => simp [collapse] at hcol
      | cons _ S2 hr2 =>
      rename_i rs Ss
      cases b with
      | false =>
        rw [collapseLoop_false _ _ _ _ _ _ _ hcol]
        simp only []
        have hlen : S.length + S2.length ≤ (P ++ (S :: S2 :: Ss).flatten).length := by simp; omega
        obtain ⟨o, w, s', e1, ho, hp, hcons⟩ := merge_spec lt less cap P S S2 Ss.flatten
          P.length (P.length + S.length) (P.length + S.length + S2.length) s rfl rfl rfl (by omega)
        have hform : P ++ (S :: S2 :: Ss).flatten = P ++ (S ++ S2 ++ Ss.flatten) := by simp
        rw [hform, e1]
        have hperm : (w ++ Ss.flatten).Perm (S :: S2 :: Ss).flatten := by
          have := hp.append_right Ss.flatten
          simpa using this
        cases o with
        | oob => exact absurd rfl ho
        | err er =>
          refine ⟨.err er, _, s', w ++ Ss.flatten, rfl, by simp, hperm, by simp, ?_⟩
          intro hC _; exact absurd (hcons hC).1 (by simp)
        | ok =>
          simp only []
          have hwl : w.length = S.length + S2.length := by rw [hp.length_eq]; simp
          have hr3 : RunsAt P.length (⟨P.length, S.length + S2.length⟩ :: rs) (w :: Ss) := by
            rw [← hwl]
            apply RunsAt.cons
            rw [hwl, ← Nat.add_assoc]; exact hr2
          obtain ⟨o, runs', s'', w', e2, ho2, hp2, hok, hC2⟩ := ih _ P (w :: Ss) s'
            (by simp at hn ⊢; omega) hr3 (by
              have h1 : (P ++ (w :: Ss).flatten).length = (P ++ (S :: S2 :: Ss).flatten).length := by
                simp; omega
              rw [h1]; exact hcap)
          have hform2 : P ++ (w :: Ss).flatten = P ++ (w ++ Ss.flatten) := by simp
          rw [hform2] at e2
          have hsorted : Cons lt less → (∀ S' ∈ S :: S2 :: Ss, Sorted less S') →
              ∀ S' ∈ w :: Ss, Sorted less S' := by
            intro hC hs S' hS'
            rcases List.mem_cons.1 hS' with rfl | hS'
            · exact ((hcons hC).2 (hs S (by simp)) (hs S2 (by simp))).2
            · exact hs S' (by simp [hS'])
          refine ⟨o, runs', s'', w', e2, ho2, ?_, ?_, ?_⟩
          · refine hp2.trans ?_
            simpa using hperm
          · intro h
            obtain ⟨segs', q1, q2, q3, q4⟩ := hok h
            exact ⟨segs', q1, q2, q3, fun hC hs => q4 hC (hsorted hC hs)⟩
          · intro hC hs
            obtain ⟨k1, k2⟩ := hC2 hC (hsorted hC hs)
            refine ⟨k1, k2.trans ?_⟩
            have := SameClasses.append ((hcons hC).2 (hs S (by simp)) (hs S2 (by simp))).1
              (SameClasses.refl less Ss.flatten)
            simpa using this
      | true =>
        cases hr2 with
        | nil => simp [collapse] at hcol
        | cons _ S3 hr3 =>
        rename_i rs Ss
        rw [collapseLoop_true _ _ _ _ _ _ _ _ hcol]
        simp only []
        have hlen : S2.length + S3.length ≤ (P ++ (S :: S2 :: S3 :: Ss).flatten).length := by
          simp; omega
        obtain ⟨o, w, s', e1, ho, hp, hcons⟩ := merge_spec lt less cap (P ++ S) S2 S3 Ss.flatten
          (P.length + S.length) (P.length + S.length + S2.length)
          (P.length + S.length + S2.length + S3.length) s (by simp) rfl rfl (by omega)
        have hform : P ++ (S :: S2 :: S3 :: Ss).flatten = P ++ S ++ (S2 ++ S3 ++ Ss.flatten) := by
          simp
        rw [hform, e1]
        have hperm : (S ++ (w ++ Ss.flatten)).Perm (S :: S2 :: S3 :: Ss).flatten := by
          have := (hp.append_right Ss.flatten).append_left S
          simpa using this
        cases o with
        | oob => exact absurd rfl ho
        | err er =>
          refine ⟨.err er, _, s', S ++ (w ++ Ss.flatten), by rw [List.append_assoc], by simp, hperm, by simp, ?_⟩
          intro hC _; exact absurd (hcons hC).1 (by simp)
        | ok =>
          simp only []
          have hwl : w.length = S2.length + S3.length := by rw [hp.length_eq]; simp
          have hr4 : RunsAt P.length (⟨P.length, S.length⟩ ::
              ⟨P.length + S.length, S2.length + S3.length⟩ :: rs) (S :: w :: Ss) := by
            apply RunsAt.cons
            rw [← hwl]
            apply RunsAt.cons
            rw [hwl, ← Nat.add_assoc]; exact hr3
          obtain ⟨o, runs', s'', w', e2, ho2, hp2, hok, hC2⟩ := ih _ P (S :: w :: Ss) s'
            (by simp at hn ⊢; omega) hr4 (by
              have h1 : (P ++ (S :: w :: Ss).flatten).length
                  = (P ++ (S :: S2 :: S3 :: Ss).flatten).length := by
                simp; omega
              rw [h1]; exact hcap)
          have hform2 : P ++ (S :: w :: Ss).flatten = P ++ S ++ (w ++ Ss.flatten) := by simp
          rw [hform2] at e2
          have hsorted : Cons lt less → (∀ S' ∈ S :: S2 :: S3 :: Ss, Sorted less S') →
              ∀ S' ∈ S :: w :: Ss, Sorted less S' := by
            intro hC hs S' hS'
            rcases List.mem_cons.1 hS' with rfl | hS'
            · exact hs S' (by simp)
            rcases List.mem_cons.1 hS' with rfl | hS'
            · exact ((hcons hC).2 (hs S2 (by simp)) (hs S3 (by simp))).2
            · exact hs S' (by simp [hS'])
          refine ⟨o, runs', s'', w', e2, ho2, ?_, ?_, ?_⟩
          · refine hp2.trans ?_
            simpa using hperm
          · intro h
            obtain ⟨segs', q1, q2, q3, q4⟩ := hok h
            exact ⟨segs', q1, q2, q3, fun hC hs => q4 hC (hsorted hC hs)⟩
          · intro hC hs
            obtain ⟨k1, k2⟩ := hC2 hC (hsorted hC hs)
            refine ⟨k1, k2.trans ?_⟩
            have := SameClasses.append (SameClasses.refl less S)
              (SameClasses.append ((hcons hC).2 (hs S2 (by simp)) (hs S3 (by simp))).1
              (SameClasses.refl less Ss.flatten))
            simpa using this

theorem mainLoop_spec (lt : Cmp σ ε α) (less : α → α → Bool) (cap : Nat) :
    ∀ (fuel e : Nat) (runs : List Run) (P : List α) (segs : List (List α)) (s : σ), e ≤ fuel →
      P.length = e → RunsAt e runs segs → (P ++ segs.flatten).length / 2 ≤ cap →
      (e = 0 → segs.length ≤ 1) →
      ∃ o runs' v' s', mainLoop lt cap fuel e runs (P ++ segs.flatten) s
          = some (o, runs', v', s') ∧ o ≠ .oob ∧ v'.Perm (P ++ segs.flatten) ∧
        (o = .ok → runs'.length ≤ 1) ∧
        (Cons lt less → (∀ S ∈ segs, Sorted less S) →
          o = .ok ∧ Sorted less v' ∧ SameClasses less v' (P ++ segs.flatten)) := by
  intro fuel
  have hrl : ∀ (e : Nat) (runs : List Run) (segs : List (List α)), RunsAt e runs segs →
      runs.length = segs.length := by
    intro e runs segs h
    induction h with
    | nil => rfl
    | cons _ _ _ ih => simp [ih]
  have hbase : ∀ (f : Nat) (runs : List Run) (P : List α) (segs : List (List α)) (s : σ),
      P.length = 0 → RunsAt 0 runs segs → segs.length ≤ 1 →
      ∃ o runs' v' s', mainLoop lt cap f 0 runs (P ++ segs.flatten) s
          = some (o, runs', v', s') ∧ o ≠ .oob ∧ v'.Perm (P ++ segs.flatten) ∧
        (o = .ok → runs'.length ≤ 1) ∧
        (Cons lt less → (∀ S ∈ segs, Sorted less S) →
          o = .ok ∧ Sorted less v' ∧ SameClasses less v' (P ++ segs.flatten)) := by
    intro f runs P segs s hP hr hl
    refine ⟨.ok, runs, P ++ segs.flatten, s, by rw [mainLoop], by simp, List.Perm.refl _,
      fun _ => by rw [hrl _ _ _ hr]; exact hl, fun _ hs => ⟨rfl, ?_, SameClasses.refl _ _⟩⟩
    have : P = [] := List.eq_nil_of_length_eq_zero hP
    subst this
    cases segs with
    | nil => exact List.Pairwise.nil
    | cons S Ss =>
      have : Ss = [] := List.eq_nil_of_length_eq_zero (by rw [List.length_cons] at hl; omega)
      subst this
      simpa using hs S (by simp)
  induction fuel with
  | zero =>
    intro e runs P segs s he hP hr hcap hl
    have : e = 0 := by omega
    subst this
    exact hbase 0 runs P segs s hP hr (hl rfl)
  | succ fuel ih =>
    intro e runs P segs s he hP hr hcap hl
    cases e with
    | zero => exact hbase _ runs P segs s hP hr (hl rfl)
    | succ e =>
      rw [mainLoop]
      obtain ⟨o1, st, s1, P1, S, e1, ho1, hst, hlt, hp1, hc1⟩ :=
        findRun_spec lt less P segs.flatten (e + 1) s hP.symm (by omega)
      rw [e1]
      cases o1 with
      | oob => exact absurd rfl ho1
      | err er =>
        refine ⟨.err er, runs, _, s1, rfl, by simp, ?_, by simp, ?_⟩
        · have := hp1.append_right segs.flatten
          simpa using this
        · intro hC _; exact absurd (hc1 hC).1 (by simp)
      | ok =>
        simp only []
        have hst := hst rfl
        have hlen1 : P1.length + S.length = e + 1 := by
          rw [← hP, ← hp1.length_eq]; simp
        obtain ⟨o2, st', s2, P2, S', e2, ho2, hst', hle2, hp2, hc2⟩ :=
          extendRun_spec lt less segs.flatten (e + 1) st P1 S s1 hst (by omega)
        rw [e2]
        cases o2 with
        | oob => exact absurd rfl ho2
        | err er =>
          refine ⟨.err er, runs, _, s2, rfl, by simp, ?_, by simp, ?_⟩
          · have := (hp2.trans hp1).append_right segs.flatten
            simpa using this
          · intro hC _; exact absurd (hc2 hC (hc1 hC).2.1).1 (by simp)
        | ok =>
          simp only []
          have hst' := hst' rfl
          have hlen2 : P2.length + S'.length = e + 1 := by
            have := (hp2.trans hp1).length_eq
            rw [List.length_append] at this
            omega
          have hr' : RunsAt P2.length (⟨st', e + 1 - st'⟩ :: runs) (S' :: segs) := by
            have h1 : st' = P2.length := hst'.symm
            have h2 : e + 1 - st' = S'.length := by omega
            rw [h1] at h2 ⊢
            rw [h2]
            apply RunsAt.cons
            rw [hlen2]; exact hr
          have htot : (P2 ++ (S' :: segs).flatten).length = (P ++ segs.flatten).length := by
            simp; omega
          obtain ⟨o3, runs', s3, w, e3, ho3, hp3, hok3, hc3⟩ :=
            collapseLoop_spec lt less cap _ _ P2 (S' :: segs) s2 rfl hr' (by rw [htot]; exact hcap)
          have hform : P2 ++ (S' :: segs).flatten = P2 ++ (S' ++ segs.flatten) := by simp
          rw [hform] at e3
          rw [e3]
          have hperm3 : (P2 ++ w).Perm (P ++ segs.flatten) := by
            have h1 := hp3.append_left P2
            have h2 := (hp2.trans hp1).append_right segs.flatten
            refine h1.trans ?_
            simpa using h2
          have hclass : Cons lt less → (∀ S ∈ segs, Sorted less S) →
              SameClasses less (P2 ++ w) (P ++ segs.flatten) ∧ ∀ T ∈ S' :: segs, Sorted less T := by
            intro hC hs
            obtain ⟨a1, a2, a3⟩ := hc1 hC
            obtain ⟨b1, b2, b3⟩ := hc2 hC a2
            have hs' : ∀ T ∈ S' :: segs, Sorted less T := by
              intro T hT
              rcases List.mem_cons.1 hT with rfl | hT
              · exact b2
              · exact hs T hT
            obtain ⟨c1, c2⟩ := hc3 hC hs'
            refine ⟨?_, hs'⟩
            have h1 := SameClasses.append (SameClasses.refl less P2) c2
            have h2 := SameClasses.append (b3.trans a3) (SameClasses.refl less segs.flatten)
            refine h1.trans ?_
            simpa using h2
          cases o3 with
          | oob => exact absurd rfl ho3
          | err er =>
            refine ⟨.err er, _, _, s3, rfl, by simp, hperm3, by simp, ?_⟩
            intro hC hs
            exact absurd (hc3 hC (hclass hC hs).2).1 (by simp)
          | ok =>
            simp only []
            obtain ⟨segs', q1, q2, q3, q4⟩ := hok3 rfl
            subst q2
            obtain ⟨o4, runs4, v4, s4, e4, ho4, hp4, hok4, hc4⟩ := ih st' runs' P2 segs' s3 (by omega)
              hst' (by rw [← hst']; exact q1)
              (by rw [hperm3.length_eq]; exact hcap) (by intro h; apply q3; omega)
            refine ⟨o4, runs4, v4, s4, e4, ho4, hp4.trans hperm3, hok4, ?_⟩
            intro hC hs
            obtain ⟨d1, d2⟩ := hclass hC hs
            obtain ⟨k1, k2, k3⟩ := hc4 hC (q4 hC d2)
            exact ⟨k1, k2, k3.trans d1⟩

theorem insertionLoop_spec (lt : Cmp σ ε α) (less : α → α → Bool) (len : Nat) :
    ∀ (n : Nat) (P S : List α) (s : σ), P.length = n → len = P.length + S.length →
      ∃ o v' s', insertionLoop lt len n (P ++ S) s = (o, v', s') ∧ o ≠ .oob ∧
        v'.Perm (P ++ S) ∧
        (Cons lt less → Sorted less S → o = .ok ∧ Sorted less v' ∧ SameClasses less v' (P ++ S)) := by
  intro n
  induction n with
  | zero =>
    intro P S s hP hlen
    have : P = [] := List.eq_nil_of_length_eq_zero hP
    subst this
    exact ⟨.ok, _, s, rfl, by simp, List.Perm.refl _, fun _ hs => ⟨rfl, hs, SameClasses.refl _ _⟩⟩
  | succ n ih =>
    intro P S s hP hlen
    rcases List.eq_nil_or_concat P with h | ⟨P', x, h⟩
    · subst h; simp at hP
    simp only [List.concat_eq_append] at h
    subst h
    have hn : P'.length = n := by simpa using hP
    obtain ⟨o, w, s', e1, ho, hp, hcons⟩ := insertHead_spec lt less P' [] x S n len s hn.symm
      (by rw [hlen]; simp)
    have hform : P' ++ [x] ++ S = P' ++ (x :: S ++ []) := by simp
    have hperm : (P' ++ w).Perm (P' ++ [x] ++ S) := by
      have := hp.append_left P'
      simpa using this
    rw [insertionLoop, hform, e1]
    cases o with
    | oob => exact absurd rfl ho
    | err er =>
      refine ⟨.err er, _, s', rfl, by simp, by simpa using hperm, ?_⟩
      intro hC _; exact absurd (hcons hC).1 (by simp)
    | ok =>
      simp only [List.append_nil]
      obtain ⟨o, v', s'', e2, ho2, hp2, hc2⟩ := ih P' w s' hn
        (by rw [hlen, hp.length_eq]; simp; omega)
      refine ⟨o, v', s'', e2, ho2, by simpa using hp2.trans hperm, ?_⟩
      intro hC hs
      obtain ⟨g1, g2, g3⟩ := hcons hC
      obtain ⟨k1, k2, k3⟩ := hc2 hC (g3 hs)
      refine ⟨k1, k2, k3.trans ?_⟩
      exact SameClasses.append (SameClasses.refl less P') g2

/-- Everything about one run of the sort. -/
theorem sort_spec (lt : Cmp σ ε α) (less : α → α → Bool) (v : List α) (s : σ) :
    ∃ o v' s', sort lt v s = some (o, v', s') ∧ o ≠ .oob ∧ v'.Perm v ∧
      (Cons lt less → o = .ok ∧ Sorted less v' ∧ SameClasses less v' v) := by
  unfold sort mergeSort
  by_cases h1 : v.length ≤ MAX_INSERTION
  · rw [if_pos h1]
    by_cases h2 : v.length ≥ 2
    · rw [if_pos h2]
      rcases List.eq_nil_or_concat v with h | ⟨P, x, h⟩
      · subst h; simp at h2
      simp only [List.concat_eq_append] at h
      obtain ⟨o, v', s', e, ho, hp, hc⟩ := insertionLoop_spec lt less v.length (v.length - 1) P [x] s
        (by rw [h]; simp) (by rw [h]; simp)
      rw [h] at e ⊢
      rw [e]
      refine ⟨o, v', s', rfl, ho, hp, fun hC => hc hC (by simp [Sorted])⟩
    · rw [if_neg h2]
      refine ⟨.ok, v, s, rfl, by simp, List.Perm.refl _, fun _ => ⟨rfl, ?_, SameClasses.refl _ _⟩⟩
      cases v with
      | nil => exact List.Pairwise.nil
      | cons a v =>
        cases v with
        | nil => simp [Sorted]
        | cons b v => simp at h2
  · rw [if_neg h1]
    have hpos : v.length ≠ 0 := by intro h; rw [h] at h1; exact h1 (by decide)
    obtain ⟨o, runs', v', s', e, ho, hp, -, hc⟩ := mainLoop_spec lt less (mergeScratchLen v.length)
      v.length v.length [] v [] s (le_refl _) rfl (.nil _)
      (by simp [mergeScratchLen, h1]) (fun h => absurd h hpos)
    simp only [List.flatten_nil, List.append_nil] at e hp hc
    rw [e]
    exact ⟨o, v', s', rfl, ho, hp, fun hC => hc hC (by simp)⟩

end Verif.Sort
