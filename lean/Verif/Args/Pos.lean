import Verif.Args.Model
import Mathlib.Tactic.SplitIfs

/-! Helper lemmas: what `fill_positional_args` leaves in each slot. -/
namespace Verif.Args

/-- The count of arguments after padding or truncating for a block. -/
def effN (p : Params) (n : Nat) : Nat :=
  if p.blockStyle then (if n < p.min then p.min else if p.isRest then n else min n p.max) else n

/-- Slot `i` when argument `j` is `g j` and there are `n` of them. -/
def slotAt (p : Params) (g : Nat → Val) (n i : Nat) : Option Val :=
  let k := min (n - p.min) p.opt
  if i < p.req then some (g i)
  else if i < p.reqopt then (if i < p.req + k then some (g i) else none)
  else if p.isRest = true ∧ i = p.reqopt then
    some (.arr ((List.range (n - p.min - k)).map fun j => g (p.req + k + j)))
  else some (g (n - p.post + (i - p.postPos)))

/-- The frame after binding. -/
def bound (p : Params) (f : Frame) (g : Nat → Val) (n : Nat) : Frame :=
  fun i => if i < p.total then slotAt p g n i else f i

/-- Whether the positional count is rejected. -/
def badArity (p : Params) (n : Nat) : Bool :=
  !p.blockStyle && (decide (n < p.min) || (decide (p.max < n) && !p.isExplicitRest))

theorem restSlice_eq (src : Src) (a b : Nat) (h : a ≤ b) :
    restSlice src a b = (List.range (b - a)).map fun j => src.rd (a + j) := by
  unfold restSlice
  split
  next hu =>
    apply List.map_congr_left
    intro i _
    simp only [Src.rd, hu, if_true]
    congr 1; omega
  next hu =>
    apply List.ext_getElem
    · simp
    · intro i h1 h2
      simp only [List.length_reverse, List.length_map, List.length_range] at h1
      simp only [List.getElem_reverse, List.getElem_map, List.getElem_range, List.length_map,
        List.length_range, Src.rd]
      have : src.up = false := by simpa using hu
      rw [this]
      simp only [Bool.false_eq_true, if_false]
      congr 1; omega

theorem restSlice_empty (src : Src) (a : Nat) : restSlice src a a = [] := by
  unfold restSlice; split <;> simp

theorem fill_ok {f : Frame} {s e : Nat} {v : Option Val} (h : s ≤ e) :
    fill f s e v = .ok fun i => if s ≤ i ∧ i < e then v else f i := by
  unfold fill; rw [if_neg (by omega)]

theorem fillPositional_eq (p : Params) (f : Frame) (src : Src) (n : Nat) (g : Nat → Val)
    (hr : ∀ i, i < n → src.rd i = g i) (hn : ∀ i, n ≤ i → g i = .nil) :
    fillPositional p f src n =
      if badArity p n then .error (.arity n p.min p.max) else .ok (bound p f g (effN p n)) := by
  unfold fillPositional
  by_cases hb : badArity p n = true
  · have hb' := hb
    unfold badArity at hb'
    simp only [hb, hb', if_true]
    rfl
  · have hb' := hb
    unfold badArity at hb'
    simp only [hb, hb', if_false, Bool.false_eq_true]
    have hacc : p.blockStyle = true ∨ (p.min ≤ n ∧ (n ≤ p.max ∨ p.isExplicitRest = true)) := by
      cases h : p.blockStyle
      · right
        simp [h] at hb'
        refine ⟨hb'.1, ?_⟩
        by_cases h2 : n ≤ p.max
        · exact .inl h2
        · exact .inr (hb'.2 (by omega))
      · exact .inl rfl
    have hexp : p.isExplicitRest = true → p.isRest = true := by
      unfold Params.isExplicitRest Params.isRest
      cases p.rest <;> simp
    have e1 : p.min = p.req + p.post := rfl
    have e2 : p.max = p.req + p.opt + p.post := rfl
    have e3 : p.reqopt = p.req + p.opt := rfl
    have e4 : p.total = p.max + (if p.isRest then 1 else 0) := rfl
    have e5 : p.postPos = p.reqopt + (if p.isRest then 1 else 0) := rfl
    have hN : effN p n = if n < p.min then p.min else if p.isRest then n else min n p.max := by
      unfold effN
      cases hbs : p.blockStyle
      · rcases hacc with h | ⟨h, h'⟩
        · simp [hbs] at h
        · simp only [Bool.false_eq_true, if_false, show ¬ n < p.min by omega]
          split_ifs with hR
          · rfl
          · rcases h' with h' | h'
            · omega
            · exact absurd (hexp h') hR
      · rfl
    have fin : ∀ (f1 : Frame) (off1 b0 a1 b1 ra rb : Nat), ra ≤ rb →
        (∀ i, i ≠ p.reqopt ∨ p.isRest = false →
          memcpy (memcpy f1 0 src 0 b0) off1 src a1 b1 i = bound p f g (effN p n) i) →
        (p.isRest = true → rb ≤ n ∧
          ((ra = p.req + min (effN p n - p.min) p.opt ∧ rb - ra = effN p n - p.min - min (effN p n - p.min) p.opt)
          ∨ (rb = ra ∧ effN p n - p.min - min (effN p n - p.min) p.opt = 0))) →
        (if p.isRest then (memcpy (memcpy f1 0 src 0 b0) off1 src a1 b1).set p.reqopt
            (some (.arr (restSlice src ra rb))) else memcpy (memcpy f1 0 src 0 b0) off1 src a1 b1)
          = bound p f g (effN p n) := by
      intro f1 off1 b0 a1 b1 ra rb hab hs hrst
      funext i
      cases hR : p.isRest
      · simp only [Bool.false_eq_true, if_false]
        exact hs i (.inr hR)
      · simp only [if_true, Frame.set]
        by_cases hi : i = p.reqopt
        · rw [if_pos hi]
          obtain ⟨h1, h3⟩ := hrst hR
          have ht : p.reqopt < p.total := by simp only [hR, if_true] at e4; omega
          simp only [bound, hi, ht, if_true, slotAt, show ¬ p.reqopt < p.req by omega, if_false, Nat.lt_irrefl, hR, and_self]
          congr 2
          rw [restSlice_eq _ _ _ hab]
          rcases h3 with ⟨h3, h4⟩ | ⟨h3, h4⟩
          · rw [h4, ← h3]
            apply List.map_congr_left
            intro j hj
            have := List.mem_range.mp hj
            exact hr _ (by omega)
          · rw [h4, h3]; simp
        · rw [if_neg hi]
          exact hs i (.inl hi)
    have hTP : p.total = p.postPos + p.post := by rw [e4, e5]; omega
    have hPR : p.reqopt ≤ p.postPos := by rw [e5]; omega
    have hPR1 : p.isRest = true → p.postPos = p.reqopt + 1 := by intro h; rw [e5, h]; rfl
    have hPR0 : p.isRest = false → p.postPos = p.reqopt := by intro h; rw [e5, h]; rfl
    clear e4 e5 hb hb'
    by_cases h1 : n ≤ p.req
    · simp only [h1, if_true]
      rw [fill_ok h1]
      simp only [bind, Except.bind, pure, Except.pure]
      rw [fill_ok (show p.req ≤ p.reqopt by omega)]
      simp only []
      rw [fill_ok (show p.postPos ≤ p.total by omega)]
      simp only []
      have hN' : effN p n = p.min := by rw [hN]; split_ifs <;> omega
      congr 1
      apply fin
      · omega
      · intro i hi
        rw [hN']
        simp only [bound, slotAt, memcpy, Nat.sub_self, Nat.zero_min, Nat.add_zero, Nat.zero_add, Nat.sub_zero]
        cases hR : p.isRest
        · have := hPR0 hR
          simp only [Bool.false_eq_true, false_and, if_false]
          split_ifs <;> first | rfl | (exfalso; omega) | (rw [hr _ (by omega)]) | (rw [hn _ (by omega)])
        · have := hPR1 hR
          have hi' : i ≠ p.reqopt := by simpa [hR] using hi
          simp only [hi', and_false, if_false]
          split_ifs <;> first | rfl | (exfalso; omega) | (rw [hr _ (by omega)]) | (rw [hn _ (by omega)])
      · intro hR; rw [hN']; omega
    · simp only [h1, if_false]
      by_cases h2 : n ≤ p.min
      · simp only [h2, if_true]
        rw [fill_ok (show p.req ≤ p.reqopt by omega)]
        simp only [bind, Except.bind, pure, Except.pure]
        rw [fill_ok (show p.postPos + (n - p.req) ≤ p.total by omega)]
        simp only []
        have hN' : effN p n = p.min := by rw [hN]; split_ifs <;> omega
        congr 1
        apply fin
        · omega
        · intro i hi
          rw [hN']
          simp only [bound, slotAt, memcpy, Nat.sub_self, Nat.zero_min, Nat.add_zero, Nat.zero_add, Nat.sub_zero]
          have hs : p.min - p.post = p.req := by omega
          cases hR : p.isRest
          · have := hPR0 hR
            rw [hs]
            simp only [Bool.false_eq_true, false_and, if_false]
            split_ifs <;> first | rfl | (exfalso; omega) | (rw [hr _ (by omega)]) | (rw [hn _ (by omega)])
          · have := hPR1 hR
            have hi' : i ≠ p.reqopt := by simpa [hR] using hi
            rw [hs]
            simp only [hi', and_false, if_false]
            split_ifs <;> first | rfl | (exfalso; omega) | (rw [hr _ (by omega)]) | (rw [hn _ (by omega)])
        · intro hR; rw [hN']; omega
      · simp only [h2, if_false]
        by_cases h3 : n ≤ p.max
        · simp only [h3, if_true]
          rw [fill_ok (show p.req + (n - p.req - p.post) ≤ p.reqopt by omega)]
          simp only [bind, Except.bind, pure, Except.pure]
          have hN' : effN p n = n := by rw [hN]; split_ifs <;> omega
          have hk : min (n - p.min) p.opt = n - p.req - p.post := by omega
          congr 1
          apply fin
          · omega
          · intro i hi
            rw [hN']
            simp only [bound, slotAt, memcpy, Nat.zero_add, Nat.sub_zero, hk]
            have hs : n - p.post = p.req + (n - p.req - p.post) := by omega
            cases hR : p.isRest
            · have := hPR0 hR
              rw [hs]
              simp only [Bool.false_eq_true, false_and, if_false]
              split_ifs <;> first | rfl | (exfalso; omega) | (rw [hr _ (by omega)]) | (rw [hn _ (by omega)])
            · have := hPR1 hR
              have hi' : i ≠ p.reqopt := by simpa [hR] using hi
              rw [hs]
              simp only [hi', and_false, if_false]
              split_ifs <;> first | rfl | (exfalso; omega) | (rw [hr _ (by omega)]) | (rw [hn _ (by omega)])
          · intro hR; rw [hN']; omega
        · simp only [h3, if_false]
          cases hR : p.isRest
          · simp only [Bool.false_eq_true, if_false, bind, Except.bind, pure, Except.pure]
            have := hPR0 hR
            have hN' : effN p n = p.max := by rw [hN, hR]; simp only [Bool.false_eq_true, if_false]; split_ifs <;> omega
            have hk : min (p.max - p.min) p.opt = p.opt := by omega
            have := fin f p.postPos p.reqopt p.reqopt p.total p.reqopt p.reqopt (Nat.le_refl _) (by
              intro i hi
              rw [hN']
              simp only [bound, slotAt, memcpy, Nat.zero_add, Nat.sub_zero, hk, hR]
              have hs : p.max - p.post = p.reqopt := by omega
              rw [hs]
              simp only [Bool.false_eq_true, false_and, if_false]
              split_ifs <;> first | rfl | (exfalso; omega) | (rw [hr _ (by omega)]) | (rw [hn _ (by omega)])) (by simp [hR])
            rw [hR] at this
            simp only [Bool.false_eq_true, if_false] at this
            rw [this]
          · simp only [if_true, bind, Except.bind, pure, Except.pure]
            have := hPR1 hR
            have hN' : effN p n = n := by rw [hN, hR]; simp only [if_true]; split_ifs <;> omega
            have hk : min (n - p.min) p.opt = p.opt := by omega
            have hs : n + p.postPos - p.total = n - p.post := by omega
            have := fin f p.postPos p.reqopt (n + p.postPos - p.total) n p.reqopt (n + p.postPos - p.total) (by omega) (by
              intro i hi
              have hi' : i ≠ p.reqopt := by simpa [hR] using hi
              rw [hN', hs]
              simp only [bound, slotAt, memcpy, Nat.zero_add, Nat.sub_zero, hk]
              simp only [hi', and_false, if_false]
              split_ifs <;> first | rfl | (exfalso; omega) | (rw [hr _ (by omega)]) | (rw [hn _ (by omega)])) (by intro _; rw [hN']; omega)
            rw [hR] at this
            simp only [if_true] at this
            rw [this]

theorem slice_rd (l : List Val) (i : Nat) : (Src.slice l).rd i = l.getD i .nil := by
  simp [Src.slice, Src.rd]

theorem slots_rd (l : List Val) (i : Nat) : (Src.slots l).rd i = l.getD i .nil := by
  simp [Src.slots, Src.rd]

theorem getD_ge (l : List Val) (i : Nat) (h : l.length ≤ i) : l.getD i .nil = .nil := by
  simp [List.getD, List.getElem?_eq_none h]

/-- The frame an argument list is bound to. -/
def boundL (p : Params) (f : Frame) (l : List Val) : Frame :=
  bound p f (fun i => l.getD i .nil) (effN p l.length)

/-- The result of positional binding. -/
def bindL (p : Params) (f : Frame) (l : List Val) : Except Err Frame :=
  if badArity p l.length then .error (.arity l.length p.min p.max) else .ok (boundL p f l)

theorem fillSlice_eq (p : Params) (f : Frame) (l : List Val) : fillSlice p f l = bindL p f l :=
  fillPositional_eq p f _ _ _ (fun i _ => slice_rd l i) (fun i h => getD_ge l i h)

theorem fillSlots_eq (p : Params) (f : Frame) (l : List Val) : fillSlots p f l = bindL p f l :=
  fillPositional_eq p f _ _ _ (fun i _ => slots_rd l i) (fun i h => getD_ge l i h)

end Verif.Args
