import Verif.Arr.SelectLemmas
import Mathlib.Tactic.Tauto

namespace Verif.Arr

/-! ## permutation -/

/-- `permScan` on the positions from some place on. -/
def stepP : List Nat → List Nat → Bool × List Nat × List Nat
  | xs, [] => (false, xs, [])
  | [], cs => (false, [], cs)
  | x :: xs, c :: cs => match stepP xs cs with
    | (true, xs', cs') => (true, x :: xs', c :: cs')
    | (false, xs', cs') =>
      if c - 1 = 0 then (false, xs' ++ [x], (xs'.length + 1) :: cs')
      else (true, swapEnd 0 (c - 1) (x :: xs'), (c - 1) :: cs')

/-- There are no more cycles than positions left. -/
def CyOk : Nat → List Nat → Prop
  | _, [] => True
  | 0, _ :: _ => False
  | s + 1, c :: cs => c ≤ s + 1 ∧ CyOk s cs

theorem stepP_length (cs : List Nat) : ∀ xs, (stepP xs cs).2.1.length = xs.length ∧
    (stepP xs cs).2.2.length = cs.length := by
  induction cs with
  | nil => intro xs; cases xs <;> simp [stepP]
  | cons c cs ih =>
    intro xs
    cases xs with
    | nil => simp [stepP]
    | cons x xs =>
      have := ih xs
      rw [stepP]
      rcases h : stepP xs cs with ⟨b, xs', cs'⟩
      rw [h] at this
      cases b
      · simp only
        split
        · simp_all
        · simp_all [swapEnd]
      · simp_all

theorem foldl_shift (ys : List Nat) : ∀ (pre : List Nat) (x : Nat),
    ∃ z, (List.range' pre.length ys.length).foldl (fun ix j => ix.set j (ix.getD (j + 1) 0)) (pre ++ x :: ys) =
      pre ++ ys ++ [z] := by
  induction ys with
  | nil => intro pre x; exact ⟨x, by simp⟩
  | cons y ys ih =>
    intro pre x
    rw [List.length_cons, List.range'_succ, List.foldl_cons]
    have e : (pre ++ x :: y :: ys).set pre.length ((pre ++ x :: y :: ys).getD (pre.length + 1) 0) =
        (pre ++ [y]) ++ y :: ys := by
      simp
    rw [e]
    obtain ⟨z, hz⟩ := ih (pre ++ [y]) y
    rw [List.length_append, List.length_singleton] at hz
    exact ⟨z, by rw [hz]; simp⟩

theorem moveToEnd_eq (pre : List Nat) (x : Nat) (ys : List Nat) :
    moveToEnd (pre.length + ys.length + 1) pre.length (pre ++ x :: ys) = pre ++ ys ++ [x] := by
  rw [moveToEnd, show pre.length + ys.length + 1 - 1 - pre.length = ys.length by omega]
  obtain ⟨z, hz⟩ := foldl_shift ys pre x
  rw [hz]
  have h1 : (pre ++ x :: ys).getD pre.length 0 = x := by simp
  have h2 : pre.length + ys.length + 1 - 1 = (pre ++ ys).length := by simp
  rw [h1, h2]
  simp

theorem swapEnd_eq (pre l : List Nat) (c : Nat) (hl : 0 < l.length) (hc : c ≤ l.length) :
    swapEnd pre.length c (pre ++ l) = pre ++ swapEnd 0 c l := by
  have e : (pre ++ l).length - c = pre.length + (l.length - c) := by simp; omega
  simp only [swapEnd]
  rw [e]
  simp [List.getElem?_append, show ¬ pre.length + (l.length - c) < pre.length by omega]

theorem permScan_eq (cs : List Nat) : ∀ (pre prc xs : List Nat), prc.length = pre.length → CyOk xs.length cs →
    permScan (pre.length + xs.length) (pre.length + xs.length) (pre ++ xs) (prc ++ cs) (prc.length + cs.length) =
      match stepP xs cs with
      | (true, xs', cs') => (true, pre ++ xs', prc ++ cs')
      | (false, xs', cs') =>
        permScan (pre.length + xs.length) (pre.length + xs.length) (pre ++ xs') (prc ++ cs') prc.length := by
  induction cs with
  | nil => intro pre prc xs h _; cases xs <;> simp [stepP]
  | cons c cs ih =>
    intro pre prc xs h hok
    cases xs with
    | nil => exact absurd hok (by simp [CyOk])
    | cons x xs =>
      obtain ⟨hc, hok⟩ := hok
      have h1 := ih (pre ++ [x]) (prc ++ [c]) xs (by simp [h]) hok
      have hlen := stepP_length cs xs
      simp only [List.append_assoc, List.singleton_append, List.length_append, List.length_singleton] at h1
      rw [List.length_cons, List.length_cons, show prc.length + (cs.length + 1) = prc.length + 1 + cs.length by omega,
        show pre.length + (xs.length + 1) = pre.length + 1 + xs.length by omega, h1, stepP]
      rcases hs : stepP xs cs with ⟨b, xs', cs'⟩
      rw [hs] at hlen
      simp only at hlen
      cases b with
      | true => rfl
      | false =>
        simp only
        rw [permScan]
        have hg : (prc ++ c :: cs').getD prc.length 0 = c := by simp
        have hset : ∀ v, (prc ++ c :: cs').set prc.length v = prc ++ v :: cs' := by intro v; simp
        simp only [hg, hset]
        by_cases hz : c - 1 = 0
        · rw [if_pos hz, if_pos hz]
          simp only
          have hm := moveToEnd_eq pre x xs'
          rw [hlen.1, show pre.length + xs.length + 1 = pre.length + 1 + xs.length by omega] at hm
          rw [h, hm, hlen.1, show pre.length + 1 + xs.length - pre.length = xs.length + 1 by omega,
            List.append_assoc]
        · rw [if_neg hz, if_neg hz]
          simp only
          rw [h, swapEnd_eq pre (x :: xs') (c - 1) (by simp) (by simp; omega)]

/-- One round on positions and cycles. -/
def stepN (s : List Nat × List Nat) : Option (List Nat × List Nat) :=
  match stepP s.1 s.2 with
  | (true, xs, cs) => some (xs, cs)
  | (false, _) => none

/-- The states at a level. -/
def permStates : Nat → List Nat → List (List Nat × List Nat)
  | 0, S => [(S, [])]
  | m + 1, S => (List.range S.length).flatMap fun k =>
      (permStates m (S.eraseIdx k)).map fun s => (S.getD k 0 :: s.1, (S.length - k) :: s.2)

theorem initCycles_succ (s m : Nat) : initCycles (s + 1) (m + 1) = (s + 1) :: initCycles s m := by
  simp [initCycles, List.range_succ_eq_map, Function.comp_def]

theorem permStates_ok (m : Nat) : ∀ (S : List Nat), m ≤ S.length → ∀ s, s ∈ permStates m S →
    s.1.length = S.length ∧ s.2.length = m ∧ CyOk S.length s.2 := by
  induction m with
  | zero => intro S _ s hs; simp [permStates] at hs; simp [hs, CyOk]
  | succ m ih =>
    intro S hm s hs
    simp only [permStates, List.mem_flatMap, List.mem_map, List.mem_range] at hs
    obtain ⟨k, hk, s, hs, rfl⟩ := hs
    have hl : (S.eraseIdx k).length = S.length - 1 := by rw [List.length_eraseIdx, if_pos hk]
    obtain ⟨h1, h2, h3⟩ := ih _ (by omega) s hs
    refine ⟨by simp; omega, by simp [h2], ?_⟩
    rw [hl] at h3
    rw [show S.length = (S.length - 1) + 1 by omega]
    exact ⟨by omega, h3⟩

theorem swap_level (S : List Nat) (k : Nat) (hk : k + 1 < S.length) :
    swapEnd 0 (S.length - k - 1) (S.getD k 0 :: S.eraseIdx k) = S.getD (k + 1) 0 :: S.eraseIdx (k + 1) := by
  have hl : (S.eraseIdx k).length = S.length - 1 := by rw [List.length_eraseIdx, if_pos (by omega)]
  have e : (S.getD k 0 :: S.eraseIdx k).length - (S.length - k - 1) = k + 1 := by simp [hl]; omega
  simp only [swapEnd]
  rw [e]
  apply List.ext_getElem?
  intro i
  rcases i with _ | i
  · simp [List.getElem?_eraseIdx]
  · simp only [List.set_cons_succ, List.getElem?_cons_succ, List.getD_cons_zero, List.set_cons_zero,
      List.getD_cons_succ]
    rw [List.getElem?_set, List.getElem?_eraseIdx, List.getElem?_eraseIdx]
    by_cases h1 : k = i
    · subst h1
      simp only [if_true, hl]
      rw [if_pos (by omega), if_pos (by omega)]
      simp [List.getElem?_eq_getElem (show k < S.length by omega)]
    · rw [if_neg h1]
      by_cases h2 : i < k
      · rw [if_pos h2, if_pos (by omega)]
      · rw [if_neg h2, if_neg (by omega)]

theorem perm_loop (m : Nat) : ∀ (S : List Nat), m ≤ S.length →
    Loop stepN (S, initCycles S.length m) (permStates m S) none ∧
    ∀ s, s ∈ permStates m S → stepN s = none → stepP s.1 s.2 = (false, S, initCycles S.length m) := by
  induction m with
  | zero =>
    intro S _
    refine ⟨.last ?_, ?_⟩
    · cases S <;> rfl
    · intro s hs _
      simp only [permStates, List.mem_singleton] at hs
      subst hs
      cases S <;> rfl
  | succ m ih =>
    intro S hm
    have hl : ∀ k, k < S.length → (S.eraseIdx k).length = S.length - 1 := by
      intro k hk; rw [List.length_eraseIdx, if_pos hk]
    have hinit : initCycles S.length (m + 1) = S.length :: initCycles (S.length - 1) m := by
      have := initCycles_succ (S.length - 1) m
      rwa [show S.length - 1 + 1 = S.length by omega] at this
    -- a state whose tail is at its end
    have hend : ∀ k, k < S.length → ∀ s, s ∈ permStates m (S.eraseIdx k) → stepN s = none →
        stepP (S.getD k 0 :: s.1) ((S.length - k) :: s.2) =
          if S.length - k - 1 = 0 then (false, S, initCycles S.length (m + 1))
          else (true, S.getD (k + 1) 0 :: S.eraseIdx (k + 1), (S.length - (k + 1)) :: initCycles (S.length - 1) m) := by
      intro k hk s hs hn
      have := (ih (S.eraseIdx k) (by rw [hl k hk]; omega)).2 s hs hn
      rw [stepP, this]
      simp only
      rw [hl k hk]
      by_cases hz : S.length - k - 1 = 0
      · rw [if_pos hz, if_pos hz, hinit, show S.length - 1 + 1 = S.length by omega]
        have : S.eraseIdx k ++ [S.getD k 0] = S := by
          have hk' : k = S.length - 1 := by omega
          subst hk'
          rw [List.eraseIdx_length_sub_one]
          have hne : S ≠ [] := by intro h; simp [h] at hk
          have h2 : S.getD (S.length - 1) 0 = S.getLast hne := by
            rw [List.getLast_eq_getElem]; simp [List.getElem?_eq_getElem (show S.length - 1 < S.length by omega)]
          rw [h2, List.dropLast_concat_getLast]
        rw [this]
      · rw [if_neg hz, if_neg hz, swap_level S k (by omega), show S.length - k - 1 = S.length - (k + 1) by omega]
    have hgo : ∀ k, ∀ s s', stepN s = some s' →
        stepN (S.getD k 0 :: s.1, (S.length - k) :: s.2) = some (S.getD k 0 :: s'.1, (S.length - k) :: s'.2) := by
      intro k s s' h
      rw [stepN] at h
      rw [stepN, stepP]
      rcases hs : stepP s.1 s.2 with ⟨b, xs, cs⟩
      rw [hs] at h
      cases b
      · simp at h
      · simp only [Option.some.injEq] at h; subst h; rfl
    constructor
    · have piece : ∀ k, k < S.length → Loop stepN (S.getD k 0 :: S.eraseIdx k, (S.length - k) :: initCycles (S.length - 1) m)
          ((permStates m (S.eraseIdx k)).map fun s => (S.getD k 0 :: s.1, (S.length - k) :: s.2))
          (if S.length - k - 1 = 0 then none
           else some (S.getD (k + 1) 0 :: S.eraseIdx (k + 1), (S.length - (k + 1)) :: initCycles (S.length - 1) m)) := by
        intro k hk
        have := (ih (S.eraseIdx k) (by rw [hl k hk]; omega)).1
        rw [hl k hk] at this
        refine this.map (fun s => (S.getD k 0 :: s.1, (S.length - k) :: s.2)) (fun s s' _ => hgo k s s') ?_
        intro s hs hn
        rw [stepN]
        simp only
        rw [hend k hk s hs hn]
        by_cases hz : S.length - k - 1 = 0
        · rw [if_pos hz, if_pos hz]
        · rw [if_neg hz, if_neg hz]
      have main : ∀ d k, k + d + 1 = S.length →
          Loop stepN (S.getD k 0 :: S.eraseIdx k, (S.length - k) :: initCycles (S.length - 1) m)
            ((List.range' k (d + 1)).flatMap fun k =>
              (permStates m (S.eraseIdx k)).map fun s => (S.getD k 0 :: s.1, (S.length - k) :: s.2)) none := by
        intro d
        induction d with
        | zero =>
          intro k hk
          have := piece k (by omega)
          rw [if_pos (by omega)] at this
          simpa using this
        | succ d ihd =>
          intro k hk
          have := piece k (by omega)
          rw [if_neg (by omega)] at this
          rw [List.range'_succ, List.flatMap_cons]
          exact this.append (ihd (k + 1) (by omega))
      have := main (S.length - 1) 0 (by omega)
      rw [show S.length - 1 + 1 = S.length by omega, ← List.range_eq_range'] at this
      rw [permStates, hinit]
      cases S with
      | nil => simp at hm
      | cons x S => simpa using this
    · intro s hs hn
      simp only [permStates, List.mem_flatMap, List.mem_map, List.mem_range] at hs
      obtain ⟨k, hk, s, hs, rfl⟩ := hs
      have hn' : stepN s = none := by
        cases h : stepN s with
        | none => rfl
        | some s' => rw [hgo k s s' h] at hn; simp at hn
      have := hend k hk s hs hn'
      rw [stepN] at hn
      simp only at hn ⊢
      rw [this] at hn ⊢
      by_cases hz : S.length - k - 1 = 0
      · rw [if_pos hz]
      · rw [if_neg hz] at hn; simp at hn

/-- What is yielded, as positions. -/
def perms : Nat → List Nat → List (List Nat)
  | 0, _ => [[]]
  | m + 1, S => (List.range S.length).flatMap fun k => (perms m (S.eraseIdx k)).map (S.getD k 0 :: ·)

theorem permStates_perms (m : Nat) : ∀ S, (permStates m S).map (fun s => s.1.take m) = perms m S := by
  induction m with
  | zero => intro S; simp [permStates, perms]
  | succ m ih =>
    intro S
    simp only [permStates, perms, List.map_flatMap, List.map_map]
    congr 1
    funext k
    rw [← ih, List.map_map]
    rfl

theorem getD_lt (S : List Nat) (hS : S.Pairwise (· < ·)) (i j : Nat) (hij : i < j) (hj : j < S.length) :
    S.getD i 0 < S.getD j 0 := by
  have := List.pairwise_iff_getElem.1 hS i j (by omega) hj hij
  simpa [List.getElem?_eq_getElem hj, List.getElem?_eq_getElem (show i < S.length by omega)] using this

theorem perms_sorted (m : Nat) : ∀ S : List Nat, S.Pairwise (· < ·) → (perms m S).Pairwise (List.Lex (· < ·)) := by
  induction m with
  | zero => intro S _; simp [perms]
  | succ m ih =>
    intro S hS
    rw [perms, List.pairwise_flatMap]
    constructor
    · intro k _
      rw [List.pairwise_map]
      exact (ih _ (hS.sublist (List.eraseIdx_sublist S k))).imp fun h => .cons h
    · rw [List.pairwise_iff_getElem]
      intro i j hi hj hij x hx y hy
      simp only [List.length_range] at hi hj
      simp only [List.getElem_range, List.mem_map] at hx hy
      obtain ⟨x, -, rfl⟩ := hx
      obtain ⟨y, -, rfl⟩ := hy
      exact .rel (getD_lt S hS i j hij hj)

theorem perms_mem (m : Nat) : ∀ S : List Nat, S.Nodup → ∀ ix, ix ∈ perms m S ↔
    ix.length = m ∧ ix.Nodup ∧ ∀ i ∈ ix, i ∈ S := by
  induction m with
  | zero =>
    intro S _ ix
    simp only [perms, List.mem_singleton]
    constructor
    · rintro rfl; simp
    · intro h; exact List.eq_nil_of_length_eq_zero h.1
  | succ m ih =>
    intro S hS ix
    have hmem : ∀ k (hk : k < S.length) i, i ∈ S.eraseIdx k ↔ i ∈ S ∧ i ≠ S[k] := by
      intro k hk i
      rw [List.eraseIdx_eq_take_drop_succ]
      have hsplit : S = S.take k ++ S[k] :: S.drop (k + 1) := by simp
      rw [hsplit, List.nodup_append] at hS
      obtain ⟨-, h2, h3⟩ := hS
      rw [List.nodup_cons] at h2
      constructor
      · intro h
        constructor
        · rw [hsplit]; simp only [List.mem_append, List.mem_cons] at h ⊢; tauto
        · intro he
          rcases List.mem_append.1 h with h | h
          · exact h3 i h S[k] List.mem_cons_self he
          · exact h2.1 (he ▸ h)
      · rintro ⟨h, hne⟩
        rw [hsplit] at h
        simp only [List.mem_append, List.mem_cons] at h ⊢
        tauto
    simp only [perms, List.mem_flatMap, List.mem_map, List.mem_range]
    constructor
    · rintro ⟨k, hk, t, ht, rfl⟩
      have hk' : S.getD k 0 = S[k] := by simp [List.getElem?_eq_getElem hk]
      obtain ⟨h1, h2, h3⟩ := (ih _ (hS.sublist (List.eraseIdx_sublist S k)) t).1 ht
      rw [hk']
      refine ⟨by simp [h1], List.nodup_cons.2 ⟨?_, h2⟩, ?_⟩
      · intro h; exact ((hmem k hk _).1 (h3 _ h)).2 rfl
      · intro i hi
        rcases List.mem_cons.1 hi with rfl | hi
        · exact List.getElem_mem hk
        · exact ((hmem k hk i).1 (h3 i hi)).1
    · rintro ⟨h1, h2, h3⟩
      cases ix with
      | nil => simp at h1
      | cons c t =>
        obtain ⟨h4, h5⟩ := List.nodup_cons.1 h2
        obtain ⟨k, hk, rfl⟩ := List.mem_iff_getElem.1 (h3 c (by simp))
        refine ⟨k, hk, t, ?_, by simp [List.getElem?_eq_getElem hk]⟩
        rw [ih _ (hS.sublist (List.eraseIdx_sublist S k))]
        refine ⟨by simpa using h1, h5, fun i hi => (hmem k hk i).2 ⟨h3 i (by simp [hi]), ?_⟩⟩
        rintro rfl; exact h4 hi

/-- With the number of calls. -/
theorem loop_count {σ : Type} (f : σ → Option σ) (g : σ × Nat → Option (σ × Nat)) {a : σ} {l : List σ}
    (h : Loop f a l none) (hg : ∀ s c, s ∈ l → g (s, c) = (f s).map fun t => (t, c + 1)) (c : Nat) :
    ∃ l', Loop g (a, c) l' none ∧ l'.map (·.1) = l := by
  generalize hq : (none : Option σ) = q at h
  induction h generalizing c with
  | @last a r h1 =>
    subst hq
    exact ⟨[(a, c)], .last (by rw [hg a c (by simp), h1]; rfl), rfl⟩
  | @step a b l r h1 t ih =>
    obtain ⟨l', h2, h3⟩ := ih (fun s c hs => hg s c (by simp [hs])) (c + 1) hq
    exact ⟨(a, c) :: l', .step (by rw [hg a c (by simp), h1]; rfl) h2, by simp [h3]⟩

theorem permNext_eq (len n : Nat) (s : List Nat × List Nat) (c : Nat)
    (h1 : s.1.length = len) (h2 : s.2.length = n) (h3 : CyOk len s.2) :
    permNext (fun _ => len) (fun _ => len) n (s.1, s.2, c) = (stepN s).map fun t => (t.1, t.2, c + 1) := by
  have := permScan_eq s.2 [] [] s.1 rfl (by rw [h1]; exact h3)
  simp only [List.nil_append, List.length_nil, Nat.zero_add, h1, h2] at this
  rw [permNext, stepN]
  simp only
  rw [this]
  rcases hs : stepP s.1 s.2 with ⟨b, xs, cs⟩
  cases b <;> simp [permScan]

theorem perm_main (len n : Nat) (hn : n ≤ len) (mv : Nat → Nat) (hmv : ∀ k, mv k = len) :
    ∃ l : List PermState, Loop (permNext mv (fun _ => len) n) (List.range len, initCycles len n, 1) l none ∧
      l.map (fun s => s.1.take n) = perms n (List.range len) := by
  have hmv : mv = fun _ => len := funext hmv
  subst hmv
  obtain ⟨h, -⟩ := perm_loop n (List.range len) (by simpa using hn)
  rw [List.length_range] at h
  obtain ⟨l', h1, h2⟩ := loop_count stepN
    (fun s => (permNext (fun _ => len) (fun _ => len) n (s.1.1, s.1.2, s.2)).map fun t => ((t.1, t.2.1), t.2.2)) h
    (by
      intro s c hs
      obtain ⟨ha, hb, hc⟩ := permStates_ok n (List.range len) (by simpa using hn) s hs
      simp only [List.length_range] at ha hc
      simp only
      rw [permNext_eq len n s c ha hb hc]
      cases stepN s <;> rfl) 1
  refine ⟨l'.map fun s => (s.1.1, s.1.2, s.2), ?_, ?_⟩
  · refine h1.map (fun s => (s.1.1, s.1.2, s.2)) ?_ ?_
    · intro x y _ hxy
      simp only [Option.map_eq_some_iff] at hxy
      obtain ⟨t, ht, rfl⟩ := hxy
      exact ht
    · intro x _ hx
      simpa using hx
  · rw [← permStates_perms, ← h2, List.map_map, List.map_map]
    rfl

end Verif.Arr
