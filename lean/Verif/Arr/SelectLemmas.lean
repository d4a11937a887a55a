import Verif.Arr.Select

namespace Verif.Arr

/-! ## Loops -/

theorem Loop.unique {σ : Type} {next : σ → Option σ} {a : σ} {l l' : List σ}
    (h : Loop next a l none) (h' : Loop next a l' none) : l = l' := by
  induction l generalizing a l' with
  | nil => cases h
  | cons x l ih =>
    cases h with
    | last h1 =>
      cases h' with
      | last => rfl
      | step h2 t => rw [h1] at h2; exact absurd h2 (by simp)
    | step h1 t =>
      cases h' with
      | last h2 => rw [h1] at h2; exact absurd h2 (by simp)
      | step h2 t' =>
        rw [h1] at h2
        simp only [Option.some.injEq] at h2
        subst h2
        rw [ih t t']

theorem Loop.append {σ : Type} {next : σ → Option σ} {a b : σ} {l l' : List σ} {r : Option σ}
    (h : Loop next a l (some b)) (h' : Loop next b l' r) : Loop next a (l ++ l') r := by
  generalize hr : some b = q at h
  induction h with
  | last h1 => subst hr; exact .step h1 h'
  | step h1 t ih => exact .step h1 (ih hr)

/-- Two loops that go on in the same way. -/
theorem Loop.map {σ τ : Type} {next : σ → Option σ} {next' : τ → Option τ} (f : σ → τ) {a : σ} {l : List σ}
    {r : Option τ} (h : Loop next a l none) (hs : ∀ x y, x ∈ l → next x = some y → next' (f x) = some (f y))
    (he : ∀ x, x ∈ l → next x = none → next' (f x) = r) : Loop next' (f a) (l.map f) r := by
  generalize hq : (none : Option σ) = q at h
  induction h with
  | @last a r h1 => subst hq; exact .last (he a (by simp) h1)
  | @step a b l r h1 t ih =>
    refine .step (hs a b (by simp) h1) (ih ?_ ?_ hq)
    · intro x y hx; exact hs x y (by simp [hx])
    · intro x hx; exact he x (by simp [hx])

theorem Loop.congr {σ : Type} {next next' : σ → Option σ} {a : σ} {l : List σ} {r : Option σ}
    (h : Loop next a l r) (hs : ∀ x, x ∈ l → next' x = next x) : Loop next' a l r := by
  induction h with
  | @last a r h1 => exact .last (by rw [hs a (by simp), h1])
  | @step a b l r h1 t ih =>
    exact .step (by rw [hs a (by simp), h1]) (ih fun x hx => hs x (by simp [hx]))

/-! ## Counting in lexicographic order -/

/-- The successor: the last position that can be increased is, and those behind start again. -/
def nextB (bump : Nat → Nat → Option (List Nat)) : List Nat → Option (List Nat)
  | [] => none
  | c :: t => match nextB bump t with
    | some t' => some (c :: t')
    | none => bump c t.length

/-- A way to choose `k` positions one after the other: `ub r` is the greatest when `r` more follow, `τ c` the least
behind `c`. -/
structure Way where
  ub : Nat → Nat
  τ : Nat → Nat

def Way.first (w : Way) : Nat → Nat → List Nat
  | 0, _ => []
  | k + 1, lo => lo :: w.first k (w.τ lo)

def Way.gen (w : Way) : Nat → Nat → List (List Nat)
  | 0, _ => [[]]
  | k + 1, lo => (List.range' lo (w.ub k + 1 - lo)).flatMap fun c => (w.gen k (w.τ c)).map (c :: ·)

theorem Way.gen_length (w : Way) (k : Nat) : ∀ lo ix, ix ∈ w.gen k lo → ix.length = k := by
  induction k with
  | zero => intro lo ix h; simp [Way.gen] at h; simp [h]
  | succ k ih =>
    intro lo ix h
    simp only [Way.gen, List.mem_flatMap, List.mem_map] at h
    obtain ⟨c, -, t, ht, rfl⟩ := h
    simp [ih _ _ ht]

theorem Way.loop (w : Way) (bump : Nat → Nat → Option (List Nat)) (Ok : Nat → Nat → Prop)
    (hstep : ∀ k lo, Ok (k + 1) lo → lo ≤ w.ub k ∧ ∀ c, lo ≤ c → c ≤ w.ub k → Ok k (w.τ c))
    (hb : ∀ k c, c < w.ub k → bump c k = some ((c + 1) :: w.first k (w.τ (c + 1))))
    (hn : ∀ k, bump (w.ub k) k = none) (k : Nat) :
    ∀ lo, Ok k lo → Loop (nextB bump) (w.first k lo) (w.gen k lo) none := by
  induction k with
  | zero => intro lo _; exact .last rfl
  | succ k ih =>
    intro lo hok
    obtain ⟨hle, hc⟩ := hstep k lo hok
    have piece : ∀ c, lo ≤ c → c ≤ w.ub k →
        Loop (nextB bump) (c :: w.first k (w.τ c)) ((w.gen k (w.τ c)).map (c :: ·)) (bump c k) := by
      intro c h1 h2
      refine (ih _ (hc c h1 h2)).map (c :: ·) ?_ ?_
      · intro x y _ hxy; simp [nextB, hxy]
      · intro x hx hxn; simp [nextB, hxn, w.gen_length k _ x hx]
    have main : ∀ m c, lo ≤ c → c + m = w.ub k →
        Loop (nextB bump) (c :: w.first k (w.τ c))
          ((List.range' c (m + 1)).flatMap fun c => (w.gen k (w.τ c)).map (c :: ·)) none := by
      intro m
      induction m with
      | zero =>
        intro c h1 h2
        have := piece c h1 (by omega)
        rw [show c = w.ub k by omega, hn] at this
        rw [show c = w.ub k by omega]
        simpa using this
      | succ m ihm =>
        intro c h1 h2
        have := piece c h1 (by omega)
        rw [hb k c (by omega)] at this
        have h := this.append (ihm (c + 1) (by omega) (by omega))
        rw [List.range'_succ, List.flatMap_cons]
        exact h
    have := main (w.ub k - lo) lo (Nat.le_refl _) (by omega)
    rw [Way.gen, show w.ub k + 1 - lo = w.ub k - lo + 1 by omega]
    exact this

theorem Way.gen_sorted (w : Way) (k : Nat) : ∀ lo, (w.gen k lo).Pairwise (List.Lex (· < ·)) := by
  induction k with
  | zero => intro lo; simp [Way.gen]
  | succ k ih =>
    intro lo
    rw [Way.gen, List.pairwise_flatMap]
    constructor
    · intro c _
      rw [List.pairwise_map]
      exact (ih _).imp fun h => .cons h
    · refine (List.pairwise_lt_range' (step := 1)).imp ?_
      intro c c' hlt x hx y hy
      simp only [List.mem_map] at hx hy
      obtain ⟨x, -, rfl⟩ := hx
      obtain ⟨y, -, rfl⟩ := hy
      exact .rel hlt

theorem Way.mem_succ (w : Way) (k lo : Nat) (ix : List Nat) :
    ix ∈ w.gen (k + 1) lo ↔ ∃ c t, ix = c :: t ∧ lo ≤ c ∧ c ≤ w.ub k ∧ t ∈ w.gen k (w.τ c) := by
  simp only [Way.gen, List.mem_flatMap, List.mem_map, List.mem_range'_1]
  constructor
  · rintro ⟨c, hc, t, ht, rfl⟩; exact ⟨c, t, rfl, by omega, by omega, ht⟩
  · rintro ⟨c, t, rfl, h1, h2, ht⟩; exact ⟨c, by omega, t, ht, rfl⟩

/-! ## combination -/

def combWay (len : Nat) : Way := ⟨fun r => len - 1 - r, fun c => c + 1⟩

def combBump (len c r : Nat) : Option (List Nat) :=
  if c = len - 1 - r then none else some (List.range' (c + 1) (r + 1))

theorem combFill_eq (t : List Nat) : ∀ (pre : List Nat) (d : Nat),
    (List.range' (pre.length + 1) t.length).foldl (fun ix j => ix.set j (ix.getD (j - 1) 0 + 1)) (pre ++ d :: t) =
      pre ++ List.range' d (t.length + 1) := by
  induction t with
  | nil => intro pre d; simp
  | cons x t ih =>
    intro pre d
    rw [List.length_cons, List.range'_succ, List.foldl_cons]
    have e : (pre ++ d :: x :: t).set (pre.length + 1) ((pre ++ d :: x :: t).getD (pre.length + 1 - 1) 0 + 1) =
        (pre ++ [d]) ++ (d + 1) :: t := by
      simp [List.set_append]
    rw [e]
    have := ih (pre ++ [d]) (d + 1)
    rw [List.length_append, List.length_singleton] at this
    rw [this, List.range'_succ (n := t.length + 1)]
    simp

/-- `combNext` when `i` is already below `k`. -/
def combFrom (len n : Nat) (ix : List Nat) (k : Nat) : Option (List Nat) :=
  match combFind len n ix k with
  | none => none
  | some i => some (combFill n i (ix.set i (ix.getD i 0 + 1)))

theorem combFrom_eq (len n : Nat) (hn : n ≤ len) (t : List Nat) : ∀ pre : List Nat, pre.length + t.length = n →
    combFrom len n (pre ++ t) (pre.length + t.length) = match nextB (combBump len) t with
      | some t' => some (pre ++ t')
      | none => combFrom len n (pre ++ t) pre.length := by
  induction t with
  | nil => intro pre _; simp [nextB]
  | cons c t ih =>
    intro pre hl
    have h1 := ih (pre ++ [c]) (by simp at hl ⊢; omega)
    simp only [List.append_assoc, List.singleton_append, List.length_append, List.length_singleton] at h1
    rw [List.length_cons, show pre.length + (t.length + 1) = pre.length + 1 + t.length by omega, h1, nextB]
    simp only [List.length_cons] at hl
    cases nextB (combBump len) t with
    | some t' => rfl
    | none =>
      simp only [combBump]
      have hg : (pre ++ c :: t).getD pre.length 0 = c := by simp
      have hp : len - n + pre.length = len - 1 - t.length := by omega
      by_cases hc : c = len - 1 - t.length
      · rw [if_pos hc]
        simp only
        rw [combFrom, combFind, hg, hp, if_pos hc]
        rfl
      · rw [if_neg hc]
        rw [combFrom, combFind, hg, hp, if_neg hc]
        simp only
        have e : (pre ++ c :: t).set pre.length ((pre ++ c :: t).getD pre.length 0 + 1) = pre ++ (c + 1) :: t := by
          simp
        rw [e, combFill, show n - (pre.length + 1) = t.length by omega, combFill_eq]

theorem combNext_eq (len n : Nat) (hn : n ≤ len) (ix : List Nat) (hl : ix.length = n) :
    combNext len n ix = nextB (combBump len) ix := by
  have := combFrom_eq len n hn ix [] (by simpa using hl)
  simp only [List.nil_append, List.length_nil, Nat.zero_add, hl] at this
  change combFrom len n ix n = _
  rw [this]
  cases nextB (combBump len) ix <;> simp [combFrom, combFind]

theorem comb_first (len k : Nat) : ∀ lo, (combWay len).first k lo = List.range' lo k := by
  induction k with
  | zero => intro lo; rfl
  | succ k ih => intro lo; rw [Way.first, ih, List.range'_succ]; rfl

theorem comb_mem (len k : Nat) : ∀ lo, lo + k ≤ len → ∀ ix, ix ∈ (combWay len).gen k lo ↔
    ix.length = k ∧ ix.Pairwise (· < ·) ∧ ∀ i ∈ ix, lo ≤ i ∧ i < len := by
  induction k with
  | zero =>
    intro lo _ ix
    simp only [Way.gen, List.mem_singleton]
    constructor
    · rintro rfl; simp
    · intro h; exact List.eq_nil_of_length_eq_zero h.1
  | succ k ih =>
    intro lo hle ix
    rw [Way.mem_succ]
    simp only [combWay] at *
    constructor
    · rintro ⟨c, t, rfl, h1, h2, ht⟩
      obtain ⟨ha, hb, hc⟩ := (ih (c + 1) (by omega) t).1 ht
      refine ⟨by simp [ha], List.pairwise_cons.2 ⟨fun i hi => (hc i hi).1, hb⟩, ?_⟩
      intro i hi
      rcases List.mem_cons.1 hi with rfl | hi
      · omega
      · have := hc i hi; omega
    · rintro ⟨ha, hb, hc⟩
      cases ix with
      | nil => simp at ha
      | cons c t =>
        obtain ⟨hlt, hb⟩ := List.pairwise_cons.1 hb
        have hcl := hc c (by simp)
        have hcub : c + 1 + k ≤ len := by
          -- strictly increasing: the last is at least c + k
          have key : ∀ (t : List Nat) (c : Nat), t.Pairwise (· < ·) → (∀ i ∈ t, c < i) → (∀ i ∈ t, i < len) →
              c < len → c + 1 + t.length ≤ len := by
            intro t
            induction t with
            | nil => intro c _ _ _ h; simp only [List.length_nil]; omega
            | cons x t iht =>
              intro c h1 h2 h3 _
              obtain ⟨h4, h5⟩ := List.pairwise_cons.1 h1
              have := iht x h5 h4 (fun i hi => h3 i (by simp [hi])) (h3 x (by simp))
              have := h2 x (by simp)
              simp only [List.length_cons]; omega
          have := key t c hb hlt (fun i hi => (hc i (by simp [hi])).2) hcl.2
          simp only [List.length_cons] at ha
          omega
        refine ⟨c, t, rfl, hcl.1, by omega, ?_⟩
        rw [ih (c + 1) (by omega)]
        refine ⟨by simpa using ha, hb, ?_⟩
        intro i hi
        exact ⟨hlt i hi, (hc i (by simp [hi])).2⟩

theorem comb_loop (len n : Nat) (hn : n ≤ len) :
    Loop (combNext len n) (List.range n) ((combWay len).gen n 0) none := by
  have h := (combWay len).loop (combBump len) (fun k lo => lo + k ≤ len) ?_ ?_ ?_ n 0 (by omega)
  · rw [comb_first, ← List.range_eq_range'] at h
    exact h.congr fun x hx => combNext_eq len n hn x ((combWay len).gen_length n 0 x hx)
  · intro k lo hok
    simp only [combWay]
    refine ⟨by omega, ?_⟩
    intro c h1 h2; omega
  · intro k c hlt
    simp only [combWay] at hlt
    rw [comb_first, combBump, if_neg (by omega), List.range'_succ]
    rfl
  · intro k; simp [combBump, combWay]

/-! ## repeated_permutation -/

def rpermWay (len : Nat) : Way := ⟨fun _ => len - 1, fun _ => 0⟩

def rpermBump (len c r : Nat) : Option (List Nat) :=
  if c + 1 < len then some ((c + 1) :: List.replicate r 0) else none

theorem rpermScan_eq (len : Nat) (t : List Nat) : ∀ pre : List Nat,
    rpermScan len (pre ++ t) (pre.length + t.length) = match nextB (rpermBump len) t with
      | some t' => some (pre ++ t')
      | none => rpermScan len (pre ++ List.replicate t.length 0) pre.length := by
  induction t with
  | nil => intro pre; simp [nextB]
  | cons c t ih =>
    intro pre
    have h1 := ih (pre ++ [c])
    simp only [List.append_assoc, List.singleton_append, List.length_append, List.length_singleton] at h1
    rw [List.length_cons, show pre.length + (t.length + 1) = pre.length + 1 + t.length by omega, h1, nextB]
    cases nextB (rpermBump len) t with
    | some t' => rfl
    | none =>
      simp only [rpermBump]
      have hg : (pre ++ c :: List.replicate t.length 0).getD pre.length 0 = c := by simp
      rw [rpermScan]
      simp only [hg]
      split
      · simp
      · simp [List.replicate_succ]

theorem rperm_first (len k : Nat) : ∀ lo, k = 0 ∨ lo = 0 → (rpermWay len).first k lo = List.replicate k 0 := by
  induction k with
  | zero => intro lo _; rfl
  | succ k ih =>
    intro lo h
    have : lo = 0 := by omega
    subst this
    rw [Way.first, show (rpermWay len).τ 0 = 0 from rfl, ih _ (Or.inr rfl), List.replicate_succ]

theorem rperm_mem (len k : Nat) (hl : 0 < len) : ∀ ix, ix ∈ (rpermWay len).gen k 0 ↔
    ix.length = k ∧ ∀ i ∈ ix, i < len := by
  induction k with
  | zero =>
    intro ix
    simp only [Way.gen, List.mem_singleton]
    constructor
    · rintro rfl; simp
    · intro h; exact List.eq_nil_of_length_eq_zero h.1
  | succ k ih =>
    intro ix
    rw [Way.mem_succ]
    simp only [rpermWay] at *
    constructor
    · rintro ⟨c, t, rfl, h1, h2, ht⟩
      obtain ⟨ha, hb⟩ := (ih t).1 ht
      refine ⟨by simp [ha], ?_⟩
      intro i hi
      rcases List.mem_cons.1 hi with rfl | hi
      · omega
      · exact hb i hi
    · rintro ⟨ha, hb⟩
      cases ix with
      | nil => simp at ha
      | cons c t =>
        have := hb c (by simp)
        refine ⟨c, t, rfl, by omega, by omega, (ih t).2 ⟨by simpa using ha, fun i hi => hb i (by simp [hi])⟩⟩

theorem rperm_loop (len n : Nat) (hl : 0 < len) :
    Loop (fun ix => rpermScan len ix n) (List.replicate n 0) ((rpermWay len).gen n 0) none := by
  have h := (rpermWay len).loop (rpermBump len) (fun _ lo => lo < len) ?_ ?_ ?_ n 0 hl
  · rw [rperm_first _ _ _ (Or.inr rfl)] at h
    refine h.congr fun x hx => ?_
    have hx := (rpermWay len).gen_length n 0 x hx
    have := rpermScan_eq len x []
    simp only [List.nil_append, List.length_nil, Nat.zero_add, hx] at this
    rw [this]
    cases nextB (rpermBump len) x <;> simp [rpermScan]
  · intro k lo hok
    simp only [rpermWay]
    exact ⟨by omega, fun c _ _ => hl⟩
  · intro k c hlt
    simp only [rpermWay] at hlt
    rw [rpermBump, if_pos (by omega)]
    simp only [rpermWay]
    have := rperm_first len k 0 (Or.inr rfl)
    simp only [rpermWay] at this
    rw [this]
  · intro k; rw [rpermBump, if_neg]; simp only [rpermWay]; omega

/-! ## repeated_combination -/

def rcombWay (len : Nat) : Way := ⟨fun _ => len - 1, fun c => c⟩

def rcombBump (len c r : Nat) : Option (List Nat) :=
  if c + 1 < len then some (List.replicate (r + 1) (c + 1)) else none

theorem rcombFill_eq (pre : List Nat) (d : Nat) (t : List Nat) : ∀ mid : List Nat,
    (List.range' (pre.length + 1 + mid.length) t.length).foldl (fun ix j => ix.set j (ix.getD pre.length 0))
      (pre ++ d :: (mid ++ t)) = pre ++ d :: (mid ++ List.replicate t.length d) := by
  induction t with
  | nil => intro mid; simp
  | cons x t ih =>
    intro mid
    rw [List.length_cons, List.range'_succ, List.foldl_cons]
    have e : (pre ++ d :: (mid ++ x :: t)).set (pre.length + 1 + mid.length)
        ((pre ++ d :: (mid ++ x :: t)).getD pre.length 0) = pre ++ d :: ((mid ++ [d]) ++ t) := by
      have h1 : (pre ++ d :: (mid ++ x :: t)).getD pre.length 0 = d := by simp
      have h2 : pre ++ d :: (mid ++ x :: t) = (pre ++ d :: mid) ++ x :: t := by simp
      have h3 : pre.length + 1 + mid.length = (pre ++ d :: mid).length := by simp; omega
      rw [h1, h2, h3]
      simp
    rw [e]
    have := ih (mid ++ [d])
    rw [List.length_append, List.length_singleton, ← Nat.add_assoc] at this
    rw [this]
    simp [List.replicate_succ]

theorem rcombScan_eq (len n : Nat) (t : List Nat) : ∀ pre : List Nat, pre.length + t.length = n →
    ∃ t1 : List Nat, t1.length = t.length ∧
    rcombScan len n (pre ++ t) (pre.length + t.length) = match nextB (rcombBump len) t with
      | some t' => some (pre ++ t')
      | none => rcombScan len n (pre ++ t1) pre.length := by
  induction t with
  | nil => intro pre _; exact ⟨[], rfl, by simp [nextB]⟩
  | cons c t ih =>
    intro pre hl
    obtain ⟨t1, hlt, h1⟩ := ih (pre ++ [c]) (by simp at hl ⊢; omega)
    refine ⟨(c + 1) :: t1, by simp [hlt], ?_⟩
    simp only [List.append_assoc, List.singleton_append, List.length_append, List.length_singleton] at h1
    rw [List.length_cons, show pre.length + (t.length + 1) = pre.length + 1 + t.length by omega, h1, nextB]
    simp only [List.length_cons] at hl
    cases nextB (rcombBump len) t with
    | some t' => rfl
    | none =>
      simp only [rcombBump]
      have hg : (pre ++ c :: t1).getD pre.length 0 = c := by simp
      have hs : (pre ++ c :: t1).set pre.length (c + 1) = pre ++ (c + 1) :: t1 := by simp
      rw [rcombScan]
      simp only [hg, hs]
      split
      · have := rcombFill_eq pre (c + 1) t1 []
        simp only [List.nil_append, List.length_nil, Nat.add_zero] at this
        rw [rcombFill, show n - (pre.length + 1) = t1.length by omega, this, hlt]
        simp [List.replicate_succ]
      · rfl

theorem rcomb_first (len k : Nat) : ∀ lo, (rcombWay len).first k lo = List.replicate k lo := by
  induction k with
  | zero => intro lo; rfl
  | succ k ih => intro lo; rw [Way.first, ih, List.replicate_succ]; rfl

theorem rcomb_mem (len k : Nat) : ∀ lo, lo < len → ∀ ix, ix ∈ (rcombWay len).gen k lo ↔
    ix.length = k ∧ ix.Pairwise (· ≤ ·) ∧ ∀ i ∈ ix, lo ≤ i ∧ i < len := by
  induction k with
  | zero =>
    intro lo _ ix
    simp only [Way.gen, List.mem_singleton]
    constructor
    · rintro rfl; simp
    · intro h; exact List.eq_nil_of_length_eq_zero h.1
  | succ k ih =>
    intro lo hle ix
    rw [Way.mem_succ]
    simp only [rcombWay] at *
    constructor
    · rintro ⟨c, t, rfl, h1, h2, ht⟩
      obtain ⟨ha, hb, hc⟩ := (ih c (by omega) t).1 ht
      refine ⟨by simp [ha], List.pairwise_cons.2 ⟨fun i hi => (hc i hi).1, hb⟩, ?_⟩
      intro i hi
      rcases List.mem_cons.1 hi with rfl | hi
      · omega
      · have := hc i hi; omega
    · rintro ⟨ha, hb, hc⟩
      cases ix with
      | nil => simp at ha
      | cons c t =>
        obtain ⟨hlt, hb⟩ := List.pairwise_cons.1 hb
        have hcl := hc c (by simp)
        refine ⟨c, t, rfl, hcl.1, by omega, ?_⟩
        rw [ih c (by omega)]
        refine ⟨by simpa using ha, hb, ?_⟩
        intro i hi
        exact ⟨hlt i hi, (hc i (by simp [hi])).2⟩

theorem rcomb_loop (len n : Nat) (hl : 0 < len) :
    Loop (fun ix => rcombScan len n ix n) (List.replicate n 0) ((rcombWay len).gen n 0) none := by
  have h := (rcombWay len).loop (rcombBump len) (fun _ lo => lo < len) ?_ ?_ ?_ n 0 hl
  · rw [rcomb_first] at h
    refine h.congr fun x hx => ?_
    have hx := (rcombWay len).gen_length n 0 x hx
    obtain ⟨t1, -, this⟩ := rcombScan_eq len n x [] (by simpa using hx)
    simp only [List.nil_append, List.length_nil, Nat.zero_add, hx] at this
    rw [this]
    cases nextB (rcombBump len) x <;> simp [rcombScan]
  · intro k lo hok
    simp only [rcombWay]
    exact ⟨by omega, fun c h1 h2 => by omega⟩
  · intro k c hlt
    simp only [rcombWay] at hlt
    rw [rcombBump, if_pos (by omega), rcomb_first, List.replicate_succ]
    rfl
  · intro k; rw [rcombBump, if_neg]; simp only [rcombWay]; omega

end Verif.Arr
