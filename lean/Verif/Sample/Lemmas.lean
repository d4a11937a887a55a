import Verif.Sample.Model
import Mathlib.Data.List.Nodup
import Mathlib.Data.List.Perm.Basic
import Mathlib.Tactic.ByContra
import Mathlib.Tactic.Tauto

namespace Verif.Sample

variable {α β : Type}

/-- draws within their bounds: the first below `m`, the next below `m - 1`, and so on -/
def Valid : Nat → List Nat → Prop
  | _, [] => True
  | m, d :: ds => d < m ∧ Valid (m - 1) ds

/-! ## Schemes: each draw takes one of the remaining positions -/

structure Scheme (St : Type) where
  pick : St → Nat → Nat
  step : St → Nat → St
  rem : St → Nat → Prop
  left : St → Nat
  inv : St → Prop
  surj : ∀ σ, inv σ → ∀ x, rem σ x → ∃ d, d < left σ ∧ pick σ d = x
  inj : ∀ σ, inv σ → ∀ d d', d < left σ → d' < left σ → pick σ d = pick σ d' → d = d'
  mem : ∀ σ, inv σ → ∀ d, d < left σ → rem σ (pick σ d)
  inv_step : ∀ σ, inv σ → ∀ d, d < left σ → inv (step σ d)
  rem_step : ∀ σ, inv σ → ∀ d, d < left σ → ∀ x, rem (step σ d) x ↔ rem σ x ∧ x ≠ pick σ d
  left_step : ∀ σ, inv σ → ∀ d, d < left σ → left (step σ d) = left σ - 1

def Scheme.run {St : Type} (P : Scheme St) : St → List Nat → List Nat
  | _, [] => []
  | σ, d :: ds => P.pick σ d :: P.run (P.step σ d) ds

theorem Scheme.run_mem {St : Type} (P : Scheme St) : ∀ (ds : List Nat) (σ : St), P.inv σ →
    Valid (P.left σ) ds → (P.run σ ds).Nodup ∧ ∀ x ∈ P.run σ ds, P.rem σ x := by
  intro ds
  induction ds with
  | nil => intro σ _ _; exact ⟨List.nodup_nil, by simp [run]⟩
  | cons d ds ih =>
    intro σ hi hv
    obtain ⟨hd, hv⟩ := hv
    obtain ⟨h1, h2⟩ := ih (P.step σ d) (P.inv_step σ hi d hd) (by rw [P.left_step σ hi d hd]; exact hv)
    rw [run]
    refine ⟨List.nodup_cons.2 ⟨fun hm => ?_, h1⟩, ?_⟩
    · exact ((P.rem_step σ hi d hd _).1 (h2 _ hm)).2 rfl
    · intro x hx
      rcases List.mem_cons.1 hx with rfl | hx
      · exact P.mem σ hi d hd
      · exact ((P.rem_step σ hi d hd x).1 (h2 x hx)).1

theorem Scheme.run_surj {St : Type} (P : Scheme St) : ∀ (xs : List Nat) (σ : St), P.inv σ →
    xs.Nodup → (∀ x ∈ xs, P.rem σ x) → ∃ ds, ds.length = xs.length ∧ Valid (P.left σ) ds ∧ P.run σ ds = xs := by
  intro xs
  induction xs with
  | nil => intro σ _ _ _; exact ⟨[], rfl, trivial, rfl⟩
  | cons x xs ih =>
    intro σ hi hn hr
    obtain ⟨hx, hn1⟩ := List.nodup_cons.1 hn
    obtain ⟨d, hd, rfl⟩ := P.surj σ hi x (hr x (by simp))
    obtain ⟨ds, h0, h1, h2⟩ := ih (P.step σ d) (P.inv_step σ hi d hd) hn1 (fun y hy =>
      (P.rem_step σ hi d hd y).2 ⟨hr y (by simp [hy]), fun h => hx (h ▸ hy)⟩)
    exact ⟨d :: ds, by simp [h0], ⟨hd, by rw [← P.left_step σ hi d hd]; exact h1⟩, by rw [run, h2]⟩

theorem Scheme.run_inj {St : Type} (P : Scheme St) : ∀ (ds ds' : List Nat) (σ : St), P.inv σ →
    Valid (P.left σ) ds → Valid (P.left σ) ds' → P.run σ ds = P.run σ ds' → ds = ds' := by
  intro ds
  induction ds with
  | nil => intro ds' σ _ _ _ h; cases ds' with
    | nil => rfl
    | cons => simp [run] at h
  | cons d ds ih =>
    intro ds' σ hi hv hv' h
    cases ds' with
    | nil => simp [run] at h
    | cons d' ds' =>
      simp only [run, List.cons.injEq] at h
      obtain ⟨hd, hv⟩ := hv
      obtain ⟨hd', hv'⟩ := hv'
      obtain rfl := P.inj σ hi d d' hd hd' h.1
      have hl := P.left_step σ hi d hd
      rw [ih ds' (P.step σ d) (P.inv_step σ hi d hd) (by rw [hl]; exact hv) (by rw [hl]; exact hv') h.2]

/-! ## The sorted list -/

def Asc (l : List Nat) : Prop := l.Pairwise (· < ·)

theorem lift_ge : ∀ (s : List Nat) (k : Nat), k ≤ lift s k := by
  intro s
  induction s with
  | nil => intro k; exact Nat.le_refl _
  | cons a s ih =>
    intro k
    rw [lift]
    split
    · have := ih (k + 1); omega
    · exact Nat.le_refl _

theorem lift_le : ∀ (s : List Nat) (k : Nat), lift s k ≤ k + s.length := by
  intro s
  induction s with
  | nil => intro k; simp [lift]
  | cons a s ih =>
    intro k
    rw [lift]
    split
    · have := ih (k + 1); simp; omega
    · simp

theorem lift_mono : ∀ (s : List Nat) (k k' : Nat), k < k' → lift s k < lift s k' := by
  intro s
  induction s with
  | nil => intro k k' h; exact h
  | cons a s ih =>
    intro k k' h
    rw [lift, lift]
    split
    · rw [if_pos (by omega)]
      exact ih _ _ (by omega)
    · split
      · have := lift_ge s (k' + 1); omega
      · exact h

theorem lift_not_mem : ∀ (s : List Nat) (k : Nat), Asc s → lift s k ∉ s := by
  intro s
  induction s with
  | nil => intro k _; simp
  | cons a s ih =>
    intro k h
    obtain ⟨h1, h2⟩ := List.pairwise_cons.1 h
    rw [lift]
    split
    · have := lift_ge s (k + 1)
      have h3 := ih (k + 1) h2
      simp only [List.mem_cons, not_or]
      exact ⟨by omega, h3⟩
    · simp only [List.mem_cons, not_or]
      refine ⟨by omega, fun hm => ?_⟩
      have := h1 _ hm
      omega

theorem asc_length : ∀ (s : List Nat) (x len : Nat), Asc s → (∀ y ∈ s, x < y ∧ y < len) → x < len →
    x + s.length < len := by
  intro s
  induction s with
  | nil => intro x len _ _ h; simpa using h
  | cons a s ih =>
    intro x len h hb _
    obtain ⟨h1, h2⟩ := List.pairwise_cons.1 h
    have ha := hb a (by simp)
    have := ih a len h2 (fun y hy => ⟨h1 y hy, (hb y (by simp [hy])).2⟩) ha.2
    simp; omega

theorem lift_surj : ∀ (s : List Nat) (lo x len : Nat), Asc s → (∀ y ∈ s, lo ≤ y ∧ y < len) → x ∉ s →
    lo ≤ x → x < len → ∃ k, lo ≤ k ∧ lift s k = x ∧ k + s.length < len := by
  intro s
  induction s with
  | nil => intro lo x len _ _ _ h1 h2; exact ⟨x, h1, rfl, by simpa using h2⟩
  | cons a s ih =>
    intro lo x len h hb hx hlo hlen
    obtain ⟨h1, h2⟩ := List.pairwise_cons.1 h
    simp only [List.mem_cons, not_or] at hx
    by_cases hax : a < x
    · obtain ⟨k, hk1, hk2, hk3⟩ := ih (a + 1) x len h2
        (fun y hy => ⟨h1 y hy, (hb y (by simp [hy])).2⟩) hx.2 hax hlen
      have ha := (hb a (by simp)).1
      refine ⟨k - 1, by omega, ?_, by simp; omega⟩
      rw [lift, if_pos (by omega), show k - 1 + 1 = k by omega, hk2]
    · refine ⟨x, hlo, by rw [lift, if_neg (by omega)], ?_⟩
      apply asc_length (a :: s) x len h _ hlen
      intro y hy
      refine ⟨?_, (hb y hy).2⟩
      rcases List.mem_cons.1 hy with rfl | hy
      · omega
      · have := h1 y hy; omega

theorem ins_mem : ∀ (s : List Nat) (k x : Nat), x ∈ ins s k ↔ x = lift s k ∨ x ∈ s := by
  intro s
  induction s with
  | nil => intro k x; simp [ins, lift]
  | cons a s ih =>
    intro k x
    rw [ins, lift]
    split
    · simp only [List.mem_cons, ih]; tauto
    · simp only [List.mem_cons]

theorem ins_asc : ∀ (s : List Nat) (k : Nat), Asc s → Asc (ins s k) := by
  intro s
  induction s with
  | nil => intro k _; exact List.pairwise_singleton _ _
  | cons a s ih =>
    intro k h
    obtain ⟨h1, h2⟩ := List.pairwise_cons.1 h
    rw [ins]
    split
    · refine List.pairwise_cons.2 ⟨?_, ih (k + 1) h2⟩
      intro y hy
      rcases (ins_mem s (k + 1) y).1 hy with rfl | hy
      · have := lift_ge s (k + 1); omega
      · exact h1 y hy
    · refine List.pairwise_cons.2 ⟨?_, h⟩
      intro y hy
      rcases List.mem_cons.1 hy with rfl | hy
      · omega
      · have := h1 y hy; omega

theorem ins_length : ∀ (s : List Nat) (k : Nat), (ins s k).length = s.length + 1 := by
  intro s
  induction s with
  | nil => intro k; rfl
  | cons a s ih => intro k; rw [ins]; split <;> simp [ih]

/-- the sorted-list branch as a scheme -/
def sortedScheme (len : Nat) : Scheme (List Nat) where
  pick := lift
  step := ins
  rem s x := x < len ∧ x ∉ s
  left s := len - s.length
  inv s := Asc s ∧ ∀ y ∈ s, y < len
  surj := by
    rintro s ⟨h1, h2⟩ x ⟨h3, h4⟩
    obtain ⟨k, -, hk, hk2⟩ := lift_surj s 0 x len h1 (fun y hy => ⟨by omega, h2 y hy⟩) h4 (by omega) h3
    exact ⟨k, by omega, hk⟩
  inj := by
    intro s _ d d' _ _ h
    rcases Nat.lt_trichotomy d d' with hlt | h1 | hlt
    · have := lift_mono s _ _ hlt; omega
    · exact h1
    · have := lift_mono s _ _ hlt; omega
  mem := by
    rintro s ⟨h1, _⟩ d hd
    have := lift_le s d
    exact ⟨by omega, lift_not_mem s d h1⟩
  inv_step := by
    rintro s ⟨h1, h2⟩ d hd
    refine ⟨ins_asc s d h1, fun y hy => ?_⟩
    rcases (ins_mem s d y).1 hy with rfl | hy
    · have := lift_le s d; omega
    · exact h2 y hy
  rem_step := by
    rintro s _ d _ x
    rw [ins_mem]
    tauto
  left_step := by
    rintro s _ d _
    rw [ins_length]; omega

theorem idxSorted_eq (len : Nat) : ∀ (ds s : List Nat), idxSorted s ds = (sortedScheme len).run s ds := by
  intro ds
  induction ds with
  | nil => intro s; rfl
  | cons d ds ih => intro s; rw [idxSorted, Scheme.run, ih]; rfl

theorem idx2_eq (i j : Nat) : idx2 i j = idxSorted [] [i, j] := by
  simp [idx2, idxSorted, lift, ins]

theorem idx3_eq (i j k : Nat) : idx3 i j k = idxSorted [] [i, j, k] := by
  simp only [idx3, idxSorted, lift, ins]
  by_cases h : i ≤ j
  · simp only [h, if_true, lift]
  · simp only [h, if_false, lift]

/-! ## Partial Fisher–Yates -/

/-- taking position `d` of what is left, the first element filling the hole -/
def takeAt (l : List Nat) (d : Nat) : List Nat :=
  match l with
  | [] => []
  | a :: t => if d = 0 then t else t.set (d - 1) a

theorem set_perm : ∀ (t : List α) (k : Nat) (a x : α), t[k]? = some x → (x :: t.set k a).Perm (a :: t) := by
  intro t
  induction t with
  | nil => intro k a x h; simp at h
  | cons b t ih =>
    intro k a x h
    cases k with
    | zero =>
      simp only [List.getElem?_cons_zero, Option.some.injEq] at h
      subst h
      simp only [List.set_cons_zero]
      exact List.Perm.swap _ _ _
    | succ k =>
      simp only [List.getElem?_cons_succ] at h
      simp only [List.set_cons_succ]
      have := ih k a x h
      exact (List.Perm.swap b x _).trans ((List.Perm.cons b this).trans (List.Perm.swap a b _))

theorem takeAt_perm (l : List Nat) (d : Nat) (hd : d < l.length) :
    (l.getD d 0 :: takeAt l d).Perm l := by
  cases l with
  | nil => simp at hd
  | cons a t =>
    cases d with
    | zero => simp [takeAt]
    | succ d =>
      simp only [List.length_cons] at hd
      have : t[d]? = some (t.getD d 0) := by
        rw [List.getD_eq_getElem?_getD, List.getElem?_eq_getElem (by omega)]; rfl
      have h := set_perm t d a _ this
      simpa [takeAt] using h

/-- the copying branch as a scheme: the state is what is left -/
def copyScheme : Scheme (List Nat) where
  pick l d := l.getD d 0
  step := takeAt
  rem l x := x ∈ l
  left l := l.length
  inv l := l.Nodup
  surj := by
    intro l _ x hx
    obtain ⟨d, hd, rfl⟩ := List.getElem_of_mem hx
    exact ⟨d, hd, by simp [List.getD_eq_getElem?_getD, hd]⟩
  inj := by
    intro l hn d d' hd hd' h
    simp only [List.getD_eq_getElem?_getD, List.getElem?_eq_getElem hd, List.getElem?_eq_getElem hd',
      Option.getD_some] at h
    exact (hn.getElem_inj_iff).1 h
  mem := by
    intro l _ d hd
    simp [List.getD_eq_getElem?_getD, hd]
  inv_step := by
    intro l hn d hd
    have := (takeAt_perm l d hd).nodup_iff.2 hn
    exact (List.nodup_cons.1 this).2
  rem_step := by
    intro l hn d hd x
    have hp := takeAt_perm l d hd
    have hn' := List.nodup_cons.1 (hp.nodup_iff.2 hn)
    rw [← hp.mem_iff, List.mem_cons]
    constructor
    · intro h; exact ⟨Or.inr h, fun he => hn'.1 (he ▸ h)⟩
    · rintro ⟨h1 | h1, h2⟩
      · exact absurd h1 h2
      · exact h1
  left_step := by
    intro l _ d hd
    have := (takeAt_perm l d hd).length_eq
    simp at this; omega

theorem swapAt_append (pre : List α) (a : α) (t : List α) (d : Nat) (x : α)
    (hx : (a :: t)[d]? = some x) :
    swapAt (pre ++ a :: t) pre.length (d + pre.length) =
      some (pre ++ x :: (if d = 0 then t else t.set (d - 1) a)) := by
  unfold swapAt
  have h1 : (pre ++ a :: t)[pre.length]? = some a := by simp
  have h2 : (pre ++ a :: t)[d + pre.length]? = some x := by
    rw [List.getElem?_append_right (by omega), Nat.add_sub_cancel]; exact hx
  rw [h1, h2]
  simp only [Option.some.injEq]
  rw [List.set_append_right _ _ (by omega), List.set_append_right _ _ (by omega)]
  cases d with
  | zero => simp at hx; subst hx; simp
  | succ d =>
    simp only [Nat.sub_self, List.set_cons_zero, Nat.add_sub_cancel]
    simp

theorem copyLoop_run : ∀ (n : Nat) (ds : List Nat) (pre cur : List Nat), ds.length = n →
    Valid cur.length ds → n ≤ cur.length →
    ∃ tl, copyLoop n pre.length ds (pre ++ cur) = some (pre ++ copyScheme.run cur ds ++ tl) := by
  intro n
  induction n with
  | zero =>
    intro ds pre cur hl _ _
    obtain rfl := List.length_eq_zero_iff.1 hl
    exact ⟨cur, by simp [copyLoop, Scheme.run]⟩
  | succ n ih =>
    intro ds pre cur hl hv hn
    cases ds with
    | nil => simp at hl
    | cons d ds =>
      obtain ⟨hd, hv⟩ := hv
      cases cur with
      | nil => simp at hn
      | cons a t =>
        have hx : (a :: t)[d]? = some ((a :: t).getD d 0) := by
          rw [List.getD_eq_getElem?_getD, List.getElem?_eq_getElem hd]; rfl
        rw [copyLoop, swapAt_append pre a t d _ hx]
        simp only
        have hstep : (if d = 0 then t else t.set (d - 1) a) = takeAt (a :: t) d := rfl
        have hlen : (takeAt (a :: t) d).length = t.length := by
          have := (takeAt_perm (a :: t) d hd).length_eq
          simp only [List.length_cons] at this; omega
        obtain ⟨tl, htl⟩ := ih ds (pre ++ [(a :: t).getD d 0]) (takeAt (a :: t) d) (by simpa using hl)
          (by rw [hlen]; simpa using hv) (by simp at hn; omega)
        refine ⟨tl, ?_⟩
        rw [List.length_append, List.append_assoc] at htl
        simp only [List.length_cons, List.length_nil, Nat.zero_add, List.singleton_append] at htl
        rw [hstep, htl, Scheme.run]
        simp only [List.append_assoc, List.singleton_append, List.cons_append]
        rfl

/-- the sparse map stands for the remaining elements -/
theorem idxMemo_run : ∀ (ds : List Nat) (i : Nat) (swaps : Nat → Option Nat) (cur : List Nat),
    (∀ k, k < cur.length → cur.getD k 0 = (swaps (i + k)).getD (i + k)) → Valid cur.length ds →
    idxMemo i swaps (offsets i ds) = copyScheme.run cur ds := by
  intro ds
  induction ds with
  | nil => intro i swaps cur _ _; rfl
  | cons d ds ih =>
    intro i swaps cur h hv
    obtain ⟨hd, hv⟩ := hv
    rw [offsets, idxMemo, Scheme.run]
    have hpick : copyScheme.pick cur d = cur.getD d 0 := rfl
    rw [hpick, h d hd, Nat.add_comm d i]
    congr 1
    apply ih
    · have hlen : (takeAt cur d).length = cur.length - 1 := by
        have := (takeAt_perm cur d hd).length_eq
        simp at this; omega
      intro k hk
      have hk' : k < (takeAt cur d).length := hk
      rw [hlen] at hk'
      cases cur with
      | nil => simp at hd
      | cons a t =>
        simp only [List.length_cons, Nat.add_sub_cancel] at hk'
        show (takeAt (a :: t) d).getD k 0 = _
        have ha := h 0 (by simp)
        simp only [List.getD_cons_zero, Nat.add_zero] at ha
        have hk2 := h (k + 1) (by simp; omega)
        simp only [List.getD_cons_succ] at hk2
        unfold takeAt
        by_cases hd0 : d = 0
        · subst hd0
          simp only [if_true, Nat.add_zero]
          rw [Function.update_of_ne (by omega), hk2, show i + (k + 1) = i + 1 + k by omega]
        · dsimp only
          rw [if_neg hd0]
          by_cases hkd : k = d - 1
          · have : i + 1 + k = i + d := by omega
            rw [this, Function.update_self, ← ha, hkd, List.getD_eq_getElem?_getD, List.getElem?_set_self
              (by simp only [List.length_cons] at hd; omega)]
            rfl
          · rw [Function.update_of_ne (by omega), List.getD_eq_getElem?_getD,
              List.getElem?_set_ne (by omega), ← List.getD_eq_getElem?_getD, hk2,
              show i + (k + 1) = i + 1 + k by omega]
    · have : (copyScheme.step cur d).length = cur.length - 1 := by
        have := (takeAt_perm cur d hd).length_eq
        simp at this
        show (takeAt cur d).length = _
        omega
      rw [this]; exact hv

/-! ## Naturality -/

theorem swapAt_map (f : α → β) (l : List α) (i j : Nat) :
    swapAt (l.map f) i j = (swapAt l i j).map (List.map f) := by
  unfold swapAt
  simp only [List.getElem?_map]
  cases l[i]? with
  | none => rfl
  | some a =>
    cases l[j]? with
    | none => rfl
    | some b => simp [List.map_set]

theorem copyLoop_map (f : α → β) : ∀ (n i : Nat) (ds : List Nat) (l : List α),
    copyLoop n i ds (l.map f) = (copyLoop n i ds l).map (List.map f) := by
  intro n
  induction n with
  | zero => intro i ds l; rfl
  | succ n ih =>
    intro i ds l
    cases ds with
    | nil => rfl
    | cons d ds =>
      rw [copyLoop, copyLoop, swapAt_map]
      cases swapAt l i (d + i) with
      | none => rfl
      | some l' => exact ih _ _ _

theorem shuffleLoop_map (f : α → β) : ∀ (n : Nat) (ds : List Nat) (l : List α),
    shuffleLoop n ds (l.map f) = (shuffleLoop n ds l).map (List.map f) := by
  intro n
  induction n using Nat.strongRecOn with
  | _ n ih =>
    intro ds l
    match n, ds with
    | 0, _ => simp [shuffleLoop]
    | 1, _ => simp [shuffleLoop]
    | n + 2, [] => simp [shuffleLoop]
    | n + 2, d :: ds =>
      rw [shuffleLoop, shuffleLoop, swapAt_map]
      cases swapAt l (n + 1) d with
      | none => rfl
      | some l' => exact ih (n + 1) (by omega) _ _

theorem pick_map (f : α → β) (a : List α) : ∀ is : List Nat,
    pick (a.map f) is = (pick a is).map (List.map f) := by
  intro is
  induction is with
  | nil => rfl
  | cons i is ih =>
    rw [pick, pick, ih, List.getElem?_map]
    cases a[i]? with
    | none => rfl
    | some x =>
      cases pick a is with
      | none => rfl
      | some xs => rfl

theorem sample_map (f : α → β) (a : List α) (n : Nat) (ds : List Nat) :
    sample (a.map f) (a.map f) n ds = (sample a a n ds).map (List.map f) := by
  unfold sample
  simp only [List.length_map]
  split
  · split
    · rfl
    · split
      · rfl
      all_goals rw [pick_map]
  · split
    · split
      · rfl
      · rw [pick_map]
    · rw [copyLoop_map]
      cases copyLoop (min n a.length) 0 ds a with
      | none => rfl
      | some l => simp [List.map_take]

theorem pick_range (len : Nat) : ∀ is : List Nat, (∀ i ∈ is, i < len) → pick (List.range len) is = some is := by
  intro is
  induction is with
  | nil => intro _; rfl
  | cons i is ih =>
    intro h
    rw [pick, ih (fun j hj => h j (by simp [hj])), List.getElem?_range (h i (by simp))]

/-! ## Shuffle -/

theorem shuffleLoop_append : ∀ (n : Nat) (ds : List Nat) (l r : List α), l.length = n →
    Valid n ds →
    shuffleLoop n ds (l ++ r) = (shuffleLoop n ds l).map (· ++ r) := by
  intro n
  induction n using Nat.strongRecOn with
  | _ n ih =>
    intro ds l r hl hv
    match n, ds with
    | 0, _ => simp [shuffleLoop]
    | 1, _ => simp [shuffleLoop]
    | n + 2, [] => simp [shuffleLoop]
    | n + 2, d :: ds =>
      obtain ⟨hd, hv⟩ := hv
      rw [shuffleLoop, shuffleLoop]
      unfold swapAt
      rw [List.getElem?_append_left (by omega), List.getElem?_append_left (by omega),
        List.getElem?_eq_getElem (by omega), List.getElem?_eq_getElem (by omega)]
      simp only
      rw [List.set_append_left _ _ (by omega), List.set_append_left _ _ (by simp; omega)]
      -- only the first n + 1 positions are touched from now on
      generalize hm : (l.set (n + 1) l[d]).set d l[n + 1] = m
      have hml : m.length = n + 2 := by rw [← hm]; simp [hl]
      have hsplit : m = m.take (n + 1) ++ m.drop (n + 1) := (List.take_append_drop _ _).symm
      have htl : (m.take (n + 1)).length = n + 1 := by rw [List.length_take]; omega
      rw [hsplit, List.append_assoc, ih (n + 1) (by omega) ds _ _ htl hv,
        ih (n + 1) (by omega) ds _ _ htl hv]
      cases shuffleLoop (n + 1) ds (m.take (n + 1)) with
      | none => rfl
      | some x => simp

/-- one step of the shuffle: the drawn element goes to the end -/
theorem shuffle_step (n : Nat) (l : List α) (hl : l.length = n + 2) (d : Nat) (hd : d < n + 2) :
    ∃ m, m.length = n + 1 ∧ (m ++ [l[d]]).Perm l ∧
      ∀ ds, Valid (n + 1) ds →
        shuffleLoop (n + 2) (d :: ds) l = (shuffleLoop (n + 1) ds m).map (· ++ [l[d]]) := by
  -- the last element and the rest
  obtain ⟨i, z, rfl⟩ : ∃ i z, l = i ++ [z] :=
    ⟨l.dropLast, l.getLast (by intro h; simp [h] at hl), (List.dropLast_append_getLast _).symm⟩
  have hil : i.length = n + 1 := by simp at hl; omega
  have h1 : (i ++ [z])[n + 1]? = some z := by
    rw [List.getElem?_append_right (by omega)]; simp [hil]
  by_cases hdl : d = n + 1
  · subst hdl
    have hz : (i ++ [z])[n + 1]'(by simp; omega) = z := by simp [hil]
    refine ⟨i, hil, by rw [hz], fun ds hv => ?_⟩
    rw [shuffleLoop, hz]
    unfold swapAt
    rw [h1]
    simp only
    have hset : ((i ++ [z]).set (n + 1) z).set (n + 1) z = i ++ [z] := by
      rw [List.set_append_right _ _ (by omega)]
      simp [hil]
    rw [hset, shuffleLoop_append (n + 1) ds i [z] hil hv]
  · have hdi : d < i.length := by omega
    have hget : (i ++ [z])[d]'(by simp; omega) = i[d] := by
      rw [List.getElem_append_left hdi]
    rw [hget]
    refine ⟨i.set d z, by simp [hil], ?_, fun ds hv => ?_⟩
    · have h := set_perm i d z i[d] (List.getElem?_eq_getElem hdi)
      exact (List.perm_append_comm.trans h).trans (List.perm_append_comm (l₁ := [z]) (l₂ := i))
    · have h2 : (i ++ [z])[d]? = some i[d] := by
        rw [List.getElem?_append_left hdi, List.getElem?_eq_getElem hdi]
      rw [shuffleLoop]
      unfold swapAt
      rw [h1, h2]
      simp only
      have hset : ((i ++ [z]).set (n + 1) i[d]).set d z = i.set d z ++ [i[d]] := by
        rw [List.set_append_right _ _ (by omega), hil, Nat.sub_self, List.set_cons_zero,
          List.set_append_left _ _ hdi]
      rw [hset, shuffleLoop_append (n + 1) ds _ _ (by simp [hil]) hv]

theorem shuffleLoop_perm : ∀ (n : Nat) (l : List α) (ds : List Nat), l.length = n → ds.length = n - 1 →
    Valid n ds → ∃ r, shuffleLoop n ds l = some r ∧ r.Perm l := by
  intro n
  induction n using Nat.strongRecOn with
  | _ n ih =>
    intro l ds hl hds hv
    match n, ds with
    | 0, _ => exact ⟨l, by simp [shuffleLoop], List.Perm.refl _⟩
    | 1, _ => exact ⟨l, by simp [shuffleLoop], List.Perm.refl _⟩
    | n + 2, [] => simp at hds
    | n + 2, d :: ds =>
      obtain ⟨hd, hv⟩ := hv
      obtain ⟨m, hm, hp, heq⟩ := shuffle_step n l hl d hd
      obtain ⟨r, hr, hrp⟩ := ih (n + 1) (by omega) m ds hm (by simpa using hds) hv
      exact ⟨r ++ [l[d]], by rw [heq ds hv, hr]; rfl, (hrp.append_right _).trans hp⟩

theorem shuffleLoop_inj : ∀ (n : Nat) (l : List α) (ds ds' : List Nat) (r : List α), l.Nodup →
    l.length = n → ds.length = n - 1 → ds'.length = n - 1 → Valid n ds → Valid n ds' →
    shuffleLoop n ds l = some r → shuffleLoop n ds' l = some r → ds = ds' := by
  intro n
  induction n using Nat.strongRecOn with
  | _ n ih =>
    intro l ds ds' r hn hl hds hds' hv hv' h h'
    match n, ds, ds' with
    | 0, ds, ds' =>
      rw [List.length_eq_zero_iff.1 hds, List.length_eq_zero_iff.1 hds']
    | 1, ds, ds' =>
      rw [List.length_eq_zero_iff.1 hds, List.length_eq_zero_iff.1 hds']
    | n + 2, [], _ => simp at hds
    | n + 2, _ :: _, [] => simp at hds'
    | n + 2, d :: ds, d' :: ds' =>
      obtain ⟨hd, hv⟩ := hv
      obtain ⟨hd', hv'⟩ := hv'
      obtain ⟨m, hm, hp, heq⟩ := shuffle_step n l hl d hd
      have heq0 := heq
      rw [heq ds hv] at h
      obtain ⟨m', hm', hp', heq'⟩ := shuffle_step n l hl d' hd'
      rw [heq' ds' hv'] at h'
      obtain ⟨x, hx, hxr⟩ := Option.map_eq_some_iff.1 h
      obtain ⟨x', hx', hxr'⟩ := Option.map_eq_some_iff.1 h'
      have hcat : x ++ [l[d]] = x' ++ [l[d']] := hxr.trans hxr'.symm
      obtain ⟨hxx, hdd⟩ := List.append_inj' hcat rfl
      have hdd' : d = d' := by
        simp only [List.cons.injEq, and_true] at hdd
        exact (hn.getElem_inj_iff).1 hdd
      subst hdd'
      subst hxx
      have hmn : m.Nodup := (List.nodup_append.1 (hp.nodup_iff.2 hn)).1
      have h3 : shuffleLoop (n + 1) ds' m = some x := by
        have h4 := heq0 ds' hv'
        rw [heq' ds' hv', hx'] at h4
        obtain ⟨y, hy, hyr⟩ := Option.map_eq_some_iff.1 h4.symm
        rw [hy, (List.append_inj' hyr rfl).1]
      rw [ih (n + 1) (by omega) m ds ds' x hmn hm (by simpa using hds) (by simpa using hds') hv hv' hx h3]

theorem shuffleLoop_surj : ∀ (n : Nat) (l r : List α), l.length = n → r.Perm l →
    ∃ ds, ds.length = n - 1 ∧ Valid n ds ∧ shuffleLoop n ds l = some r := by
  intro n
  induction n using Nat.strongRecOn with
  | _ n ih =>
    intro l r hl hp
    match n with
    | 0 =>
      obtain rfl := List.length_eq_zero_iff.1 hl
      obtain rfl := hp.eq_nil
      exact ⟨[], rfl, trivial, rfl⟩
    | 1 =>
      obtain ⟨a, rfl⟩ := List.length_eq_one_iff.1 hl
      obtain rfl := List.perm_singleton.1 hp
      exact ⟨[], rfl, trivial, rfl⟩
    | n + 2 =>
      have hrl : r.length = n + 2 := hp.length_eq.trans hl
      obtain ⟨i, z, rfl⟩ : ∃ i z, r = i ++ [z] :=
        ⟨r.dropLast, r.getLast (by intro h; simp [h] at hrl), (List.dropLast_append_getLast _).symm⟩
      have hz : z ∈ l := hp.mem_iff.1 (by simp)
      obtain ⟨d, hd, rfl⟩ := List.getElem_of_mem hz
      obtain ⟨m, hm, hpm, heq⟩ := shuffle_step n l hl d (by omega)
      have him : i.Perm m := (List.perm_append_right_iff _).1 (hp.trans hpm.symm)
      obtain ⟨ds, h1, h2, h3⟩ := ih (n + 1) (by omega) m i hm him
      exact ⟨d :: ds, by simp [h1], ⟨by omega, h2⟩, by rw [heq ds h2, h3]; rfl⟩

end Verif.Sample
