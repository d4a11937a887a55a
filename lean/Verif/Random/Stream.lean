import Verif.Random.Model
import Mathlib.Tactic.Ring

/-!
The output of the generator as a recurrence, and: the count kept by an instance is the number of
words drawn.
-/

namespace Verif.Random

/-- The recurrence of MT19937, from its first 624 words. -/
def raw (m : Nat → W) (k : Nat) : W :=
  if k < 624 then m k
  else raw m (k - 624 + 397) ^^^ twist (raw m (k - 624)) (raw m (k - 623))
termination_by k
decreasing_by all_goals omega

theorem raw_lt (m : Nat → W) {k : Nat} (h : k < 624) : raw m k = m k := by
  rw [raw, if_pos h]

theorem raw_step (m : Nat → W) (k : Nat) :
    raw m (k + 624) = raw m (k + 397) ^^^ twist (raw m k) (raw m (k + 1)) := by
  generalize hn : k + 624 = n
  rw [raw, if_neg (by omega), show n - 624 = k by omega, show n - 623 = k + 1 by omega]

/-- the in-place regeneration follows the recurrence -/
theorem regenLoop_spec (R : Nat → W)
    (hR : ∀ k, R (k + 624) = R (k + 397) ^^^ twist (R k) (R (k + 1))) :
    ∀ (n kk : Nat) (m : Nat → W), n + kk = 624 →
      (∀ j, j < kk → m j = R (624 + j)) → (∀ j, kk ≤ j → j < 624 → m j = R j) →
      ∀ j, j < 624 → regenLoop n kk m j = R (624 + j) := by
  intro n
  induction n with
  | zero => intro kk m hk h1 _ j hj; exact h1 j (by omega)
  | succ n ih =>
    intro kk m hk h1 h2 j hj
    rw [regenLoop]
    apply ih (kk + 1) _ (by omega) _ _ j hj
    · intro j hj
      by_cases hjk : j = kk
      · subst hjk
        simp only [Function.update_self]
        have hw := hR j
        rw [show 624 + j = j + 624 by omega, hw]
        unfold MT_N MT_M
        split
        · rw [h2 (j + 397) (by omega) (by omega), h2 j (by omega) (by omega),
            h2 (j + 1) (by omega) (by omega)]
        · split
          · rw [h1 (j + 397 - 624) (by omega), h2 j (by omega) (by omega),
              h2 (j + 1) (by omega) (by omega),
              show 624 + (j + 397 - 624) = j + 397 by omega]
          · have hj' : j = 623 := by omega
            subst hj'
            rw [h1 (397 - 1) (by omega), h2 (624 - 1) (by omega) (by omega), h1 0 (by omega)]
      · rw [Function.update_of_ne hjk]
        exact h1 j (by omega)
    · intro j hj1 hj2
      rw [Function.update_of_ne (by omega)]
      exact h2 j (by omega) hj2

/-- `s` has produced `n` words of the sequence `R` -/
def At (R : Nat → W) (n : Nat) (s : Mt) : Prop :=
  s.mti ≤ 624 ∧ ∃ b, b + s.mti = 624 + n ∧ ∀ j, j < 624 → s.mt j = R (b + j)

theorem next_at (R : Nat → W) (hR : ∀ k, R (k + 624) = R (k + 397) ^^^ twist (R k) (R (k + 1)))
    {n : Nat} {s : Mt} (h : At R n s) :
    s.next.1 = temper (R (624 + n)) ∧ At R (n + 1) s.next.2 := by
  obtain ⟨hm, b, hb, hj⟩ := h
  unfold Mt.next
  by_cases hge : MT_N ≤ s.mti
  · have hmti : s.mti = 624 := by unfold MT_N at hge; omega
    simp only [if_pos hge]
    have hreg := regenLoop_spec (fun k => R (b + k)) (by
      intro k; have := hR (b + k); simp only [Nat.add_assoc] at this ⊢; exact this)
      624 0 s.mt (by omega) (by intro j hj; omega) (by intro j _ hj2; exact hj j hj2)
    refine ⟨?_, ?_⟩
    · rw [show (MT_N = 624) from rfl, hreg 0 (by omega)]
      congr 2; omega
    · refine ⟨by simp, 624 + b, by simp; omega, ?_⟩
      intro j hj
      simp only
      rw [show (MT_N = 624) from rfl, hreg j hj]
      congr 1; omega
  · have hlt : s.mti < 624 := by unfold MT_N at hge; omega
    simp only [if_neg hge]
    refine ⟨?_, ?_⟩
    · rw [hj _ hlt, hb]
    · exact ⟨by simp; omega, b, by simp; omega, hj⟩

theorem skip_at (R : Nat → W) (hR : ∀ k, R (k + 624) = R (k + 397) ^^^ twist (R k) (R (k + 1))) :
    ∀ (k n : Nat) (s : Mt), At R n s → At R (n + k) (skip Mt.next k s) := by
  intro k
  induction k with
  | zero => intro n s h; exact h
  | succ k ih =>
    intro n s h
    have := ih (n + 1) _ (next_at R hR h).2
    rw [skip]
    rwa [show n + (k + 1) = n + 1 + k by omega]

theorem buildMt_mti (seed : Int) : (buildMt seed).mti = 624 := by
  unfold buildMt
  simp only
  split
  · rfl
  · rfl

theorem buildMt_at (seed : Int) : At (raw (buildMt seed).mt) 0 (buildMt seed) :=
  ⟨by rw [buildMt_mti], 0, by rw [buildMt_mti], by intro j hj; rw [Nat.zero_add, raw_lt _ hj]⟩

/-! ## Counting -/

variable {S : Type}

theorem skip_add (next : S → W × S) : ∀ (a b : Nat) (s : S),
    skip next (a + b) s = skip next b (skip next a s) := by
  intro a
  induction a with
  | zero => intro b s; rw [Nat.zero_add]; rfl
  | succ a ih => intro b s; rw [Nat.succ_add]; exact ih b _

/-- from `s` at count `c` to `s'` at count `c'` -/
def Adv (next : S → W × S) (s : S) (c : Nat) (s' : S) (c' : Nat) : Prop :=
  ∃ k, c' = c + k ∧ s' = skip next k s

theorem Adv.refl (next : S → W × S) (s : S) (c : Nat) : Adv next s c s c := ⟨0, rfl, rfl⟩

theorem Adv.one (next : S → W × S) (s : S) (c : Nat) : Adv next s c (next s).2 (c + 1) :=
  ⟨1, rfl, rfl⟩

theorem Adv.trans {next : S → W × S} {s s' s'' : S} {c c' c'' : Nat}
    (h : Adv next s c s' c') (h' : Adv next s' c' s'' c'') : Adv next s c s'' c'' := by
  obtain ⟨k, rfl, rfl⟩ := h
  obtain ⟨k', rfl, rfl⟩ := h'
  exact ⟨k + k', by omega, by rw [skip_add]⟩

theorem pass_adv (next : S → W × S) : ∀ (l : List W) (mask : W) (b : Bool) (s : S) (c : Nat),
    Adv next s c (pass next l mask b s c).2.1 (pass next l mask b s c).2.2 := by
  intro l
  induction l with
  | nil => intro mask b s c; exact Adv.refl _ _ _
  | cons lim rest ih =>
    intro mask b s c
    rw [pass]
    simp only
    generalize (if mask ≠ 0#32 then 0xffffffff#32 else makeMask lim) = mask'
    split
    · split
      · exact Adv.one _ _ _
      · have h := ih mask' (b && !decide ((next s).1 &&& mask' < lim)) (next s).2 (c + 1)
        generalize pass next rest mask' (b && !decide ((next s).1 &&& mask' < lim)) (next s).2
          (c + 1) = r at h
        obtain ⟨o, s', c'⟩ := r
        cases o <;> exact (Adv.one _ _ _).trans h
    · have h := ih mask' b s c
      generalize pass next rest mask' b s c = r at h
      obtain ⟨o, s', c'⟩ := r
      cases o <;> exact h

theorem limitedRand_adv (next : S → W × S) (l : List W) : ∀ (fuel : Nat) (s : S) (c : Nat)
    (ds : List W) (s' : S) (c' : Nat), limitedRand next l fuel s c = some (ds, s', c') →
    Adv next s c s' c' := by
  intro fuel
  induction fuel with
  | zero => intro s c ds s' c' h; simp [limitedRand] at h
  | succ fuel ih =>
    intro s c ds s' c' h
    rw [limitedRand] at h
    have ha := pass_adv next l.reverse 0#32 true s c
    generalize pass next l.reverse 0#32 true s c = r at h ha
    obtain ⟨o, s1, c1⟩ := r
    cases o with
    | none => exact ha.trans (ih _ _ _ _ _ h)
    | some d => simp only [Option.some.injEq, Prod.mk.injEq] at h; obtain ⟨-, rfl, rfl⟩ := h; exact ha

theorem ulongLimited_adv (next : S → W × S) (fuel : Nat) (m : BitVec 64) (s : S) (c : Nat)
    (v : BitVec 64) (s' : S) (c' : Nat) (h : ulongLimited next fuel m s c = some (v, s', c')) :
    Adv next s c s' c' := by
  unfold ulongLimited at h
  split at h
  · simp only [Option.some.injEq, Prod.mk.injEq] at h; obtain ⟨-, rfl, rfl⟩ := h; exact Adv.refl _ _ _
  · simp only at h
    split at h
    · rename_i ds s1 c1 hl
      simp only [Option.some.injEq, Prod.mk.injEq] at h; obtain ⟨-, rfl, rfl⟩ := h
      exact limitedRand_adv _ _ _ _ _ _ _ _ hl
    · simp at h

theorem sessionDraw_adv (next : S → W × S) (fuel : Nat) : ∀ (ms : List (BitVec 64)) (s : S)
    (c : Nat) (vs : List (BitVec 64)) (s' : S) (c' : Nat),
    sessionDraw next fuel ms s c = some (vs, s', c') → Adv next s c s' c' := by
  intro ms
  induction ms with
  | nil =>
    intro s c vs s' c' h
    simp only [sessionDraw, Option.some.injEq, Prod.mk.injEq] at h
    obtain ⟨-, rfl, rfl⟩ := h; exact Adv.refl _ _ _
  | cons m ms ih =>
    intro s c vs s' c' h
    rw [sessionDraw] at h
    split at h
    · simp at h
    · rename_i v s1 c1 h1
      split at h
      · simp at h
      · rename_i vs2 s2 c2 h2
        simp only [Option.some.injEq, Prod.mk.injEq] at h
        obtain ⟨-, rfl, rfl⟩ := h
        exact (ulongLimited_adv _ _ _ _ _ _ _ _ h1).trans (ih _ _ _ _ _ h2)

theorem fillBytes_skip (next : S → W × S) : ∀ (n : Nat) (s : S),
    (fillBytes next n s).2 = skip next ((n + 3) / 4) s := by
  intro n
  induction n using Nat.strong_induction_on with
  | _ n ih =>
    intro s
    cases n with
    | zero => rw [fillBytes]; rfl
    | succ n =>
      rw [fillBytes]
      split
      · simp only
        rw [ih (n + 1 - 4) (by omega)]
        rw [show (n + 1 + 3) / 4 = (n + 1 - 4 + 3) / 4 + 1 by omega]
        rfl
      · rw [show (n + 1 + 3) / 4 = 0 + 1 by omega]
        rfl

theorem draw_adv (next : S → W × S) (fuel : Nat) (s : S) (c : Nat) (d : Draw) (r : Res) (s' : S)
    (c' : Nat) (h : draw next fuel s c d = some (r, s', c')) : Adv next s c s' c' := by
  cases d with
  | real =>
    simp only [draw, nextReal, Option.some.injEq, Prod.mk.injEq] at h
    obtain ⟨-, rfl, rfl⟩ := h
    exact ⟨2, rfl, rfl⟩
  | int max =>
    simp only [draw, randInt] at h
    split at h
    · rename_i v s1 c1 h1
      split at h1
      · rename_i ds s2 c2 h2
        simp only [Option.some.injEq, Prod.mk.injEq] at h h1
        obtain ⟨-, rfl, rfl⟩ := h
        obtain ⟨-, rfl, rfl⟩ := h1
        exact limitedRand_adv _ _ _ _ _ _ _ _ h2
      · simp at h1
    · simp at h
  | bytes n =>
    simp only [draw, Option.some.injEq, Prod.mk.injEq] at h
    obtain ⟨-, rfl, rfl⟩ := h
    exact ⟨_, rfl, fillBytes_skip _ _ _⟩
  | session ms =>
    simp only [draw] at h
    split at h
    · rename_i vs s1 c1 h1
      simp only [Option.some.injEq, Prod.mk.injEq] at h
      obtain ⟨-, rfl, rfl⟩ := h
      exact sessionDraw_adv _ _ _ _ _ _ _ _ h1
    · simp at h

theorem mtAt_adv {seed : Int} {c c' : Nat} {s' : Mt} (h : Adv Mt.next (mtAt seed c) c s' c') :
    s' = mtAt seed c' := by
  obtain ⟨k, rfl, rfl⟩ := h
  unfold mtAt
  rw [skip_add]

/-! ## Sources that give the same words give the same draws -/

variable {T : Type}

/-- `Rel` relates states of two sources that give the same words -/
def Sim (next : S → W × S) (next' : T → W × T) (Rel : S → T → Prop) : Prop :=
  ∀ s t, Rel s t → (next s).1 = (next' t).1 ∧ Rel (next s).2 (next' t).2

/-- results equal, states related, counts advanced alike from `c` and `c2` -/
def SameOut {α : Type} (Rel : S → T → Prop) (c c2 : Nat) :
    Option (α × S × Nat) → Option (α × T × Nat) → Prop
  | none, none => True
  | some (a, s, x), some (b, t, y) => a = b ∧ Rel s t ∧ x + c2 = y + c
  | _, _ => False

section
variable {next : S → W × S} {next' : T → W × T} {Rel : S → T → Prop} (hsim : Sim next next' Rel)
include hsim

theorem pass_sim : ∀ (l : List W) (mask : W) (b : Bool) (s : S) (t : T) (c c2 : Nat), Rel s t →
    (pass next l mask b s c).1 = (pass next' l mask b t c2).1 ∧
    Rel (pass next l mask b s c).2.1 (pass next' l mask b t c2).2.1 ∧
    (pass next l mask b s c).2.2 + c2 = (pass next' l mask b t c2).2.2 + c := by
  intro l
  induction l with
  | nil => intro mask b s t c c2 h; exact ⟨rfl, h, Nat.add_comm _ _⟩
  | cons lim rest ih =>
    intro mask b s t c c2 h
    obtain ⟨h1, h2⟩ := hsim s t h
    rw [pass, pass]
    simp only
    rw [← h1]
    generalize (if mask ≠ 0#32 then 0xffffffff#32 else makeMask lim) = mask'
    split
    · split
      · exact ⟨rfl, h2, by simp only; omega⟩
      · have hi := ih mask' (b && !decide ((next s).1 &&& mask' < lim)) _ _ (c + 1) (c2 + 1) h2
        generalize pass next rest mask' (b && !decide ((next s).1 &&& mask' < lim)) (next s).2
          (c + 1) = r at hi
        generalize pass next' rest mask' (b && !decide ((next s).1 &&& mask' < lim)) (next' t).2
          (c2 + 1) = r' at hi
        obtain ⟨o, s', c'⟩ := r
        obtain ⟨o', t', c''⟩ := r'
        obtain ⟨rfl, hr, hc⟩ := hi
        simp only at hc
        cases o <;> exact ⟨rfl, hr, by simp only; omega⟩
    · have hi := ih mask' b _ _ c c2 h
      generalize pass next rest mask' b s c = r at hi
      generalize pass next' rest mask' b t c2 = r' at hi
      obtain ⟨o, s', c'⟩ := r
      obtain ⟨o', t', c''⟩ := r'
      obtain ⟨rfl, hr, hc⟩ := hi
      cases o <;> exact ⟨rfl, hr, hc⟩

theorem limitedRand_sim (l : List W) : ∀ (fuel : Nat) (s : S) (t : T) (c c2 : Nat), Rel s t →
    SameOut Rel c c2 (limitedRand next l fuel s c) (limitedRand next' l fuel t c2) := by
  intro fuel
  induction fuel with
  | zero => intro s t c c2 _; trivial
  | succ fuel ih =>
    intro s t c c2 h
    have hp := pass_sim hsim l.reverse 0#32 true s t c c2 h
    rw [limitedRand, limitedRand]
    generalize pass next l.reverse 0#32 true s c = r at hp
    generalize pass next' l.reverse 0#32 true t c2 = r' at hp
    obtain ⟨o, s', c'⟩ := r
    obtain ⟨o', t', c''⟩ := r'
    obtain ⟨rfl, hr, hc⟩ := hp
    simp only at hc
    cases o with
    | none =>
      have h2 := ih s' t' c' c'' hr
      simp only
      generalize limitedRand next l fuel s' c' = r at h2
      generalize limitedRand next' l fuel t' c'' = r' at h2
      match r, r', h2 with
      | none, none, _ => trivial
      | some (d, s', x), some (d', t', y), h2 =>
        obtain ⟨rfl, hr, hd⟩ := h2
        exact ⟨rfl, hr, by omega⟩
    | some d => exact ⟨rfl, hr, hc⟩

theorem ulongLimited_sim (fuel : Nat) (m : BitVec 64) (s : S) (t : T) (c c2 : Nat) (h : Rel s t) :
    SameOut Rel c c2 (ulongLimited next fuel m s c) (ulongLimited next' fuel m t c2) := by
  unfold ulongLimited
  split
  · exact ⟨rfl, h, Nat.add_comm _ _⟩
  · simp only
    generalize (if (m >>> 32).setWidth 32 = 0#32 then [m.setWidth 32]
      else [m.setWidth 32, (m >>> 32).setWidth 32]) = L
    have hl := limitedRand_sim hsim L fuel s t c c2 h
    generalize limitedRand next L fuel s c = r at hl
    generalize limitedRand next' L fuel t c2 = r' at hl
    match r, r', hl with
    | none, none, _ => trivial
    | some (d, s', c'), some (d', t', c''), hl =>
      obtain ⟨rfl, hr, hc⟩ := hl
      exact ⟨rfl, hr, hc⟩

theorem sessionDraw_sim (fuel : Nat) : ∀ (ms : List (BitVec 64)) (s : S) (t : T) (c c2 : Nat),
    Rel s t → SameOut Rel c c2 (sessionDraw next fuel ms s c) (sessionDraw next' fuel ms t c2) := by
  intro ms
  induction ms with
  | nil => intro s t c c2 h; exact ⟨rfl, h, Nat.add_comm _ _⟩
  | cons m ms ih =>
    intro s t c c2 h
    have hl := ulongLimited_sim hsim fuel m s t c c2 h
    rw [sessionDraw, sessionDraw]
    generalize ulongLimited next fuel m s c = r at hl
    generalize ulongLimited next' fuel m t c2 = r' at hl
    match r, r', hl with
    | none, none, _ => trivial
    | some (d, s', c'), some (d', t', c''), hl =>
      obtain ⟨rfl, hr, hc⟩ := hl
      simp only
      have h2 := ih s' t' c' c'' hr
      generalize sessionDraw next fuel ms s' c' = q at h2
      generalize sessionDraw next' fuel ms t' c'' = q' at h2
      match q, q', h2 with
      | none, none, _ => trivial
      | some (d, s', x), some (d', t', y), h2 =>
        obtain ⟨rfl, hr, hd⟩ := h2
        exact ⟨rfl, hr, by omega⟩

theorem fillBytes_sim : ∀ (n : Nat) (s : S) (t : T), Rel s t →
    (fillBytes next n s).1 = (fillBytes next' n t).1 ∧
    Rel (fillBytes next n s).2 (fillBytes next' n t).2 := by
  intro n
  induction n using Nat.strong_induction_on with
  | _ n ih =>
    intro s t h
    obtain ⟨h1, h2⟩ := hsim s t h
    cases n with
    | zero => rw [fillBytes, fillBytes]; exact ⟨rfl, h⟩
    | succ n =>
      rw [fillBytes, fillBytes]
      split
      · obtain ⟨h3, h4⟩ := ih (n + 1 - 4) (by omega) _ _ h2
        simp only
        rw [h1, h3]
        exact ⟨rfl, h4⟩
      · rw [h1]; exact ⟨rfl, h2⟩

theorem draw_sim (fuel : Nat) (d : Draw) (s : S) (t : T) (c c2 : Nat) (h : Rel s t) :
    SameOut Rel c c2 (draw next fuel s c d) (draw next' fuel t c2 d) := by
  cases d with
  | real =>
    obtain ⟨h1, h2⟩ := hsim s t h
    obtain ⟨h3, h4⟩ := hsim _ _ h2
    simp only [draw, nextReal, h1, h3]
    exact ⟨rfl, h4, by omega⟩
  | int max =>
    simp only [draw, randInt]
    have hl := limitedRand_sim hsim (leDigits (max - 1)) fuel s t c c2 h
    generalize limitedRand next (leDigits (max - 1)) fuel s c = r at hl
    generalize limitedRand next' (leDigits (max - 1)) fuel t c2 = r' at hl
    match r, r', hl with
    | none, none, _ => trivial
    | some (d, s', c'), some (d', t', c''), hl =>
      obtain ⟨rfl, hr, hc⟩ := hl
      exact ⟨rfl, hr, hc⟩
  | bytes n =>
    simp only [draw]
    obtain ⟨h1, h2⟩ := fillBytes_sim hsim n s t h
    rw [h1]
    exact ⟨rfl, h2, by omega⟩
  | session ms =>
    simp only [draw]
    have hl := sessionDraw_sim hsim fuel ms s t c c2 h
    generalize sessionDraw next fuel ms s c = r at hl
    generalize sessionDraw next' fuel ms t c2 = r' at hl
    match r, r', hl with
    | none, none, _ => trivial
    | some (d, s', c'), some (d', t', c''), hl =>
      obtain ⟨rfl, hr, hc⟩ := hl
      exact ⟨rfl, hr, hc⟩

end

/-! ## Equality of generators -/

/-- equal in the 624 words and the position -/
def MtSame (a b : Mt) : Prop := (∀ j, j < 624 → a.mt j = b.mt j) ∧ a.mti = b.mti

theorem mt_eq_iff (a b : Mt) : a.eq b = true ↔ MtSame a b := by
  unfold Mt.eq MtSame MT_N
  simp only [Bool.and_eq_true, List.all_eq_true, List.mem_range, beq_iff_eq]

theorem regenLoop_congr : ∀ (n kk : Nat) (m m' : Nat → W), n + kk = 624 →
    (∀ j, j < 624 → m j = m' j) → ∀ j, j < 624 → regenLoop n kk m j = regenLoop n kk m' j := by
  intro n
  induction n with
  | zero => intro kk m m' _ h j hj; exact h j hj
  | succ n ih =>
    intro kk m m' hk h j hj
    rw [regenLoop, regenLoop]
    apply ih (kk + 1) _ _ (by omega) _ j hj
    intro j hj
    unfold MT_N MT_M
    by_cases hjk : j = kk
    · subst hjk
      simp only [Function.update_self]
      split
      · rw [h (j + 397) (by omega), h j (by omega), h (j + 1) (by omega)]
      · split
        · rw [h (j + 397 - 624) (by omega), h j (by omega), h (j + 1) (by omega)]
        · rw [h (397 - 1) (by omega), h (624 - 1) (by omega), h 0 (by omega)]
    · rw [Function.update_of_ne hjk, Function.update_of_ne hjk]
      exact h j hj

theorem mtSame_sim : Sim Mt.next Mt.next (fun a b => a.mti ≤ 624 ∧ MtSame a b) := by
  rintro a b ⟨hle, h1, h2⟩
  unfold Mt.next
  rw [← h2]
  by_cases hge : MT_N ≤ a.mti
  · simp only [if_pos hge]
    have hc := regenLoop_congr 624 0 a.mt b.mt (by omega) h1
    rw [show (MT_N = 624) from rfl, hc 0 (by omega)]
    refine ⟨rfl, by simp, ?_⟩
    unfold MtSame
    simp only
    exact ⟨hc, trivial⟩
  · have hlt : a.mti < 624 := by unfold MT_N at hge; omega
    simp only [if_neg hge]
    rw [h1 _ hlt, ← h2]
    exact ⟨rfl, by simp; omega, h1, rfl⟩

end Verif.Random
