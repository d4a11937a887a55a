import Verif.Random.Uniform

/-!
# C17, C18, C41: random numbers
-/

namespace Verif.Random

/-! ## C17 -/

/-- What a user expects of a generator: it is seeded once and advances. -/
structure Live where
  mt : Mt
  used : Nat

inductive Op where
  | new (seed : Int)
  | dup (i : Nat)
  | draw (i : Nat) (d : Draw)

/-- One operation on live generators.  `none`: no such generator, an endless rejection loop, or
2^62 words drawn. -/
def specStep (fuel : Nat) (gs : List Live) : Op → Option (List Res × List Live)
  | .new seed => some ([], gs ++ [⟨buildMt seed, 0⟩])
  | .dup i => gs[i]?.map fun g => ([], gs ++ [g])
  | .draw i d =>
    match gs[i]? with
    | none => none
    | some g =>
      match draw Mt.next fuel g.mt g.used d with
      | none => none
      | some (r, mt, used) => if used < 2 ^ 62 then some ([r], gs.set i ⟨mt, used⟩) else none

/-- One operation on `Random` instances. -/
def step (fuel : Nat) (rs : List Rnd) : Op → Option (List Res × List Rnd)
  | .new seed => some ([], rs ++ [⟨seed, 0⟩])
  | .dup i => rs[i]?.map fun r => ([], rs ++ [r])
  | .draw i d =>
    match rs[i]? with
    | none => none
    | some r =>
      match r.draw fuel d with
      | none => none
      | some (res, r') => some ([res], rs.set i r')

def runOps {G : Type} (st : List G → Op → Option (List Res × List G)) : List Op → List G →
    Option (List Res × List G)
  | [], gs => some ([], gs)
  | o :: os, gs =>
    match st gs o with
    | none => none
    | some (r, gs') =>
      match runOps st os gs' with
      | none => none
      | some (rs, gs'') => some (r ++ rs, gs'')

/-- an instance stands for a live generator -/
def Stands (r : Rnd) (g : Live) : Prop :=
  r.cnt = g.used ∧ g.used < 2 ^ 62 ∧ g.mt = mtAt r.seed g.used

theorem stands_all_get {rs : List Rnd} {gs : List Live} (h : List.Forall₂ Stands rs gs) (i : Nat) :
    (gs[i]? = none ∧ rs[i]? = none) ∨ ∃ r g, rs[i]? = some r ∧ gs[i]? = some g ∧ Stands r g := by
  induction h generalizing i with
  | nil => left; simp
  | cons h1 _ ih =>
    cases i with
    | zero => right; exact ⟨_, _, rfl, rfl, h1⟩
    | succ i => simpa using ih i

theorem stands_append {rs : List Rnd} {gs : List Live} (h : List.Forall₂ Stands rs gs) {r : Rnd}
    {g : Live} (hg : Stands r g) : List.Forall₂ Stands (rs ++ [r]) (gs ++ [g]) := by
  induction h with
  | nil => exact List.Forall₂.cons hg List.Forall₂.nil
  | cons h1 _ ih => exact List.Forall₂.cons h1 ih

theorem stands_set {rs : List Rnd} {gs : List Live} (h : List.Forall₂ Stands rs gs) (i : Nat) {r : Rnd}
    {g : Live} (hg : Stands r g) : List.Forall₂ Stands (rs.set i r) (gs.set i g) := by
  induction h generalizing i with
  | nil => exact List.Forall₂.nil
  | cons h1 h2 ih =>
    cases i with
    | zero => exact List.Forall₂.cons hg h2
    | succ i => exact List.Forall₂.cons h1 (ih i)

theorem step_stands (fuel : Nat) {rs : List Rnd} {gs gs' : List Live} (h : List.Forall₂ Stands rs gs)
    (o : Op) (res : List Res) (hs : specStep fuel gs o = some (res, gs')) :
    ∃ rs', step fuel rs o = some (res, rs') ∧ List.Forall₂ Stands rs' gs' := by
  cases o with
  | new seed =>
    simp only [specStep, Option.some.injEq, Prod.mk.injEq] at hs
    obtain ⟨rfl, rfl⟩ := hs
    exact ⟨_, rfl, stands_append h ⟨rfl, by norm_num, rfl⟩⟩
  | dup i =>
    simp only [specStep] at hs
    rcases stands_all_get h i with ⟨h1, -⟩ | ⟨r, g, h1, h2, h3⟩
    · rw [h1] at hs; simp at hs
    · rw [h2] at hs
      simp only [Option.map_some, Option.some.injEq, Prod.mk.injEq] at hs
      obtain ⟨rfl, rfl⟩ := hs
      exact ⟨rs ++ [r], by simp [step, h1], stands_append h h3⟩
  | draw i d =>
    simp only [specStep] at hs
    rcases stands_all_get h i with ⟨h1, -⟩ | ⟨r, g, h1, h2, h3⟩
    · rw [h1] at hs; simp at hs
    · rw [h2] at hs
      simp only at hs
      obtain ⟨hc, hlt, hmt⟩ := h3
      split at hs
      · simp at hs
      · rename_i r1 mt1 used1 hd
        split at hs
        · rename_i hu
          simp only [Option.some.injEq, Prod.mk.injEq] at hs
          obtain ⟨rfl, rfl⟩ := hs
          have hload : r.load = (r.seed, g.used) := by
            unfold Rnd.load; rw [hc, if_pos hlt]
          rw [hmt] at hd
          refine ⟨rs.set i { r with cnt := used1 }, ?_, stands_set h i ⟨rfl, hu, ?_⟩⟩
          · simp only [step, h1, Rnd.draw, hload, hd]
          · exact mtAt_adv (draw_adv _ _ _ _ _ _ _ _ hd)
        · simp at hs

/-- **C17.** Any history of creating, copying and drawing from `Random` instances gives the
results of live generators that are seeded once, copied and advanced.  In particular a copy
continues with the same values as the original, and neither disturbs the other. -/
theorem C17_instances_replay_their_streams (fuel : Nat) (ops : List Op) (res : List Res)
    (gs : List Live) (h : runOps (specStep fuel) ops [] = some (res, gs)) :
    ∃ rs, runOps (step fuel) ops [] = some (res, rs) ∧ List.Forall₂ Stands rs gs := by
  suffices H : ∀ (ops : List Op) (rs0 : List Rnd) (gs0 : List Live) (res : List Res) (gs : List Live),
      List.Forall₂ Stands rs0 gs0 → runOps (specStep fuel) ops gs0 = some (res, gs) →
      ∃ rs, runOps (step fuel) ops rs0 = some (res, rs) ∧ List.Forall₂ Stands rs gs by
    exact H ops [] [] res gs List.Forall₂.nil h
  intro ops
  induction ops with
  | nil =>
    intro rs0 gs0 res gs h0 h
    simp only [runOps, Option.some.injEq, Prod.mk.injEq] at h
    obtain ⟨rfl, rfl⟩ := h
    exact ⟨rs0, rfl, h0⟩
  | cons o os ih =>
    intro rs0 gs0 res gs h0 h
    rw [runOps] at h
    split at h
    · simp at h
    · rename_i r1 gs1 h1
      split at h
      · simp at h
      · rename_i rs2 gs2 h2
        simp only [Option.some.injEq, Prod.mk.injEq] at h
        obtain ⟨rfl, rfl⟩ := h
        obtain ⟨rs', h3, h4⟩ := step_stands fuel h0 o r1 h1
        obtain ⟨rs'', h5, h6⟩ := ih rs' gs1 rs2 gs2 h4 h2
        exact ⟨rs'', by rw [runOps, h3]; simp only; rw [h5], h6⟩

/-- a generator, a float, a copy, bytes from the copy, a float from the original -/
example : ∃ res gs, runOps (specStep 9)
    [.new 42, .draw 0 .real, .dup 0, .draw 1 (.bytes 5), .draw 0 .real] [] = some (res, gs) ∧
    res.length = 3 :=
  ⟨_, _, rfl, rfl⟩

/-- **C17.** The words behind every draw are those of MT19937: the `n`-th word of the stream of
`seed` is the tempered `n`-th term of the recurrence that starts with the seeded words. -/
theorem C17_stream_is_mt19937 (seed : Int) (n : Nat) :
    (mtAt seed n).next.1 = temper (raw (buildMt seed).mt (624 + n)) := by
  have h := skip_at _ (raw_step (buildMt seed).mt) n 0 _ (buildMt_at seed)
  have := (next_at _ (raw_step (buildMt seed).mt) h).1
  rw [Nat.zero_add] at this
  exact this

/-- **C17.** A draw is a function of the stream and the position alone, and moves the position. -/
theorem C17_draw_reads_the_stream (fuel : Nat) (r : Rnd) (d : Draw) (hr : r.cnt < 2 ^ 62) :
    r.draw fuel d =
      (draw (fun p : Nat => (temper (raw (buildMt r.seed).mt (624 + p)), p + 1)) fuel r.cnt r.cnt d).map
        (fun x => (x.1, { r with cnt := x.2.1 })) := by
  have hsim : Sim Mt.next (fun p : Nat => (temper (raw (buildMt r.seed).mt (624 + p)), p + 1))
      (fun s p => s = mtAt r.seed p) := by
    rintro s p rfl
    refine ⟨C17_stream_is_mt19937 _ _, ?_⟩
    exact mtAt_adv (Adv.one _ _ _)
  have h := draw_sim hsim fuel d (mtAt r.seed r.cnt) r.cnt r.cnt r.cnt rfl
  unfold Rnd.draw Rnd.load
  rw [if_pos hr]
  simp only
  have hadv := draw_adv (fun p : Nat => (temper (raw (buildMt r.seed).mt (624 + p)), p + 1)) fuel r.cnt r.cnt d
  generalize draw Mt.next fuel (mtAt r.seed r.cnt) r.cnt d = x at h
  generalize draw (fun p : Nat => (temper (raw (buildMt r.seed).mt (624 + p)), p + 1)) fuel r.cnt r.cnt d = y
    at h hadv
  match x, y, h with
  | none, none, _ => rfl
  | some (a, s, c), some (b, t, c'), h =>
    obtain ⟨rfl, -, hcc⟩ := h
    obtain rfl : c = c' := by omega
    obtain ⟨k, hk1, hk2⟩ := hadv a t c rfl
    have : t = c := by
      have hs : ∀ (k p : Nat), skip (fun p : Nat => (temper (raw (buildMt r.seed).mt (624 + p)), p + 1)) k p
          = p + k := by
        intro k
        induction k with
        | zero => intro p; rfl
        | succ k ih => intro p; rw [skip, ih]; omega
      rw [hk2, hs]; omega
    simp [this]

example : (⟨42, 0⟩ : Rnd).cnt < 2 ^ 62 := by norm_num

theorem mtAt_mti (seed : Int) (n : Nat) :
    1 ≤ (mtAt seed n).mti ∧ (mtAt seed n).mti ≤ 624 ∧ (mtAt seed n).mti % 624 = n % 624 := by
  induction n with
  | zero =>
    have : (mtAt seed 0).mti = 624 := buildMt_mti seed
    omega
  | succ n ih =>
    have h : mtAt seed (n + 1) = (mtAt seed n).next.2 := (mtAt_adv (Adv.one _ _ _)).symm
    rw [h]
    unfold Mt.next
    simp only
    by_cases hge : MT_N ≤ (mtAt seed n).mti
    · rw [if_pos hge]
      simp only
      unfold MT_N at hge
      omega
    · rw [if_neg hge]
      unfold MT_N at hge
      omega

/-- **C17.** Same seed and same consumption: equal. -/
theorem C17_same_history_equal (a b : Rnd) (hs : a.seed = b.seed) (hc : a.cnt = b.cnt) :
    a.eq b = true := by
  unfold Rnd.eq Rnd.load
  rw [mt_eq_iff, hs, hc]
  exact ⟨fun _ _ => rfl, rfl⟩

/-- **C17.** Equal instances draw equal values from then on, and stay equal. -/
theorem C17_equal_instances_agree (fuel : Nat) (d : Draw) (a b : Rnd) (ha : a.cnt < 2 ^ 62)
    (hb : b.cnt < 2 ^ 62) (heq : a.eq b = true) (ra : Res) (a' : Rnd) (ha' : a'.cnt < 2 ^ 62)
    (h : a.draw fuel d = some (ra, a')) :
    ∃ b', b.draw fuel d = some (ra, b') ∧ (b'.cnt < 2 ^ 62 → a'.eq b' = true) := by
  unfold Rnd.eq at heq
  rw [mt_eq_iff] at heq
  unfold Rnd.load at heq
  rw [if_pos ha, if_pos hb] at heq
  simp only at heq
  unfold Rnd.draw Rnd.load at h ⊢
  rw [if_pos ha] at h
  rw [if_pos hb]
  simp only at h ⊢
  have hsim := draw_sim mtSame_sim fuel d (mtAt a.seed a.cnt) (mtAt b.seed b.cnt) a.cnt b.cnt
    ⟨(mtAt_mti _ _).2.1, heq⟩
  have hA := draw_adv Mt.next fuel (mtAt a.seed a.cnt) a.cnt d
  have hB := draw_adv Mt.next fuel (mtAt b.seed b.cnt) b.cnt d
  generalize draw Mt.next fuel (mtAt a.seed a.cnt) a.cnt d = x at h hsim hA
  generalize draw Mt.next fuel (mtAt b.seed b.cnt) b.cnt d = y at hsim hB ⊢
  match x, y, hsim with
  | none, none, _ => simp at h
  | some (r, s, c), some (r', t, c'), hsim =>
    obtain ⟨rfl, ⟨-, hsame⟩, -⟩ := hsim
    simp only [Option.some.injEq, Prod.mk.injEq] at h
    obtain ⟨rfl, rfl⟩ := h
    refine ⟨{ b with cnt := c' }, rfl, fun hb' => ?_⟩
    unfold Rnd.eq Rnd.load
    rw [if_pos ha', if_pos hb', mt_eq_iff]
    simp only
    rw [← mtAt_adv (hA r s c rfl), ← mtAt_adv (hB r t c' rfl)]
    exact hsame

/-- an instance and its copy, after two words -/
example : (⟨42, 2⟩ : Rnd).eq ⟨42, 2⟩ = true ∧
    ∃ ra a', (⟨42, 2⟩ : Rnd).draw 9 .real = some (ra, a') ∧ a'.cnt = 4 :=
  ⟨C17_same_history_equal _ _ rfl rfl, _, _, rfl, rfl⟩

/-- **C17, in part.** Equality bounds the consumption: instances that compare equal have drawn
the same number of words modulo 624.  Missing: that it is the same number, which would need
the period of the generator. -/
theorem C17_equal_counts_partial (a b : Rnd) (ha : a.cnt < 2 ^ 62) (hb : b.cnt < 2 ^ 62)
    (h : a.eq b = true) : a.cnt % 624 = b.cnt % 624 := by
  unfold Rnd.eq Rnd.load at h
  rw [if_pos ha, if_pos hb, mt_eq_iff] at h
  have h2 := h.2
  simp only at h2
  have h3 := mtAt_mti a.seed a.cnt
  have h4 := mtAt_mti b.seed b.cnt
  rw [h2] at h3
  omega

/-- so an instance that has drawn a word differs from a fresh one -/
example : (⟨42, 2⟩ : Rnd).eq ⟨42, 0⟩ = false := by
  cases h : (⟨42, 2⟩ : Rnd).eq ⟨42, 0⟩ with
  | false => rfl
  | true =>
    have := C17_equal_counts_partial _ _ (by norm_num) (by norm_num) h
    simp at this

/-- **C17, finding.** Equality does not look at the seed: `Random.new(n) == Random.new(-n)`,
although the two answer `seed` differently. -/
theorem C17_equality_ignores_sign (seed : Int) (cnt : Nat) :
    (⟨seed, cnt⟩ : Rnd).eq ⟨-seed, cnt⟩ = true := by
  have h : ∀ n, mtAt (-seed) n = mtAt seed n := by
    intro n; unfold mtAt buildMt; rw [Int.natAbs_neg]
  unfold Rnd.eq Rnd.load
  rw [mt_eq_iff]
  simp only [h]
  exact ⟨fun _ _ => rfl, rfl⟩

/-- **C17, finding.** `r.rand(obj)` rebuilds the generator before it calls `obj.to_int`.  When that
method draws from `r` itself, the outer call reuses the same words: both return the same
number and the draw made inside is forgotten. -/
theorem C17_reentrant_draw_is_lost (fuel : Nat) (r r1 : Rnd) (max v : Nat)
    (h : r.draw fuel (.int max) = some (.int v, r1)) :
    r.randObj fuel (fun r => (r.draw fuel (.int max)).map fun x => (max, x.2)) = some (.int v, r1) := by
  unfold Rnd.randObj
  beta_reduce
  rw [h]
  simp only [Option.map_some]
  unfold Rnd.draw at h
  simp only at h
  split at h
  · rename_i res s c hd
    simp only [Option.some.injEq, Prod.mk.injEq] at h
    obtain ⟨rfl, rfl⟩ := h
    rfl
  · simp at h

/-- a draw from a bound of 1 needs no words and always succeeds -/
example : (⟨42, 0⟩ : Rnd).draw 1 (.int 1) = some (.int 0, ⟨42, 0⟩) := by
  unfold Rnd.draw
  simp only [draw, randInt, Nat.sub_self, leDigits_zero, limitedRand_zero]
  rfl

/-! ## C18 -/

variable {S : Type}

/-- **C18.** `rand(max)` is below `max`, for every source of words and every positive `max`. -/
theorem C18_rand_int_in_range (next : S → W × S) (fuel max : Nat) (hmax : 0 < max) (s : S) (c : Nat)
    (v : Nat) (s' : S) (c' : Nat) (h : randInt next fuel max s c = some (v, s', c')) : v < max := by
  unfold randInt at h
  split at h
  · rename_i ds s1 c1 hl
    simp only [Option.some.injEq, Prod.mk.injEq] at h
    obtain ⟨rfl, rfl, rfl⟩ := h
    by_cases h1 : max - 1 = 0
    · rw [h1, leDigits_zero] at hl
      cases fuel with
      | zero => simp [limitedRand] at hl
      | succ fuel =>
        rw [limitedRand_zero] at hl
        simp only [Option.some.injEq, Prod.mk.injEq] at hl
        obtain ⟨rfl, -, -⟩ := hl
        simpa [digitsVal] using hmax
    · obtain ⟨top, rest, h2, h3⟩ := leDigits_top _ h1
      have := (limitedRand_le next _ top rest h2 h3 fuel s c ds s1 c1 hl).2
      rw [leDigits_val] at this
      omega
  · simp at h

/-- **C18.** The machine-word draw (`Array#shuffle`, `Kernel#rand` of a small Integer) is the same
function as the arbitrary-precision one. -/
theorem C18_machine_word_draw (next : S → W × S) (fuel : Nat) (m : BitVec 64) (s : S) (c : Nat) :
    ulongLimited next (fuel + 1) m s c =
      (randInt next (fuel + 1) (m.toNat + 1) s c).map (fun r => (BitVec.ofNat 64 r.1, r.2)) :=
  ulongLimited_eq next fuel m s c

theorem C18_machine_word_in_range (next : S → W × S) (fuel : Nat) (m : BitVec 64) (s : S) (c : Nat)
    (v : BitVec 64) (s' : S) (c' : Nat) (h : ulongLimited next (fuel + 1) m s c = some (v, s', c')) :
    v.toNat ≤ m.toNat := by
  rw [C18_machine_word_draw] at h
  cases hr : randInt next (fuel + 1) (m.toNat + 1) s c with
  | none => rw [hr] at h; simp at h
  | some x =>
    obtain ⟨n, s1, c1⟩ := x
    rw [hr] at h
    simp only [Option.map_some, Option.some.injEq, Prod.mk.injEq] at h
    obtain ⟨rfl, -, -⟩ := h
    have := C18_rand_int_in_range next (fuel + 1) _ (by omega) s c n s1 c1 hr
    rw [BitVec.toNat_ofNat]
    exact (Nat.mod_le _ _).trans (by omega)

/-- the words `ws`, all used, make `rand(max)` return `v` -/
def Selects (fuel max : Nat) (ws : List W) (v : Nat) : Prop :=
  ∃ s', randInt lnext fuel max ws 0 = some (v, s', ws.length)

/-- **C18.** No value is favoured: for any two values below `max`, the sequences of `N` words that
end the draw with the one correspond one to one to those that end it with the other, however
many rejected attempts they contain. -/
theorem C18_unbiased (fuel max N u v : Nat) (hu : u < max) (hv : v < max) :
    ∃ f : List W → List W, Set.BijOn f {ws | ws.length = N ∧ Selects fuel max ws u}
      {ws | ws.length = N ∧ Selects fuel max ws v} := by
  have hsel : ∀ ws x, Selects fuel max ws x ↔ Ends (leDigits (max - 1)) fuel ws 0 x := by
    intro ws x
    unfold Selects Ends randInt
    rw [Nat.zero_add]
    constructor
    · rintro ⟨s', h⟩
      split at h
      · rename_i ds s1 c1 hl
        simp only [Option.some.injEq, Prod.mk.injEq] at h
        obtain ⟨h1, rfl, rfl⟩ := h
        exact ⟨ds, s1, hl, h1⟩
      · simp at h
    · rintro ⟨ds, s', h, rfl⟩
      exact ⟨s', by rw [h]⟩
  by_cases h1 : max - 1 = 0
  · obtain rfl : u = v := by omega
    exact ⟨id, Set.bijOn_id _⟩
  · obtain ⟨top, rest, h2, h3⟩ := leDigits_top _ h1
    simp only [hsel]
    exact ends_bij _ top rest h2 h3 u v (by rw [leDigits_val]; omega) (by rw [leDigits_val]; omega)
      fuel N

/-- `rand(6)`: the word 7 is rejected, then 3 is taken -/
example : Selects 2 6 [7#32, 3#32] 3 := by
  refine ⟨[], ?_⟩
  unfold randInt
  rw [show leDigits (6 - 1) = [5#32] by rw [leDigits]; rfl]
  decide

/-- **C18.** One attempt: every value below `max` is selected by exactly `2^(32-b)` of the word
sequences, `b` the bits of the leading digit of `max - 1`, and more than half of all sequences
are accepted. -/
theorem C18_one_attempt (max : Nat) (hmax : 1 < max) :
    ∃ (top : W) (rest : List W), (leDigits (max - 1)).reverse = top :: rest ∧
      (∀ v, v < max → (PassSel top rest v).ncard = 2 ^ (32 - bits top)) ∧
      4294967296 ^ (rest.length + 1) < 2 * (max * 2 ^ (32 - bits top)) := by
  obtain ⟨top, rest, h2, h3⟩ := leDigits_top (max - 1) (by omega)
  have hval : msdVal (top :: rest) = max - 1 := by
    rw [← h2, msdVal_reverse, leDigits_val]
  refine ⟨top, rest, h2, fun v hv => passSel_ncard top rest h3 v (by omega), ?_⟩
  have h4 := two_pow_bits_le top h3
  have hb : 1 ≤ bits top := by unfold bits; rw [if_neg h3]; omega
  have hb2 := bits_le top
  have h5 : 2 ^ (bits top - 1) * 4294967296 ^ rest.length < max := by
    have : 2 ^ (bits top - 1) * 4294967296 ^ rest.length ≤ top.toNat * 4294967296 ^ rest.length :=
      Nat.mul_le_mul_right _ h4
    simp only [msdVal] at hval
    omega
  have h6 : 2 * (2 ^ (bits top - 1) * 4294967296 ^ rest.length * 2 ^ (32 - bits top))
      = 4294967296 ^ (rest.length + 1) := by
    have : 2 * 2 ^ (bits top - 1) * 2 ^ (32 - bits top) = 4294967296 := by
      rw [← Nat.pow_succ', ← Nat.pow_add, show (bits top - 1).succ + (32 - bits top) = 32 by omega]
    calc _ = (2 * 2 ^ (bits top - 1) * 2 ^ (32 - bits top)) * 4294967296 ^ rest.length := by ring
      _ = _ := by rw [this, Nat.pow_succ]; ring
  rw [← h6]
  have hp : 0 < 2 ^ (32 - bits top) := by positivity
  have := Nat.mul_lt_mul_of_pos_right h5 hp
  omega

/-- **C18.** `rand` is a float in `0...1` with 53 random bits: the numerator over 2^53 is below
2^53 and each numerator comes from exactly the words with the given upper bits. -/
theorem C18_real_in_range (next : S → W × S) (s : S) (c : Nat) : (nextReal next s c).1 < 2 ^ 53 := by
  unfold nextReal
  simp only
  have h1 : ((next s).1 >>> 5).toNat < 2 ^ 27 := by
    rw [BitVec.toNat_ushiftRight, Nat.shiftRight_eq_div_pow]
    have := (next s).1.isLt
    omega
  have h2 : ((next (next s).2).1 >>> 6).toNat < 2 ^ 26 := by
    rw [BitVec.toNat_ushiftRight, Nat.shiftRight_eq_div_pow]
    have := (next (next s).2).1.isLt
    omega
  omega

/-! ## C41: ranges -/

theorem wrap64_id (x : Int) (h1 : -2 ^ 63 ≤ x) (h2 : x < 2 ^ 63) : wrap64 x = x := by
  unfold wrap64
  rw [BitVec.toInt_ofInt]
  exact Int.bmod_eq_of_le (by norm_num; omega) (by norm_num; omega)

/-- **C41, in part.** `Kernel#rand(s..e)`: nil for an empty range, otherwise an Integer of the range.
The one range excluded is the inclusive range of all fixnums. -/
theorem C41_kernel_rand_range_partial (next : S → W × S) (fuel : Nat) (s e : Int) (excl : Bool)
    (hs : inFix s) (he : inFix e) (hspan : ¬ (s = -2 ^ 62 ∧ e = 2 ^ 62 - 1 ∧ excl = false))
    (st : S) (c : Nat) (o : Option Int) (st' : S) (c' : Nat)
    (h : kernelRandRange next (fuel + 1) s e excl st c = some (o, st', c')) :
    (o = none → e < s ∨ (excl = true ∧ e = s)) ∧
    (∀ v, o = some v → s ≤ v ∧ (if excl then v < e else v ≤ e)) := by
  unfold inFix at hs he
  unfold kernelRandRange at h
  simp only at h
  have hw : wrap64 (wrap64 (e - s) + (if excl then 0 else 1)) = e - s + (if excl then 0 else 1) := by
    rw [wrap64_id (e - s) (by omega) (by omega)]
    cases excl
    · simp only [Bool.false_eq_true, if_false]
      simp only [and_true] at hspan
      exact wrap64_id _ (by omega) (by omega)
    · simp only [if_true]
      exact wrap64_id _ (by omega) (by omega)
  rw [hw] at h
  generalize hsp : e - s + (if excl then 0 else 1) = span at *
  split at h
  · rename_i hle
    simp only [Option.some.injEq, Prod.mk.injEq] at h
    obtain ⟨rfl, -, -⟩ := h
    refine ⟨fun _ => ?_, fun v hv => by simp at hv⟩
    cases excl <;> simp at hsp ⊢ <;> omega
  · rename_i hle
    split at h
    · rename_i r st1 c1 hr
      simp only [Option.some.injEq, Prod.mk.injEq] at h
      obtain ⟨rfl, -, -⟩ := h
      have hb := C18_machine_word_in_range next fuel _ st c r st1 c1 hr
      have hx : ∃ k : Nat, (span - 1 : Int) = k ∧ k < 2 ^ 63 := by
        refine ⟨(span - 1).toNat, by omega, ?_⟩
        cases excl <;> simp at hsp hspan <;> omega
      obtain ⟨k, hk, hk2⟩ := hx
      rw [hk] at hb
      have hk3 : (BitVec.ofInt 64 (k : Int)).toNat = k := by
        rw [BitVec.ofInt_natCast, BitVec.toNat_ofNat]; exact Nat.mod_eq_of_lt (by omega)
      rw [hk3] at hb
      have hr2 : r.toInt = r.toNat := by
        rw [BitVec.toInt_eq_toNat_of_lt]; omega
      rw [hr2]
      have : wrap64 (s + (r.toNat : Int)) = s + r.toNat := by
        apply wrap64_id <;> cases excl <;> simp at hsp <;> omega
      rw [this]
      refine ⟨fun hn => by simp at hn, fun v hv => ?_⟩
      simp only [Option.some.injEq] at hv
      subst hv
      cases excl <;> simp at hsp ⊢ <;> omega
    · simp at h

/-- `rand(1..6)` with the words 7 (rejected) and 3 -/
example : kernelRandRange lnext 2 1 6 false [7#32, 3#32] 0 = some (some 4, [], 2) := by
  have h : wrap64 (wrap64 (6 - 1) + (if false = true then 0 else 1)) = 6 := by decide
  unfold kernelRandRange
  simp only [h]
  decide

/-- **C41, finding.** `rand(-2**62..2**62-1)` is nil: the number of elements does not fit. -/
theorem C41_kernel_rand_all_fixnums_is_nil (next : S → W × S) (fuel : Nat) (st : S) (c : Nat) :
    kernelRandRange next fuel (-2 ^ 62) (2 ^ 62 - 1) false st c = some (none, st, c) := by
  have h : wrap64 (wrap64 ((2 ^ 62 - 1) - (-2 ^ 62)) + (if false = true then 0 else 1)) ≤ 0 := by
    decide
  unfold kernelRandRange
  simp only
  rw [if_pos h]

/-- **C41, in part.** `Random#rand(s..e)` for ranges of at most 2^62 elements. -/
theorem C41_random_rand_range_partial (next : S → W × S) (fuel : Nat) (s e : Int) (excl : Bool)
    (hs : inFix s) (he : inFix e) (hspan : e - s + (if excl then 0 else 1) ≤ 2 ^ 62)
    (st : S) (c : Nat) (o : Option Int) (st' : S) (c' : Nat)
    (h : instRandRange next fuel s e excl st c = some (o, st', c')) :
    (o = none → e < s ∨ (excl = true ∧ e = s)) ∧
    ∀ v, o = some v → s ≤ v ∧ (if excl then v < e else v ≤ e) ∧
      ∃ n st1 c1, randInt next fuel (e - s + (if excl then 0 else 1)).toNat st c = some (n, st1, c1) ∧
        v = s + n := by
  unfold inFix at hs he
  unfold instRandRange at h
  simp only at h
  have hw : wrap64 (wrap64 (e - s) + (if excl then 0 else 1)) = e - s + (if excl then 0 else 1) := by
    rw [wrap64_id (e - s) (by omega) (by omega)]
    cases excl
    · simp only [Bool.false_eq_true, if_false] at hspan ⊢
      exact wrap64_id _ (by omega) (by omega)
    · simp only [if_true]
      exact wrap64_id _ (by omega) (by omega)
  rw [hw] at h
  generalize hsp : e - s + (if excl then 0 else 1) = span at *
  split at h
  · rename_i hle
    simp only [Option.some.injEq, Prod.mk.injEq] at h
    obtain ⟨rfl, -, -⟩ := h
    refine ⟨fun _ => ?_, fun v hv => by simp at hv⟩
    cases excl <;> simp at hsp ⊢ <;> omega
  · rename_i hle
    split at h
    · rename_i n st1 c1 hr
      simp only [Option.some.injEq, Prod.mk.injEq] at h
      obtain ⟨rfl, -, -⟩ := h
      have hb := C18_rand_int_in_range next fuel _ (by omega) st c n st1 c1 hr
      have hfix : inFix (n : Int) := by unfold inFix; omega
      rw [if_pos hfix]
      have : wrap64 (s + (n : Int)) = s + n := by
        apply wrap64_id <;> omega
      rw [this]
      refine ⟨fun hn => by simp at hn, fun v hv => ?_⟩
      simp only [Option.some.injEq] at hv
      subst hv
      refine ⟨by omega, ?_, n, st1, c1, hr, rfl⟩
      cases excl <;> simp at hsp ⊢ <;> omega
    · simp at h

example : inFix 1 ∧ inFix 6 ∧ (6 - 1 + (if false then 0 else 1) : Int) ≤ 2 ^ 62 := by decide

/-- **C41, finding.** Over a wider range `Random#rand` turns every draw of 2^62 or more into the
start of the range: `Random.new.rand(-2**62..2**62-2)` is never 0 or more, whatever the
generator gives. -/
theorem C41_random_rand_wide_range_never_nonnegative (next : S → W × S) (fuel : Nat) (st : S) (c : Nat)
    (v : Int) (st' : S) (c' : Nat)
    (h : instRandRange next fuel (-2 ^ 62) (2 ^ 62 - 2) false st c = some (some v, st', c')) :
    v < 0 := by
  unfold instRandRange at h
  generalize wrap64 (wrap64 (2 ^ 62 - 2 - -2 ^ 62) + (if false = true then 0 else 1)) = span at h
  simp only at h
  split at h
  · simp at h
  · split at h
    · rename_i n st1 c1 hr
      simp only [Option.some.injEq, Prod.mk.injEq] at h
      obtain ⟨rfl, -, -⟩ := h
      split
      · rename_i hf
        unfold inFix at hf
        rw [wrap64_id _ (by omega) (by omega)]
        omega
      · rw [wrap64_id _ (by omega) (by omega)]
        omega
    · simp at h

/-- and it does return: with these words the draw is 2^62, answered by the start of the range -/
example : instRandRange lnext 1 (-2 ^ 62) (2 ^ 62 - 2) false [0x40000000#32, 0#32] 0
    = some (some (-2 ^ 62), [], 2) := by
  have h : wrap64 (wrap64 ((2 ^ 62 - 2) - (-2 ^ 62)) + (if false = true then 0 else 1)) = 2 ^ 63 - 1 := by
    decide
  unfold instRandRange
  simp only [h]
  have h2 : leDigits ((2 ^ 63 - 1 : Int).toNat - 1) = [0xfffffffe#32, 0x7fffffff#32] := by
    rw [leDigits, leDigits]; rfl
  unfold randInt
  rw [h2]
  decide

end Verif.Random
