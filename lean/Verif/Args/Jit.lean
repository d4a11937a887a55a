import Verif.Args.Routes

/-! C66: argument set-up in compiled code. -/
namespace Verif.Args

theorem fetch_ok (args : List Val) (i : Nat) (h : i < args.length) : fetch args i = .ok (args.getD i .nil) := by
  unfold fetch
  rw [List.getElem?_eq_getElem h, List.getD_eq_getElem?_getD, List.getElem?_eq_getElem h]; rfl

theorem fetch_run (args : List Val) (off n : Nat) (h : off + n ≤ args.length) :
    ((List.range n).mapM fun i => fetch args (off + i)) = .ok ((List.range n).map fun i => args.getD (off + i) .nil) := by
  apply mapM_ok
  intro i hi
  rw [List.mem_range] at hi
  exact fetch_ok args _ (by omega)

/-- A run of `k` values then `m - k` fillers. -/
theorem storeRun_fill (f : Frame) (off k m : Nat) (g : Nat → Val) (d : Option Val) (h : k ≤ m) :
    storeRun f off (((List.range k).map g).map some ++ List.replicate (m - k) d)
      = fun j => if off ≤ j ∧ j < off + m then (if j < off + k then some (g (j - off)) else d) else f j := by
  rw [storeRun_eq]
  funext j
  by_cases a : off ≤ j
  · rw [if_pos a]
    by_cases b : j < off + m
    · rw [if_pos ⟨a, b⟩]
      by_cases c : j < off + k
      · rw [if_pos c, List.getElem?_append_left (by simp; omega)]
        simp [List.getElem?_range (show j - off < k by omega)]
      · rw [if_neg c, List.getElem?_append_right (by simp; omega)]
        rw [List.getElem?_replicate, if_pos (by simp; omega)]
    · rw [if_neg (by omega), List.getElem?_eq_none (by simp; omega)]
  · rw [if_neg a, if_neg (by omega)]

/-- What the inline set-up leaves, in general. -/
theorem jitPositional_run (p : Params) (args : List Val) (f : Frame) (a : Applied) (ha : applyArgs p args.length = a)
    (h1 : a.req ≤ p.req) (h2 : a.opt ≤ p.opt) (h3 : a.post ≤ p.post)
    (h4 : a.req + a.opt + a.restLen ≤ args.length) (h5 : a.post ≤ args.length) :
    jitPositional p args f = .ok fun j =>
      if j < p.req then (if j < a.req then some (args.getD j .nil) else some .nil)
      else if j < p.reqopt then (if j < p.req + a.opt then some (args.getD (a.req + (j - p.req)) .nil) else none)
      else if p.isRest = true ∧ j = p.reqopt then
        some (.arr ((List.range a.restLen).map fun i => args.getD (a.req + a.opt + i) .nil))
      else if j < p.total then
        (if j < p.postPos + a.post then some (args.getD (args.length - a.post + (j - p.postPos)) .nil) else some .nil)
      else f j := by
  have hro : p.reqopt = p.req + p.opt := rfl
  have hpp : p.postPos = p.reqopt + (if p.isRest then 1 else 0) := rfl
  have ht : p.total = p.max + (if p.isRest then 1 else 0) := rfl
  have hmax : p.max = p.req + p.opt + p.post := rfl
  have hr1 := fetch_run args 0 a.req (by omega)
  simp only [Nat.zero_add] at hr1
  have hr2 := fetch_run args a.req a.opt (by omega)
  have hr3 := fetch_run args (a.req + a.opt) a.restLen (by omega)
  have hr4 := fetch_run args (args.length - a.post) a.post (by omega)
  unfold jitPositional
  rw [ha]
  simp only [bind, Except.bind, pure, Except.pure, hr1, hr2, hr3, hr4]
  rw [storeRun_fill f 0 a.req p.req _ _ h1, storeRun_fill _ p.req a.opt p.opt _ _ h2]
  cases hR : p.isRest with
  | true =>
    rw [hR] at hpp ht
    simp only [if_true] at hpp ht ⊢
    rw [storeRun_fill _ p.postPos a.post p.post _ _ h3]
    congr 1
    funext j
    simp only [Frame.set, Nat.zero_add, Nat.zero_le, true_and, Nat.sub_zero]
    by_cases c1 : j < p.req
    · simp only [c1, if_true]
      rw [if_neg (by omega), if_neg (by omega), if_neg (by omega)]
    · by_cases c2 : j < p.reqopt
      · simp only [c1, c2, if_true, if_false]
        rw [if_neg (by omega), if_neg (by omega), if_pos (by omega)]
      · by_cases c3 : j = p.reqopt
        · simp only [c1, c2, c3, if_true, if_false]
          rw [if_neg (by omega), if_neg (by omega), if_neg (by omega)]
        · by_cases c4 : j < p.total
          · simp only [c1, c2, c3, c4, if_true, if_false]
            rw [if_pos (by omega)]
          · simp only [c1, c2, c3, c4, if_false]
            rw [if_neg (by omega), if_neg (by omega)]
  | false =>
    rw [hR] at hpp ht
    simp only [Bool.false_eq_true, if_false, Nat.add_zero, false_and] at hpp ht ⊢
    rw [storeRun_fill _ p.postPos a.post p.post _ _ h3]
    congr 1
    funext j
    simp only [Nat.zero_add, Nat.zero_le, true_and, Nat.sub_zero]
    by_cases c1 : j < p.req
    · simp only [c1, if_true]
      rw [if_neg (by omega), if_neg (by omega)]
    · by_cases c2 : j < p.reqopt
      · simp only [c1, c2, if_true, if_false]
        rw [if_neg (by omega), if_pos (by omega)]
      · by_cases c4 : j < p.total
        · simp only [c1, c2, c4, if_true, if_false]
          rw [if_pos (by omega)]
        · simp only [c1, c2, c4, if_false]
          rw [if_neg (by omega), if_neg (by omega)]

/-- The positional half of compiled code agrees with the runtime binder, for a count the callee accepts, and not more
arguments than a block without `*rest` but with trailing required parameters can take. -/
theorem jitPositional_eq (p : Params) (args : List Val) (f : Frame) (hb : badArity p args.length = false)
    (hx : p.blockStyle = true → p.isRest = false → p.max < args.length → p.post = 0) :
    jitPositional p args f = bindL p f args := by
  have hro : p.reqopt = p.req + p.opt := rfl
  have hpp : p.postPos = p.reqopt + (if p.isRest then 1 else 0) := rfl
  have ht : p.total = p.max + (if p.isRest then 1 else 0) := rfl
  have hmax : p.max = p.req + p.opt + p.post := rfl
  have hmin : p.min = p.req + p.post := rfl
  have hgn : ∀ i, args.length ≤ i → args.getD i .nil = Val.nil := fun i h => getD_ge args i h
  unfold bindL
  rw [hb]
  simp only [Bool.false_eq_true, if_false]
  have hE : effN p args.length = if p.blockStyle then (if args.length < p.min then p.min else if p.isRest then args.length else min args.length p.max) else args.length := rfl
  unfold boundL bound slotAt
  have hR1 : p.isRest = true → p.postPos = p.reqopt + 1 := by intro h; rw [hpp, h]; simp
  have hR0 : p.isRest = false → p.postPos = p.reqopt := by intro h; rw [hpp, h]; simp
  have hT1 : p.isRest = true → p.total = p.max + 1 := by intro h; rw [ht, h]; simp
  have hT0 : p.isRest = false → p.total = p.max := by intro h; rw [ht, h]; simp
  have htm : p.max ≤ p.total := by rw [ht]; omega
  have hmeth : p.blockStyle = false → p.min ≤ args.length ∧ (args.length ≤ p.max ∨ p.isRest = true) := by
    intro h
    unfold badArity at hb
    rw [h] at hb
    simp only [Bool.not_false, Bool.true_and, Bool.or_eq_false_iff, decide_eq_false_iff_not, Bool.and_eq_false_iff,
      Bool.not_eq_false'] at hb
    refine ⟨by omega, ?_⟩
    rcases hb.2 with h2 | h2
    · left; omega
    · right; rw [isRest_iff]
      unfold Params.isExplicitRest at h2
      intro h3; rw [h3] at h2; cases h2
  have hEb : p.blockStyle = true → args.length < p.min → effN p args.length = p.min := by
    intro h h'; rw [hE, h, if_pos rfl, if_pos h']
  have hEm : p.min ≤ args.length → args.length ≤ p.max → effN p args.length = args.length := by
    intro h h'; rw [hE]; split_ifs <;> omega
  have hEr : p.min ≤ args.length → p.isRest = true → effN p args.length = args.length := by
    intro h h'; rw [hE, h']; split_ifs <;> first | omega | rfl | simp_all
  by_cases c1 : args.length ≤ p.req
  · have ha : applyArgs p args.length = { req := args.length, opt := 0, post := 0, restLen := 0 } := by
      unfold applyArgs; rw [if_pos c1]
    rw [jitPositional_run p args f _ ha c1 (by simp) (by simp) (by simp) (by simp)]
    have hN : effN p args.length = p.min := by
      cases hbs : p.blockStyle with
      | true =>
        by_cases c : args.length < p.min
        · exact hEb hbs c
        · rw [hEm (by omega) (by omega)]; omega
      | false => have := (hmeth hbs).1; rw [hEm this (by omega)]; omega
    rw [hN]
    congr 1
    funext j
    simp only [Nat.sub_self, Nat.zero_min, Nat.add_zero, List.range_zero, List.map_nil, Nat.sub_zero]
    by_cases d1 : j < p.req
    · rw [if_pos d1, if_pos (show j < p.total by omega), if_pos d1]
      split_ifs with e
      · rfl
      · rw [hgn j (by omega)]
    · rw [if_neg d1]
      by_cases d2 : j < p.reqopt
      · rw [if_pos d2, if_pos (show j < p.total by omega), if_neg d1, if_pos d2, if_neg (by omega), if_neg (by omega)]
      · rw [if_neg d2]
        by_cases d3 : p.isRest = true ∧ j = p.reqopt
        · rw [if_pos d3, if_pos (show j < p.total by rw [hT1 d3.1]; omega), if_neg d1, if_neg d2, if_pos d3]
        · rw [if_neg d3]
          by_cases d4 : j < p.total
          · rw [if_pos d4, if_pos d4, if_neg d1, if_neg d2, if_neg d3]
            have : ¬ j < p.postPos := by
              cases hR : p.isRest with
              | true => rw [hR1 hR]; have : j ≠ p.reqopt := fun h => d3 ⟨hR, h⟩; omega
              | false => rw [hR0 hR]; omega
            rw [if_neg this]
            rw [hgn _ (by omega)]
          · rw [if_neg d4, if_neg d4]
  · by_cases c2 : args.length ≤ p.min
    · have ha : applyArgs p args.length = { req := p.req, opt := 0, post := args.length - p.req, restLen := 0 } := by
        unfold applyArgs; rw [if_neg c1, if_pos c2]
      rw [jitPositional_run p args f _ ha (by simp) (by simp) (by simp only; omega) (by simp only; omega) (by simp only; omega)]
      have hN : effN p args.length = p.min := by
        cases hbs : p.blockStyle with
        | true =>
          by_cases c : args.length < p.min
          · exact hEb hbs c
          · rw [hEm (by omega) (by omega)]; omega
        | false => have := (hmeth hbs).1; rw [hEm this (by omega)]; omega
      rw [hN]
      congr 1
      funext j
      simp only [Nat.sub_self, Nat.zero_min, Nat.add_zero, List.range_zero, List.map_nil, Nat.sub_zero]
      by_cases d1 : j < p.req
      · rw [if_pos d1, if_pos d1, if_pos (show j < p.total by omega), if_pos d1]
      · rw [if_neg d1]
        by_cases d2 : j < p.reqopt
        · rw [if_pos d2, if_pos (show j < p.total by omega), if_neg d1, if_pos d2, if_neg (by omega), if_neg d1]
        · rw [if_neg d2]
          by_cases d3 : p.isRest = true ∧ j = p.reqopt
          · rw [if_pos d3, if_pos (show j < p.total by rw [hT1 d3.1]; omega), if_neg d1, if_neg d2, if_pos d3]
          · rw [if_neg d3]
            by_cases d4 : j < p.total
            · rw [if_pos d4, if_pos d4, if_neg d1, if_neg d2, if_neg d3]
              have : p.postPos ≤ j := by
                cases hR : p.isRest with
                | true => rw [hR1 hR]; have : j ≠ p.reqopt := fun h => d3 ⟨hR, h⟩; omega
                | false => rw [hR0 hR]; omega
              split_ifs with e
              · congr 2; omega
              · rw [hgn _ (by omega)]
            · rw [if_neg d4, if_neg d4]
    · by_cases c3 : args.length ≤ p.max
      · have ha : applyArgs p args.length = { req := p.req, opt := args.length - p.min, post := p.post, restLen := 0 } := by
          unfold applyArgs; rw [if_neg c1, if_neg c2, if_neg (by omega)]
        rw [jitPositional_run p args f _ ha (by simp) (by simp only; omega) (by simp) (by simp only; omega) (by simp only; omega)]
        rw [hEm (by omega) c3]
        have hk : min (args.length - p.min) p.opt = args.length - p.min := by omega
        rw [hk]
        congr 1
        funext j
        simp only [Nat.sub_self, List.range_zero, List.map_nil]
        by_cases d1 : j < p.req
        · rw [if_pos d1, if_pos d1, if_pos (show j < p.total by omega), if_pos d1]
        · rw [if_neg d1]
          by_cases d2 : j < p.reqopt
          · rw [if_pos d2, if_pos (show j < p.total by omega), if_neg d1, if_pos d2]
            split_ifs
            · congr 2; omega
            · rfl
          · rw [if_neg d2]
            by_cases d3 : p.isRest = true ∧ j = p.reqopt
            · rw [if_pos d3, if_pos (show j < p.total by rw [hT1 d3.1]; omega), if_neg d1, if_neg d2, if_pos d3]
            · rw [if_neg d3]
              by_cases d4 : j < p.total
              · rw [if_pos d4, if_pos d4, if_neg d1, if_neg d2, if_neg d3]
                have : j < p.postPos + p.post := by
                  cases hR : p.isRest with
                  | true => rw [hR1 hR]; rw [hT1 hR] at d4; omega
                  | false => rw [hR0 hR]; rw [hT0 hR] at d4; omega
                rw [if_pos this]
              · rw [if_neg d4, if_neg d4]
      · -- more arguments than positional parameters
        cases hR : p.isRest with
        | true =>
          have ha : applyArgs p args.length = { req := p.req, opt := p.opt, post := p.post, restLen := args.length - p.max } := by
            unfold applyArgs; rw [if_neg c1, if_neg c2, if_pos (by omega), hR]; simp
          rw [jitPositional_run p args f _ ha (by simp) (by simp) (by simp) (by simp only; omega) (by simp only; omega)]
          rw [hEr (by omega) hR]
          have hk : min (args.length - p.min) p.opt = p.opt := by omega
          rw [hk, hR]
          have hl : args.length - p.min - p.opt = args.length - p.max := by omega
          congr 1
          funext j
          simp only [hl, true_and]
          by_cases d1 : j < p.req
          · rw [if_pos d1, if_pos d1, if_pos (show j < p.total by omega), if_pos d1]
          · rw [if_neg d1]
            by_cases d2 : j < p.reqopt
            · rw [if_pos d2, if_pos (by omega), if_pos (show j < p.total by omega), if_neg d1, if_pos d2, if_pos (by omega)]
              congr 2; omega
            · rw [if_neg d2]
              by_cases d3 : j = p.reqopt
              · rw [if_pos d3, if_pos (show j < p.total by rw [hT1 hR]; omega), if_neg d1, if_neg d2, if_pos d3]
              · rw [if_neg d3]
                by_cases d4 : j < p.total
                · rw [if_pos d4, if_pos d4, if_neg d1, if_neg d2, if_neg d3]
                  rw [if_pos (by rw [hR1 hR]; rw [hT1 hR] at d4; omega)]
                · rw [if_neg d4, if_neg d4]
        | false =>
          have hbs : p.blockStyle = true := by
            cases hbs : p.blockStyle with
            | true => rfl
            | false =>
              rcases (hmeth hbs).2 with h | h
              · omega
              · rw [hR] at h; cases h
          have hp0 := hx hbs hR (by omega)
          have ha : applyArgs p args.length = { req := p.req, opt := p.opt, post := p.post, restLen := 0 } := by
            unfold applyArgs; rw [if_neg c1, if_neg c2, if_pos (by omega), hR, hbs]; simp
          rw [jitPositional_run p args f _ ha (by simp) (by simp) (by simp) (by simp only; omega) (by simp only; omega)]
          have hN : effN p args.length = p.max := by
            rw [hE, hbs, hR]; simp only [if_true, Bool.false_eq_true, if_false]; split_ifs <;> omega
          rw [hN, hR]
          have hk : min (p.max - p.min) p.opt = p.opt := by omega
          rw [hk]
          have hT := hT0 hR
          congr 1
          funext j
          simp only [Bool.false_eq_true, false_and, if_false]
          by_cases d1 : j < p.req
          · rw [if_pos d1, if_pos d1, if_pos (by omega), if_pos d1]
          · rw [if_neg d1]
            by_cases d2 : j < p.reqopt
            · rw [if_pos d2, if_pos (by omega), if_pos (by omega), if_neg d1, if_pos d2, if_pos (by omega)]
              congr 2; omega
            · rw [if_neg d2, if_neg (by omega), if_neg (by omega)]

end Verif.Args
