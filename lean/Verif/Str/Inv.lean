import Verif.Str.Lemmas

/-! # Invariants of the cached code range -/

namespace Verif.Str

variable {iso : List Nat → Bool}

/-- what unchecked reads of text need -/
def Safe (s : S) : Prop :=
  (s.cr = .sevenBit → Ascii s.bytes) ∧ (s.cr = .valid → s.enc = .utf8 → Wf u8w s.bytes)

/-- the cache agrees with a scan, except that it may say "valid" of ASCII text -/
def Sound (iso : List Nat → Bool) (s : S) : Prop :=
  (s.cr = .sevenBit → classify iso s.enc s.bytes = .sevenBit) ∧
  (s.cr = .valid → classify iso s.enc s.bytes ≠ .broken) ∧
  (s.cr = .broken → classify iso s.enc s.bytes = .broken)

theorem codeRange_cases (s : S) :
    (s.cr = .unknown ∧ s.codeRange iso = classify iso s.enc s.bytes) ∨
    (s.cr ≠ .unknown ∧ s.codeRange iso = s.cr) := by
  unfold S.codeRange
  cases s.cr <;> simp

theorem seven_ascii {e : Enc} {bs} (h : classify iso e bs = .sevenBit) : Ascii bs := by
  rcases classify_seven.mp h with h | h
  · subst h; intro x hx; simp at hx
  · exact h.2

theorem Safe.seven {s : S} (h : Safe s) (hc : s.codeRange iso = .sevenBit) : Ascii s.bytes := by
  rcases codeRange_cases (iso := iso) s with ⟨_, h2⟩ | ⟨_, h2⟩
  · exact seven_ascii (h2.symm.trans hc)
  · exact h.1 (h2.symm.trans hc)

theorem Safe.valid {s : S} (h : Safe s) (hc : s.codeRange iso = .valid) (he : s.enc = .utf8) :
    Wf u8w s.bytes := by
  rcases codeRange_cases (iso := iso) s with ⟨_, h2⟩ | ⟨_, h2⟩
  · have := (classify_broken (iso := iso) (e := s.enc) (by rw [he]; simp) (bs := s.bytes)).mp
      (by rw [← h2, hc]; simp)
    rwa [he] at this
  · exact h.2 (h2.symm.trans hc) he

theorem Safe.query {s : S} (h : Safe s) : Safe (s.query iso) :=
  ⟨fun hc => h.seven hc, fun hc he => h.valid hc he⟩

theorem safe_unknown (bs : List Nat) (e : Enc) : Safe ⟨bs, e, .unknown⟩ := ⟨by simp, by simp⟩

theorem safe_classify (bs : List Nat) (e : Enc) : Safe ⟨bs, e, classify iso e bs⟩ :=
  (safe_unknown bs e).query (iso := iso)

theorem Sound.seven {s : S} (h : Sound iso s) (hc : s.codeRange iso = .sevenBit) :
    classify iso s.enc s.bytes = .sevenBit := by
  rcases codeRange_cases (iso := iso) s with ⟨_, h2⟩ | ⟨_, h2⟩
  · exact h2.symm.trans hc
  · exact h.1 (h2.symm.trans hc)

theorem Sound.valid {s : S} (h : Sound iso s) (hc : s.codeRange iso = .valid) :
    classify iso s.enc s.bytes ≠ .broken := by
  rcases codeRange_cases (iso := iso) s with ⟨_, h2⟩ | ⟨_, h2⟩
  · rw [← h2, hc]; simp
  · exact h.2.1 (h2.symm.trans hc)

theorem Sound.broken {s : S} (h : Sound iso s) (hc : s.codeRange iso = .broken) :
    classify iso s.enc s.bytes = .broken := by
  rcases codeRange_cases (iso := iso) s with ⟨_, h2⟩ | ⟨_, h2⟩
  · exact h2.symm.trans hc
  · exact h.2.2 (h2.symm.trans hc)

theorem Sound.query {s : S} (h : Sound iso s) : Sound iso (s.query iso) :=
  ⟨fun hc => h.seven hc, fun hc => h.valid hc, fun hc => h.broken hc⟩

theorem sound_unknown (bs : List Nat) (e : Enc) : Sound iso ⟨bs, e, .unknown⟩ :=
  ⟨by simp, by simp, by simp⟩

theorem sound_classify (bs : List Nat) (e : Enc) : Sound iso ⟨bs, e, classify iso e bs⟩ :=
  (sound_unknown bs e).query

theorem codeRange_ne_unknown (s : S) : s.codeRange iso ≠ .unknown := by
  rcases codeRange_cases (iso := iso) s with ⟨_, h2⟩ | ⟨h1, h2⟩
  · rw [h2]; exact classify_ne_unknown _ _
  · rw [h2]; exact h1

/-- well-formed when the cache says so -/
theorem Sound.wf {s : S} (h : Sound iso s) (he : s.enc ≠ .iso2022Jp)
    (hc : s.codeRange iso = .sevenBit ∨ s.codeRange iso = .valid) : Wf (code s.enc) s.bytes := by
  refine (classify_broken (iso := iso) he).mp ?_
  rcases hc with hc | hc
  · rw [h.seven hc]; simp
  · exact h.valid hc

/-! ## Two strings side by side -/

/-- the bytes of `x` mean the same in the encoding `e` -/
def Fits (iso : List Nat → Bool) (x : S) (e : Enc) : Prop :=
  x.enc = e ∨ x.bytes = [] ∨ (x.codeRange iso = .sevenBit ∧ e.asciiCompat = true)

theorem compatible_side {aE bE e aC bC} (h : compatible aE aC bE bC = some e) :
    (aE = e ∨ (aC = .sevenBit ∧ e.asciiCompat = true)) ∧
    (bE = e ∨ (bC = .sevenBit ∧ e.asciiCompat = true)) := by
  unfold compatible at h
  split_ifs at h with h1 h2 h3 h4 h5 <;> simp only [Option.some.injEq, reduceCtorEq] at h <;>
    subst h <;> simp_all

theorem compat_side {a b a1 b1 : S} {e} (h : compatEnc iso a b = (some e, a1, b1)) :
    (a1 = a ∨ a1 = a.query iso) ∧ (b1 = b ∨ b1 = b.query iso) ∧ Fits iso a e ∧ Fits iso b e := by
  unfold compatEnc at h
  split_ifs at h with h1 h2 h3 h4 h5 h6 h7 <;> simp only [Prod.mk.injEq, Option.some.injEq] at h
  · obtain ⟨h, rfl, rfl⟩ := h; subst h
    exact ⟨Or.inl rfl, Or.inl rfl, Or.inl rfl, Or.inl h1.symm⟩
  · obtain ⟨h, rfl, rfl⟩ := h; subst h
    exact ⟨Or.inl rfl, Or.inl rfl, Or.inl rfl, Or.inr (Or.inl h2.2)⟩
  · obtain ⟨h, rfl, rfl⟩ := h; subst h
    exact ⟨Or.inl rfl, Or.inr rfl, Or.inl rfl, Or.inr (Or.inr ⟨h5, h4⟩)⟩
  · obtain ⟨h, rfl, rfl⟩ := h; subst h
    exact ⟨Or.inl rfl, Or.inr rfl, Or.inr (Or.inl h3), Or.inl rfl⟩
  · obtain ⟨h, rfl, rfl⟩ := h; subst h
    exact ⟨Or.inl rfl, Or.inl rfl, Or.inr (Or.inl h3), Or.inl rfl⟩
  · obtain ⟨h, rfl, rfl⟩ := h; subst h
    exact ⟨Or.inr rfl, Or.inl rfl, Or.inl rfl, Or.inr (Or.inl h6)⟩
  · obtain ⟨h, rfl, rfl⟩ := h; subst h
    exact ⟨Or.inl rfl, Or.inl rfl, Or.inl rfl, Or.inr (Or.inl h6)⟩
  · obtain ⟨h, rfl, rfl⟩ := h
    obtain ⟨s1, s2⟩ := compatible_side h
    refine ⟨Or.inr rfl, Or.inr rfl, ?_, ?_⟩
    · rcases s1 with s | s
      · exact Or.inl s
      · exact Or.inr (Or.inr s)
    · rcases s2 with s | s
      · exact Or.inl s
      · exact Or.inr (Or.inr s)

theorem compat_none {a b a1 b1 : S} (h : compatEnc iso a b = (none, a1, b1)) :
    a1 = a.query iso ∧ b1 = b.query iso := by
  unfold compatEnc at h
  split_ifs at h <;> simp only [Prod.mk.injEq, reduceCtorEq, false_and] at h
  exact ⟨h.2.1.symm, h.2.2.symm⟩

theorem fold_seven {a b : CR} (h : fold a b = .sevenBit) : a = .sevenBit ∧ b = .sevenBit := by
  cases a <;> cases b <;> simp_all [fold]

theorem fold_valid {a b : CR} (h : fold a b = .valid) :
    (a = .sevenBit ∨ a = .valid) ∧ (b = .sevenBit ∨ b = .valid) := by
  cases a <;> cases b <;> simp_all [fold]

theorem fold_broken {a b : CR} : fold a b ≠ .broken := by
  cases a <;> cases b <;> simp [fold]

/-- a code range in hand is the one cached or the one answered -/
def Known (iso : List Nat → Bool) (s : S) (c : CR) : Prop := c = s.cr ∨ c = s.codeRange iso

theorem Known.eq {s : S} {c} (h : Known iso s c) (hc : c ≠ .unknown) : s.codeRange iso = c := by
  rcases h with h | h
  · subst h
    rcases codeRange_cases (iso := iso) s with ⟨h1, _⟩ | ⟨_, h2⟩
    · exact absurd h1 hc
    · exact h2
  · exact h.symm

theorem Safe.side {s : S} (h : Safe s) (hs : Fits iso s .utf8)
    (hc : s.codeRange iso = .sevenBit ∨ s.codeRange iso = .valid) : Wf u8w s.bytes := by
  rcases hc with hc | hc
  · exact (h.seven hc).wf (e := .utf8) rfl
  · rcases hs with hs | hs | hs
    · exact h.valid hc hs
    · rw [hs]; exact Wf.nil
    · rw [hs.1] at hc; simp at hc

theorem Sound.side {s : S} {e} (h : Sound iso s) (he : e ≠ .iso2022Jp) (hs : Fits iso s e)
    (hc : s.codeRange iso = .sevenBit ∨ s.codeRange iso = .valid) : Wf (code e) s.bytes := by
  rcases hs with hs | hs | hs
  · subst hs; exact h.wf he hc
  · rw [hs]; exact Wf.nil
  · exact (seven_ascii (h.seven hs.1)).wf hs.2

theorem fold_safe {a b : S} (ha : Safe a) (hb : Safe b) {ca cb e} (ka : Known iso a ca)
    (kb : Known iso b cb) (sa : Fits iso a e) (sb : Fits iso b e) :
    Safe ⟨a.bytes ++ b.bytes, e, fold ca cb⟩ := by
  constructor
  · intro h
    obtain ⟨h1, h2⟩ := fold_seven h
    exact Ascii.append.mpr ⟨ha.seven ((ka.eq (by rw [h1]; simp)).trans h1),
      hb.seven ((kb.eq (by rw [h2]; simp)).trans h2)⟩
  · intro h he
    simp only at he
    subst he
    obtain ⟨h1, h2⟩ := fold_valid h
    have n1 : ca ≠ .unknown := by rcases h1 with h | h <;> rw [h] <;> simp
    have n2 : cb ≠ .unknown := by rcases h2 with h | h <;> rw [h] <;> simp
    rw [← ka.eq n1] at h1
    rw [← kb.eq n2] at h2
    exact (ha.side sa h1).append (hb.side sb h2)

theorem fold_sound {a b : S} (ha : Sound iso a) (hb : Sound iso b) {ca cb e}
    (he : e ≠ .iso2022Jp) (ka : Known iso a ca) (kb : Known iso b cb) (sa : Fits iso a e)
    (sb : Fits iso b e) : Sound iso ⟨a.bytes ++ b.bytes, e, fold ca cb⟩ := by
  refine ⟨?_, ?_, fun h => absurd h fold_broken⟩
  · intro h
    obtain ⟨h1, h2⟩ := fold_seven h
    have k1 := (ka.eq (by rw [h1]; simp)).trans h1
    have k2 := (kb.eq (by rw [h2]; simp)).trans h2
    have c1 := classify_seven.mp (ha.seven k1)
    have c2 := classify_seven.mp (hb.seven k2)
    refine classify_seven.mpr ?_
    by_cases hbb : b.bytes = []
    · by_cases haa : a.bytes = []
      · left; simp [haa, hbb]
      · right
        rcases c1 with c1 | c1
        · exact absurd c1 haa
        · rcases sa with s | s | s
          · subst s; exact ⟨c1.1, Ascii.append.mpr ⟨c1.2, by rw [hbb]; intro x hx; simp at hx⟩⟩
          · exact absurd s haa
          · exact ⟨s.2, Ascii.append.mpr ⟨c1.2, by rw [hbb]; intro x hx; simp at hx⟩⟩
    · right
      have hA : Ascii a.bytes := seven_ascii (ha.seven k1)
      rcases c2 with c2 | c2
      · exact absurd c2 hbb
      · rcases sb with s | s | s
        · subst s; exact ⟨c2.1, Ascii.append.mpr ⟨hA, c2.2⟩⟩
        · exact absurd s hbb
        · exact ⟨s.2, Ascii.append.mpr ⟨hA, c2.2⟩⟩
  · intro h
    obtain ⟨h1, h2⟩ := fold_valid h
    have n1 : ca ≠ .unknown := by rcases h1 with h | h <;> rw [h] <;> simp
    have n2 : cb ≠ .unknown := by rcases h2 with h | h <;> rw [h] <;> simp
    rw [← ka.eq n1] at h1
    rw [← kb.eq n2] at h2
    exact (classify_broken he).mpr ((ha.side he sa h1).append (hb.side he sb h2))

theorem query_bytes (s : S) : (s.query iso).bytes = s.bytes := rfl
theorem query_enc (s : S) : (s.query iso).enc = s.enc := rfl

theorem codeRange_query (s : S) : (s.query iso).codeRange iso = s.codeRange iso := by
  have h := codeRange_ne_unknown (iso := iso) s
  unfold S.query
  generalize hc : s.codeRange iso = c
  rw [hc] at h
  cases c <;> simp_all [S.codeRange]

theorem touched_bytes {a a1 : S} (h : a1 = a ∨ a1 = a.query iso) :
    a1.bytes = a.bytes ∧ a1.enc = a.enc ∧ Known iso a a1.cr ∧ a1.codeRange iso = a.codeRange iso := by
  rcases h with h | h
  · subst h; exact ⟨rfl, rfl, Or.inl rfl, rfl⟩
  · subst h; exact ⟨rfl, rfl, Or.inr rfl, codeRange_query a⟩

/-! ## Every operation -/

theorem extend_safe {a b : S} (ha : Safe a) (hb : Safe b) :
    Safe (extend iso a b).2.1 ∧ Safe (extend iso a b).2.2 := by
  unfold extend
  split_ifs with h0
  · exact ⟨ha, hb⟩
  · rcases hce : compatEnc iso a b with ⟨_ | e, a1, b1⟩
    · obtain ⟨h1, h2⟩ := compat_none hce
      subst h1; subst h2
      exact ⟨ha.query, hb.query⟩
    · obtain ⟨h1, h2, s1, s2⟩ := compat_side hce
      obtain ⟨e1, e2, e3, _⟩ := touched_bytes h1
      obtain ⟨f1, f2, f3, f4⟩ := touched_bytes h2
      have hb1 : Safe b1 := by rcases h2 with h | h <;> subst h; exacts [hb, hb.query]
      refine ⟨?_, hb1.query⟩
      simp only [query_bytes]
      rw [e1, f1]
      refine fold_safe ha hb e3 (Or.inr ?_) s1 s2
      exact f4

theorem extend_sound {a b : S} (ha : Sound iso a) (hb : Sound iso b) (na : a.enc ≠ .iso2022Jp)
    (nb : b.enc ≠ .iso2022Jp) :
    Sound iso (extend iso a b).2.1 ∧ Sound iso (extend iso a b).2.2 := by
  unfold extend
  split_ifs with h0
  · exact ⟨ha, hb⟩
  · rcases hce : compatEnc iso a b with ⟨_ | e, a1, b1⟩
    · obtain ⟨h1, h2⟩ := compat_none hce
      subst h1; subst h2
      exact ⟨ha.query, hb.query⟩
    · obtain ⟨h1, h2, s1, s2⟩ := compat_side hce
      obtain ⟨e1, e2, e3, _⟩ := touched_bytes h1
      obtain ⟨f1, f2, f3, f4⟩ := touched_bytes h2
      have hb1 : Sound iso b1 := by rcases h2 with h | h <;> subst h; exacts [hb, hb.query]
      refine ⟨?_, hb1.query⟩
      simp only [query_bytes]
      rw [e1, f1]
      refine fold_sound ha hb ?_ e3 (Or.inr f4) s1 s2
      rcases s2 with s | s | s
      · rw [← s]; exact nb
      · exact absurd s h0
      · intro he; rw [he] at s; simp [Enc.asciiCompat] at s

theorem checked_safe {s t : S} {bs} (hs : Safe s) (h : extendChecked s bs = some t) : Safe t := by
  unfold extendChecked at h
  by_cases h0 : (s.enc.utf8Compat && !wellFormed u8w bs) = true
  · rw [if_pos h0] at h; simp at h
  rw [if_neg h0] at h
  simp only [Option.some.injEq] at h
  subst h
  have hb : Safe (⟨bs, s.enc, if (bs.all (· < 0x80)) = true then .sevenBit
      else if s.enc.utf8Compat = true then .valid else .unknown⟩ : S) := by
    constructor
    · intro h
      split_ifs at h with h1
      exact all_ascii.mp h1
    · intro h he
      simp only [Bool.and_eq_true, Bool.not_eq_true', not_and, Bool.not_eq_false] at h0
      exact (wellFormed_iff u8w_code bs).mp (h0 (by simp only at he; rw [he]; rfl))
  exact fold_safe (iso := fun _ => true) hs hb (Or.inl rfl) (Or.inl rfl) (Or.inl rfl) (Or.inl rfl)

theorem checked_sound {s t : S} {bs} (hs : Sound iso s) (hc : s.enc.asciiCompat = true)
    (hu : s.enc = .usAscii → Ascii bs) (h : extendChecked s bs = some t) : Sound iso t := by
  unfold extendChecked at h
  by_cases h0 : (s.enc.utf8Compat && !wellFormed u8w bs) = true
  · rw [if_pos h0] at h; simp at h
  rw [if_neg h0] at h
  simp only [Option.some.injEq] at h
  subst h
  have hb : Sound iso (⟨bs, s.enc, if (bs.all (· < 0x80)) = true then .sevenBit
      else if s.enc.utf8Compat = true then .valid else .unknown⟩ : S) := by
    refine ⟨?_, ?_, ?_⟩
    · intro h
      simp only at h
      split_ifs at h with h1
      exact classify_seven.mpr (Or.inr ⟨hc, all_ascii.mp h1⟩)
    · intro h
      simp only at h
      split_ifs at h with h1 h2
      simp only [Bool.and_eq_true, Bool.not_eq_true', not_and, Bool.not_eq_false] at h0
      have hw := (wellFormed_iff u8w_code bs).mp (h0 h2)
      simp only
      refine (classify_broken (by intro hh; rw [hh] at hc; simp [Enc.asciiCompat] at hc)).mpr ?_
      cases he : s.enc <;> rw [he] at h2 <;> simp [Enc.utf8Compat] at h2
      · exact hw
      · exact absurd (all_ascii.mpr (hu he)) h1
    · intro h
      simp only at h
      split_ifs at h
  exact fold_sound hs hb (by intro hh; rw [hh] at hc; simp [Enc.asciiCompat] at hc)
    (Or.inl rfl) (Or.inl rfl) (Or.inl rfl) (Or.inl rfl)

theorem merge_safe {s : S} {bs} (hs : Safe s) : Safe (extendMerge iso s bs) := by
  unfold extendMerge
  by_cases h0 : bs = []
  · rw [if_pos h0]; exact hs
  · rw [if_neg h0]
    have hb : Safe (⟨bs, s.enc, if (s.enc.asciiCompat && bs.all (· < 0x80)) = true then .sevenBit
        else classify iso s.enc bs⟩ : S) := by
      split_ifs with h1
      · exact ⟨fun _ => all_ascii.mp (Bool.and_eq_true _ _ ▸ h1).2, by simp⟩
      · exact safe_classify bs s.enc
    exact fold_safe (iso := iso) hs hb (Or.inl rfl) (Or.inl rfl) (Or.inl rfl) (Or.inl rfl)

theorem merge_sound {s : S} {bs} (hs : Sound iso s) (he : s.enc ≠ .iso2022Jp) :
    Sound iso (extendMerge iso s bs) := by
  unfold extendMerge
  by_cases h0 : bs = []
  · rw [if_pos h0]; exact hs
  · rw [if_neg h0]
    have hb : Sound iso (⟨bs, s.enc, if (s.enc.asciiCompat && bs.all (· < 0x80)) = true then .sevenBit
        else classify iso s.enc bs⟩ : S) := by
      split_ifs with h1
      · have h1 := (Bool.and_eq_true _ _ ▸ h1)
        exact ⟨fun _ => classify_seven.mpr (Or.inr ⟨h1.1, all_ascii.mp h1.2⟩), by simp, by simp⟩
      · exact sound_classify bs s.enc
    exact fold_sound hs hb he (Or.inl rfl) (Or.inl rfl) (Or.inl rfl) (Or.inl rfl)

theorem mul_safe {s : S} (hs : Safe s) (n) : Safe (repeatS s n) := by
  unfold repeatS
  by_cases hn : n = 0
  · subst hn
    exact ⟨fun _ x hx => by simp at hx, fun h => by simp at h⟩
  · simp only [hn, if_false]
    constructor
    · intro h x hx
      simp only [List.mem_flatten, List.mem_replicate] at hx
      obtain ⟨l, ⟨_, rfl⟩, hx⟩ := hx
      exact hs.1 h x hx
    · intro h he
      exact (hs.2 h he).replicate n

/-- UTF-8 and US-ASCII: what is broken stays broken when repeated -/
theorem mul_broken {s : List Nat} {n} (hn : n ≠ 0) (h : Wf u8w (List.replicate n s).flatten) :
    Wf u8w s := by
  obtain ⟨m, rfl⟩ := Nat.exists_eq_succ_of_ne_zero hn
  by_cases hs : s = []
  · subst hs; exact Wf.nil
  · have h' := h
    rw [Nat.succ_eq_add_one, List.replicate_succ, List.flatten_cons] at h'
    refine (u8_cut h' ?_).1
    intro x t hx
    rcases s with _ | ⟨s0, s⟩
    · exact absurd rfl hs
    · have : x = s0 := by
        cases m with
        | zero => simp at hx
        | succ m =>
          rw [List.replicate_succ, List.flatten_cons] at hx
          simp only [List.cons_append, List.cons.injEq] at hx
          exact hx.1.symm
      subst this
      exact u8_starts h' x _ rfl

theorem mul_sound {s : S} (hs : Sound iso s) (n) (he : s.enc ≠ .iso2022Jp)
    (hb : s.cr = .broken → n ≤ 1 ∨ s.enc.utf8Compat = true) : Sound iso (repeatS s n) := by
  unfold repeatS
  by_cases hn : n = 0
  · subst hn
    exact ⟨fun _ => by simp [classify], by simp, by simp⟩
  · simp only [hn, if_false]
    refine ⟨?_, ?_, ?_⟩
    · intro h
      rcases classify_seven.mp (hs.1 h) with h1 | h1
      · exact classify_seven.mpr (Or.inl (by simp [h1]))
      · refine classify_seven.mpr (Or.inr ⟨h1.1, fun x hx => ?_⟩)
        simp only [List.mem_flatten, List.mem_replicate] at hx
        obtain ⟨l, ⟨_, rfl⟩, hx⟩ := hx
        exact h1.2 x hx
    · intro h
      exact (classify_broken he).mpr (((classify_broken he).mp (hs.2.1 h)).replicate n)
    · intro h
      have hbr := hs.2.2 h
      simp only
      by_contra hc
      have hw := (classify_broken he).mp hc
      have : Wf (code s.enc) s.bytes := by
        rcases hb h with h1 | h1
        · have : n = 1 := by omega
          subst this
          simpa using hw
        · cases hE : s.enc <;> rw [hE] at h1 <;> simp [Enc.utf8Compat] at h1 <;> rw [hE] at hw
          · exact mul_broken hn hw
          · refine Ascii.wf (e := .usAscii) rfl (fun x hx => wf_ascii hw x ?_)
            simp only [List.mem_flatten, List.mem_replicate]
            exact ⟨_, ⟨hn, rfl⟩, hx⟩
      exact (classify_broken he).mpr this hbr

/-! ## Characters in order -/

theorem u8_iterW {bs : List Nat} : iterW .utf8 bs = (u8w bs).getD 1 := by
  rcases bs with _ | ⟨b, t⟩
  · rfl
  · simp only [iterW]
    by_cases h0 : b < 0xC0
    · rw [if_pos h0]
      simp only [u8w]
      split_ifs <;> first | rfl | omega
    · rw [if_neg h0]
      cases hw : u8w (b :: t) with
      | none =>
        have : ¬ (wellFormed u8w ((b :: t).take (needed b)) = true ∧ needed b ≤ (b :: t).length) := by
          intro ⟨h1, h2⟩
          obtain ⟨k, hk, _⟩ := ((wellFormed_iff u8w_code _).mp h1).inv u8w_code (by
            intro h
            have := congrArg List.length h
            rw [List.length_take] at this
            simp at this
            unfold needed at this
            split_ifs at this)
          have := u8w_code.app hk ((b :: t).drop (needed b))
          rw [List.take_append_drop, hw] at this
          simp at this
        rw [if_neg (by simp only [Bool.and_eq_true, decide_eq_true_eq]; exact fun h => this ⟨h.2, h.1⟩)]
        rfl
      | some k =>
        have hk : k = needed b := by
          simp only [u8w] at hw
          unfold needed
          rcases t with _ | ⟨b1, _ | ⟨b2, _ | ⟨b3, t⟩⟩⟩ <;> split_ifs at hw ⊢ <;>
            first | (simp only [Option.some.injEq] at hw; omega) | omega | (simp at hw; try omega)
        subst hk
        have hp := u8w_code.pos _ _ hw
        have ht := u8w_code.take hw
        have hl : ((b :: t).take (needed b)).length = needed b := by rw [List.length_take]; omega
        have hwf : Wf u8w ((b :: t).take (needed b)) :=
          Wf.one (by intro h; rw [h] at hl; simp at hl; omega) (by rw [ht, hl])
        rw [if_pos (by
          simp only [Bool.and_eq_true, decide_eq_true_eq]
          exact ⟨hp.2, (wellFormed_iff u8w_code _).mpr hwf⟩)]
        rfl

/-- the iterator steps over a valid character -/
theorem iterW_code {e : Enc} (he : e ≠ .iso2022Jp) {bs : List Nat} {k}
    (h : code e bs = some k) : iterW e bs = k := by
  rcases bs with _ | ⟨b, t⟩
  · exfalso
    have := (code_code e).pos _ _ h
    simp at this
    omega
  · cases e <;> simp only [code] at h <;>
      first
      | exact absurd rfl he
      | (rw [u8_iterW, h]; rfl)
      | (unfold fixw at h; split_ifs at h; simp only [Option.some.injEq] at h; rw [← h]; rfl)
      | skip
    · simp only [asciiw] at h
      split_ifs at h
      simpa [iterW] using h
    · simp only [iterW]
      rcases t with _ | ⟨b1, _ | ⟨b2, t⟩⟩ <;> simp only [eucw] at h <;> split_ifs at h ⊢ <;>
        first | (simp only [Option.some.injEq] at h; omega) | omega | simp at h
    · simp only [iterW]
      rcases t with _ | ⟨b1, t⟩ <;> simp only [sjisw] at h <;> split_ifs at h ⊢ <;>
        first | (simp only [Option.some.injEq] at h; omega) | omega | simp at h

theorem iterW_pos (e : Enc) (bs : List Nat) : 0 < iterW e bs := by
  rcases bs with _ | ⟨b, t⟩
  · simp [iterW]
  · cases e <;> simp only [iterW, needed] <;> (try split_ifs) <;> omega

theorem iter_flatten (e : Enc) : ∀ n bs, bs.length ≤ n → (iter e n bs).flatten = bs := by
  intro n
  induction n with
  | zero =>
    intro bs hb
    have : bs = [] := List.length_eq_zero_iff.mp (by omega)
    subst this
    rfl
  | succ n ih =>
    intro bs hb
    cases bs with
    | nil => rfl
    | cons b t =>
      simp only [iter, List.flatten_cons]
      rw [ih _ (by
        have := iterW_pos e (b :: t)
        rw [List.length_drop]
        simp only [List.length_cons] at *
        omega), List.take_append_drop]

theorem iter_wf {e : Enc} (he : e ≠ .iso2022Jp) : ∀ n bs, bs.length ≤ n → Wf (code e) bs →
    ∀ c ∈ iter e n bs, c ≠ [] ∧ code e c = some c.length := by
  intro n
  induction n with
  | zero =>
    intro bs hb
    have : bs = [] := List.length_eq_zero_iff.mp (by omega)
    subst this
    simp [iter]
  | succ n ih =>
    intro bs hb hw c hc
    cases bs with
    | nil => simp [iter] at hc
    | cons b t =>
      obtain ⟨k, hk, h2⟩ := hw.inv (code_code e) (by simp)
      simp only [iter, iterW_code he hk, List.mem_cons] at hc
      have hp := (code_code e).pos _ _ hk
      have hl : ((b :: t).take k).length = k := by rw [List.length_take]; omega
      rcases hc with hc | hc
      · subst hc
        exact ⟨by intro h; rw [h] at hl; simp at hl; omega, by rw [hl]; exact (code_code e).take hk⟩
      · exact ih _ (by rw [List.length_drop]; simp only [List.length_cons] at *; omega) h2 c hc

theorem reverse_wf {e : Enc} (he : e ≠ .iso2022Jp) {bs} (h : Wf (code e) bs) :
    Wf (code e) (chars e bs).reverse.flatten :=
  Wf.ofChars (fun c hc => iter_wf he _ _ (Nat.le_refl _) h c (by simpa [chars] using hc))

theorem mem_reverse_chars {e : Enc} {bs : List Nat} {x} :
    x ∈ (chars e bs).reverse.flatten ↔ x ∈ bs := by
  rw [List.mem_flatten]
  simp only [List.mem_reverse]
  rw [← List.mem_flatten, chars, iter_flatten e _ _ (Nat.le_refl _)]

theorem length_flatten_reverse (l : List (List Nat)) : l.reverse.flatten.length = l.flatten.length := by
  simp [List.length_flatten, List.map_reverse, List.sum_reverse]

theorem length_reverse_chars {e : Enc} {bs : List Nat} :
    (chars e bs).reverse.flatten.length = bs.length := by
  rw [length_flatten_reverse, chars, iter_flatten e _ _ (Nat.le_refl _)]

theorem reverse_safe {s : S} (hs : Safe s) : Safe (reverseS iso s) := by
  unfold reverseS
  simp only
  split_ifs with h
  · constructor
    · intro hc x hx
      exact hs.seven hc x (by simpa using hx)
    · intro hc he
      simp only at hc he
      rcases h with h | h
      · rw [hc] at h; simp at h
      · rw [he] at h; simp [Enc.byteRev] at h
  · constructor
    · intro hc
      exact absurd (Or.inl hc) h
    · intro hc he
      simp only at he
      have := hs.valid hc he
      simp only [he]
      exact reverse_wf (e := .utf8) (by simp) this

theorem wf_fix1 (bs : List Nat) : Wf (fixw 1) bs := (wf_fixw (by omega) bs).mpr (Nat.mod_one _)

theorem reverse_sound {s : S} (hs : Sound iso s) (he : s.enc ≠ .iso2022Jp)
    (hb : s.codeRange iso ≠ .broken) : Sound iso (reverseS iso s) := by
  have hw : Wf (code s.enc) s.bytes := by
    refine hs.wf he ?_
    have := codeRange_ne_unknown (iso := iso) s
    cases h : s.codeRange iso <;> simp_all
  unfold reverseS
  simp only
  split_ifs with h
  · refine ⟨?_, ?_, fun hc => absurd hc hb⟩
    · intro hc
      rcases classify_seven.mp (hs.seven hc) with h1 | h1
      · exact classify_seven.mpr (Or.inl (by simp [h1]))
      · exact classify_seven.mpr (Or.inr ⟨h1.1, fun x hx => h1.2 x (by simpa using hx)⟩)
    · intro hc
      simp only at hc ⊢
      refine (classify_broken he).mpr ?_
      rcases h with h | h
      · rw [hc] at h; simp at h
      · cases hE : s.enc <;> rw [hE] at h hw <;> simp [Enc.byteRev] at h
        · exact wf_fix1 _
        · exact Ascii.wf (e := .usAscii) rfl (fun x hx => wf_ascii hw x (by simpa using hx))
        · exact wf_fix1 _
  · refine ⟨fun hc => absurd (Or.inl hc) h, ?_, fun hc => absurd hc hb⟩
    intro hc
    exact (classify_broken he).mpr (reverse_wf he hw)

theorem propagated_cases {s : S} {st en} {c} (hc : propagated iso s st en = c) :
    c = .unknown ∨ (c = .sevenBit ∧ (st = en ∨ s.codeRange iso = .sevenBit)) ∨
    (c = .valid ∧ st ≠ en ∧ s.codeRange iso = .valid ∧
      ((s.enc = .utf8 ∧ boundary s.bytes st = true ∧ boundary s.bytes en = true) ∨
       (∃ w, (w = 1 ∨ w = 2 ∨ w = 4) ∧ code s.enc = fixw w ∧ s.enc ≠ .iso2022Jp ∧
         st % w = 0 ∧ en % w = 0))) := by
  unfold propagated at hc
  by_cases h0 : st = en
  · rw [if_pos h0] at hc
    exact Or.inr (Or.inl ⟨hc.symm, Or.inl h0⟩)
  · rw [if_neg h0] at hc
    cases hcr : s.codeRange iso <;> rw [hcr] at hc <;> simp only at hc
    · exact Or.inl hc.symm
    · exact Or.inr (Or.inl ⟨hc.symm, Or.inr rfl⟩)
    · cases hE : s.enc <;> rw [hE] at hc <;> simp only at hc <;> (try split_ifs at hc with hbd) <;>
        first
        | exact Or.inl hc.symm
        | exact Or.inr (Or.inr ⟨hc.symm, h0, rfl, Or.inl ⟨rfl, by simpa using hbd⟩⟩)
        | exact Or.inr (Or.inr ⟨hc.symm, h0, rfl, Or.inr ⟨2, by simp, rfl, by simp, hbd.1, hbd.2⟩⟩)
        | exact Or.inr (Or.inr ⟨hc.symm, h0, rfl, Or.inr ⟨4, by simp, rfl, by simp, hbd.1, hbd.2⟩⟩)
        | exact Or.inr (Or.inr ⟨hc.symm, h0, rfl, Or.inr ⟨1, by simp, rfl, by simp, Nat.mod_one _, Nat.mod_one _⟩⟩)
    · exact Or.inl hc.symm

theorem substring_safe {s : S} (hs : Safe s) {st en} (h1 : st ≤ en) (h2 : en ≤ s.bytes.length) :
    Safe (substring iso s st en) := by
  unfold substring
  constructor
  · intro hc
    simp only at hc ⊢
    rcases propagated_cases hc with h | h | h
    · simp at h
    · rcases h.2 with h | h
      · subst h; intro x hx; simp [slice] at hx
      · exact (hs.seven h).sub slice_sub
    · simp at h
  · intro hc he
    simp only at hc he ⊢
    rcases propagated_cases hc with h | h | h
    · simp at h
    · simp at h
    · obtain ⟨_, _, hv, h | ⟨w, hw, hcw, _, h3, h4⟩⟩ := h
      · exact (wf_slice (hs.valid hv he) h1 h2 h.2.1 h.2.2).2.1
      · exfalso
        rw [he] at hcw
        have := congrFun hcw [255, 255, 255, 255]
        rcases hw with rfl | rfl | rfl <;> simp [code, fixw, u8w] at this

theorem slice_length {bs : List Nat} {st en} (h2 : en ≤ bs.length) :
    (slice bs st en).length = en - st := by
  rw [slice, List.length_take, List.length_drop]; omega

theorem substring_sound {s : S} (hs : Sound iso s) {st en} (h1 : st ≤ en)
    (h2 : en ≤ s.bytes.length) : Sound iso (substring iso s st en) := by
  unfold substring
  refine ⟨?_, ?_, ?_⟩
  · intro hc
    simp only at hc ⊢
    rcases propagated_cases hc with h | h | h
    · simp at h
    · rcases h.2 with h | h
      · exact classify_seven.mpr (Or.inl (by simp [slice, h]))
      · rcases classify_seven.mp (hs.seven h) with h | h
        · exact classify_seven.mpr (Or.inl (by simp [slice, h]))
        · exact classify_seven.mpr (Or.inr ⟨h.1, h.2.sub slice_sub⟩)
    · simp at h
  · intro hc
    simp only at hc ⊢
    rcases propagated_cases hc with h | h | h
    · simp at h
    · simp at h
    · obtain ⟨_, _, hv, h | ⟨w, hw, hcw, hne, h3, h4⟩⟩ := h
      · have := hs.wf (by rw [h.1]; simp) (Or.inr hv)
        rw [h.1] at this ⊢
        exact (classify_broken (by simp)).mpr (wf_slice this h1 h2 h.2.1 h.2.2).2.1
      · refine (classify_broken hne).mpr ?_
        rw [hcw, wf_fixw (by rcases hw with rfl | rfl | rfl <;> omega), slice_length h2]
        rcases hw with rfl | rfl | rfl <;> omega
  · intro hc
    simp only at hc
    rcases propagated_cases hc with h | h | h <;> simp at h

theorem setByte_ascii {l : List Nat} {i b} (h : Ascii l) (hb : b < 0x80) : Ascii (l.set i b) := by
  intro x hx
  rcases List.mem_or_eq_of_mem_set hx with h' | h'
  · exact h x h'
  · omega

theorem setByte_safe {s : S} (hs : Safe s) (i b) : Safe (setByte s i b) := by
  unfold setByte
  split_ifs with h
  · exact ⟨fun _ => setByte_ascii (hs.1 h.1) h.2, by simp⟩
  · exact ⟨by simp, by simp⟩

theorem setByte_sound {s : S} (hs : Sound iso s) (i b) : Sound iso (setByte s i b) := by
  unfold setByte
  split_ifs with h
  · refine ⟨fun _ => ?_, by simp, by simp⟩
    rcases classify_seven.mp (hs.1 h.1) with h1 | h1
    · exact classify_seven.mpr (Or.inl (by simp [h1]))
    · exact classify_seven.mpr (Or.inr ⟨h1.1, setByte_ascii h1.2 h.2⟩)
  · exact ⟨by simp, by simp, by simp⟩

end Verif.Str
