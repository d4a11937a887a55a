import Verif.Rubymap.Lemmas

/-! # Every operation keeps the index table in step with the entry vector -/

namespace Verif.Rubymap

variable {Tb : Table} {K V σ ε : Type}

/-- The index map of an entry vector some of whose entries are tombstones. -/
def lmap (dead : K → Bool) (es : List (Bucket K V)) : Nat → Option Nat := fun i =>
  match es[i]? with
  | some b => if dead b.key then none else some b.hash
  | none => none

/-- No tombstones. -/
def Clean (dead : K → Bool) (es : List (Bucket K V)) : Prop := ∀ b ∈ es, dead b.key = false

theorem lmap_clean {dead : K → Bool} {es : List (Bucket K V)} (h : Clean dead es) (i : Nat) :
    lmap dead es i = emap es i := by
  unfold lmap emap
  cases e : es[i]? with
  | none => rfl
  | some b => simp [h b (List.mem_of_getElem? e)]

/-- The index invariant. -/
def Idx (dead : K → Bool) (c : Core Tb K V) : Prop :=
  if c.linear then Rep c.indices (fun _ => none) ∧ Clean dead c.entries
  else Rep c.indices (lmap dead c.entries)

theorem Idx.ofClean {dead : K → Bool} {c : Core Tb K V} (hc : Clean dead c.entries)
    (h : if c.linear then Rep c.indices (fun _ => none) else Rep c.indices (emap c.entries)) :
    Idx dead c := by
  unfold Idx
  split
  · rename_i hl; rw [if_pos hl] at h; exact ⟨h, hc⟩
  · rename_i hl; rw [if_neg hl] at h; exact h.congr (fun i => (lmap_clean hc i).symm)

theorem Idx.repClean {dead : K → Bool} {c : Core Tb K V} (h : Idx dead c)
    (hl : c.linear = false) (hc : Clean dead c.entries) : Rep c.indices (emap c.entries) := by
  unfold Idx at h
  rw [if_neg (by simp [hl])] at h
  exact h.congr (lmap_clean hc)

theorem Idx.repLinear {dead : K → Bool} {c : Core Tb K V} (h : Idx dead c)
    (hl : c.linear = true) : Rep c.indices (fun _ => none) ∧ Clean dead c.entries := by
  unfold Idx at h
  rwa [if_pos hl] at h

theorem Idx.repLive {dead : K → Bool} {c : Core Tb K V} (h : Idx dead c)
    (hl : c.linear = false) : Rep c.indices (lmap dead c.entries) := by
  unfold Idx at h
  rwa [if_neg (by simp [hl])] at h

/-- The pairs a table must hold for an entry vector. -/
theorem rep_length {t : Tb.T} {es : List (Bucket K V)} (r : Rep t (emap es)) :
    (Tb.items t).length = es.length := by
  have p : (Tb.items t).Perm (es.zipIdx.map (fun x => (x.1.hash, x.2))) := by
    rw [List.perm_ext_iff_of_nodup r.1]
    · rintro ⟨a, i⟩
      rw [r.2, List.mem_map]
      unfold emap
      constructor
      · intro h
        obtain ⟨b, hb, rfl⟩ := Option.map_eq_some_iff.1 h
        exact ⟨(b, i), List.mem_zipIdx_iff_getElem?.2 hb, rfl⟩
      · rintro ⟨⟨b, j⟩, hb, e⟩
        simp only [Prod.mk.injEq] at e
        obtain ⟨rfl, rfl⟩ := e
        rw [List.mem_zipIdx_iff_getElem?.1 hb]; rfl
    · apply List.Nodup.of_map Prod.snd
      rw [List.map_map]
      have : (Prod.snd ∘ fun x : Bucket K V × Nat => (x.1.hash, x.2)) = Prod.snd := rfl
      rw [this, List.zipIdx_map_snd]
      exact List.nodup_range'
  rw [p.length_eq]; simp

theorem Clean.append {dead : K → Bool} {a b : List (Bucket K V)} (ha : Clean dead a)
    (hb : Clean dead b) : Clean dead (a ++ b) := by
  intro x hx
  rcases List.mem_append.1 hx with h | h
  · exact ha x h
  · exact hb x h

theorem Clean.sub {dead : K → Bool} {a b : List (Bucket K V)} (ha : Clean dead a)
    (h : ∀ x ∈ b, x ∈ a) : Clean dead b := fun x hx => ha x (h x hx)

/-! ## Finding -/

/-- What any comparison function makes of a probe: never a panic, and a hit is a visited
slot. -/
theorem probeFind_any (eq : KeyEq σ ε K) (es : List (Bucket K V)) (k : K) :
    ∀ (xs : List (Nat × Nat)) (s : σ), (∀ x ∈ xs, es[x.2]? ≠ none) →
    ∃ s' r, probeFind eq es k xs s = (s', some r) ∧ ∀ x, r = some x → x ∈ xs
  | [], s, _ => ⟨s, none, rfl, by intro x h; cases h⟩
  | x :: xs, s, h => by
    rw [probeFind]
    cases hb : es[x.2]? with
    | none => exact absurd hb (h x (by simp))
    | some b =>
      have ih := fun s => probeFind_any eq es k xs s (fun y hy => h y (by simp [hy]))
      simp only []
      rcases he : eq s k b.key with ⟨s', r⟩
      cases r with
      | error e =>
        obtain ⟨s2, r2, h1, h2⟩ := ih s'
        exact ⟨s2, r2, h1, fun y hy => by simp [h2 y hy]⟩
      | ok v =>
        cases v with
        | true => exact ⟨s', some x, rfl, by intro y hy; cases hy; simp⟩
        | false =>
          obtain ⟨s2, r2, h1, h2⟩ := ih s'
          exact ⟨s2, r2, h1, fun y hy => by simp [h2 y hy]⟩

theorem linearFind_any (eq : KeyEq σ ε K) (h : Nat) (k : K) :
    ∀ (bs : List (Bucket K V)) (i : Nat) (s : σ),
    ∃ s' r, linearFind eq h k bs i s = (s', r) ∧
      ∀ j, r = .ok (some j) → i ≤ j ∧ j < i + bs.length
  | [], i, s => ⟨s, .ok none, rfl, by intro j h; cases h⟩
  | b :: bs, i, s => by
    rw [linearFind]
    have ih := fun s => linearFind_any eq h k bs (i + 1) s
    have hl : (b :: bs).length = bs.length + 1 := rfl
    rw [hl]
    split
    · rcases he : eq s k b.key with ⟨s', r⟩
      cases r with
      | error e => exact ⟨s', .error e, rfl, by intro j h; cases h⟩
      | ok v =>
        cases v with
        | true =>
          refine ⟨s', .ok (some i), rfl, ?_⟩
          intro j h; cases h; omega
        | false =>
          obtain ⟨s2, r2, h1, h2⟩ := ih s'
          exact ⟨s2, r2, h1, fun j hj => by have := h2 j hj; omega⟩
    · obtain ⟨s2, r2, h1, h2⟩ := ih s
      exact ⟨s2, r2, h1, fun j hj => by have := h2 j hj; omega⟩

/-- A comparison function that is a pure equivalence compatible with `hf`. -/
structure Lawful (eq : KeyEq σ ε K) (eqb : K → K → Bool) (hf : K → Nat) : Prop where
  pure : ∀ s a b, (eq s a b).2 = .ok (eqb a b)
  refl : ∀ a, eqb a a = true
  symm : ∀ a b, eqb a b = true → eqb b a = true
  trans : ∀ a b c, eqb a b = true → eqb b c = true → eqb a c = true
  hash : ∀ a b, eqb a b = true → hf a = hf b

/-- The live keys are pairwise different and filed under their own hash. -/
structure Keys (dead : K → Bool) (eqb : K → K → Bool) (hf : K → Nat)
    (es : List (Bucket K V)) : Prop where
  hash : ∀ b ∈ es, dead b.key = false → b.hash = hf b.key
  uniq : es.Pairwise (fun a b => dead a.key = false → dead b.key = false →
    eqb a.key b.key = false)

/-- Position of the live entry whose key is equal to `k`. -/
def posOf (dead : K → Bool) (eqb : K → K → Bool) (k : K) (es : List (Bucket K V)) : Option Nat :=
  es.findIdx? (fun b => !dead b.key && eqb k b.key)

theorem Keys.unique {dead : K → Bool} {eqb : K → K → Bool} {hf : K → Nat} {eq : KeyEq σ ε K}
    {es : List (Bucket K V)} (hk : Keys dead eqb hf es) (law : Lawful eq eqb hf) {i j : Nat}
    {a b : Bucket K V} (hi : es[i]? = some a) (hj : es[j]? = some b) (da : dead a.key = false)
    (db : dead b.key = false) {k : K} (ea : eqb k a.key = true) (eb : eqb k b.key = true) :
    i = j := by
  have key : ∀ {i j : Nat} {a b : Bucket K V}, es[i]? = some a → es[j]? = some b →
      dead a.key = false → dead b.key = false → eqb k a.key = true → eqb k b.key = true →
      ¬ i < j := by
    intro i j a b hi hj da db ea eb hlt
    obtain ⟨hil, rfl⟩ := List.getElem?_eq_some_iff.1 hi
    obtain ⟨hjl, rfl⟩ := List.getElem?_eq_some_iff.1 hj
    have := List.pairwise_iff_getElem.1 hk.uniq i j hil hjl hlt da db
    rw [law.trans _ _ _ (law.symm _ _ ea) eb] at this
    cases this
  have h1 := key hi hj da db ea eb
  have h2 := key hj hi db da eb ea
  omega

theorem linearFind_lawful {eq : KeyEq σ ε K} {eqb : K → K → Bool} {hf : K → Nat}
    (law : Lawful eq eqb hf) (k : K) :
    ∀ (bs : List (Bucket K V)) (i : Nat) (s : σ), (∀ b ∈ bs, b.hash = hf b.key) →
    (linearFind eq (hf k) k bs i s).2 =
      .ok ((bs.findIdx? (fun b => eqb k b.key)).map (· + i))
  | [], i, s, _ => rfl
  | b :: bs, i, s, h => by
    rw [linearFind, List.findIdx?_cons]
    have ih := fun s => linearFind_lawful law k bs (i + 1) s (fun x hx => h x (by simp [hx]))
    have hb := h b (by simp)
    have hp := law.pure s k b.key
    by_cases he : eqb k b.key = true
    · rw [if_pos (by rw [hb, law.hash _ _ he])]
      rcases e : eq s k b.key with ⟨s', r⟩
      rw [e] at hp
      simp only at hp
      subst hp
      simp [he]
    · have he : eqb k b.key = false := by simpa using he
      have cont : ∀ s, (linearFind eq (hf k) k bs (i + 1) s).2 =
          .ok ((Option.map (fun i => i + 1) (bs.findIdx? fun b => eqb k b.key)).map (· + i)) := by
        intro s
        rw [ih]
        simp only [Option.map_map]
        congr 2
        funext x
        simp only [Function.comp_apply]
        omega
      rw [he, if_neg (by simp : ¬ (false = true))]
      split
      · rcases e : eq s k b.key with ⟨s', r⟩
        rw [e] at hp
        simp only at hp
        subst hp
        rw [he]
        exact cont s'
      · exact cont s

theorem probeFind_lawful {eq : KeyEq σ ε K} {eqb : K → K → Bool} {hf : K → Nat}
    (law : Lawful eq eqb hf) (es : List (Bucket K V)) (k : K) :
    ∀ (xs : List (Nat × Nat)) (s : σ), (∀ x ∈ xs, es[x.2]? ≠ none) →
    ∀ s' r, probeFind eq es k xs s = (s', some r) →
    (∀ x, r = some x → ∃ b, es[x.2]? = some b ∧ eqb k b.key = true) ∧
    (r = none → ∀ x ∈ xs, ∀ b, es[x.2]? = some b → eqb k b.key = false)
  | [], s, _ => by
    intro s' r h
    rw [probeFind] at h
    cases h
    exact ⟨(by intro x h; cases h), (by intro _ x hx; cases hx)⟩
  | x :: xs, s, h => by
    intro s' r hr
    rw [probeFind] at hr
    cases hb : es[x.2]? with
    | none => exact absurd hb (h x (by simp))
    | some b =>
      rw [hb] at hr
      simp only [] at hr
      have hp := law.pure s k b.key
      rcases e : eq s k b.key with ⟨s1, r1⟩
      rw [e] at hp hr
      simp only at hp
      subst hp
      by_cases he : eqb k b.key = true
      · rw [he] at hr
        cases hr
        exact ⟨fun y hy => by cases hy; exact ⟨b, hb, he⟩, by intro h; cases h⟩
      · have he : eqb k b.key = false := by simpa using he
        rw [he] at hr
        obtain ⟨h1, h2⟩ := probeFind_lawful law es k xs s1 (fun y hy => h y (by simp [hy])) s' r hr
        refine ⟨h1, fun hn y hy b' hb' => ?_⟩
        rcases List.mem_cons.1 hy with rfl | hy
        · rw [hb] at hb'; cases hb'; exact he
        · exact h2 hn y hy b' hb'

/-- What a search for `k` filed under `h` may answer. -/
structure FindOk (dead : K → Bool) (eq : KeyEq σ ε K) (h : Nat) (k : K) (es : List (Bucket K V))
    (r : Res ε (Option Nat)) : Prop where
  noPanic : r ≠ .panic
  live : ∀ i, r = .ok (some i) → ∃ b, es[i]? = some b ∧ dead b.key = false
  lawful : ∀ eqb hf, Lawful eq eqb hf → Keys dead eqb hf es → h = hf k →
    r = .ok (posOf dead eqb k es)

theorem lmap_some {dead : K → Bool} {es : List (Bucket K V)} {i h : Nat}
    (e : lmap dead es i = some h) : ∃ b, es[i]? = some b ∧ dead b.key = false ∧ b.hash = h := by
  unfold lmap at e
  split at e
  · rename_i b hb
    split at e
    · cases e
    · rename_i hd; cases e; exact ⟨b, hb, by simpa using hd, rfl⟩
  · cases e

theorem posOf_clean {dead : K → Bool} {eqb : K → K → Bool} {k : K} {es : List (Bucket K V)}
    (hc : Clean dead es) : posOf dead eqb k es = es.findIdx? (fun b => eqb k b.key) := by
  unfold posOf
  induction es with
  | nil => rfl
  | cons b bs ih =>
    rw [List.findIdx?_cons, List.findIdx?_cons, hc b (by simp),
      ih (fun x hx => hc x (by simp [hx]))]
    simp

/-- Probing a table in step with the entries. -/
theorem probe_findOk {dead : K → Bool} {es : List (Bucket K V)} {t : Tb.T}
    (r : Rep t (lmap dead es)) (eq : KeyEq σ ε K) (h : Nat) (k : K) (s : σ) :
    ∃ s' o, probeFind eq es k (Tb.probe t h) s = (s', some o) ∧
      (∀ x, o = some x → lmap dead es x.2 = some x.1) ∧
      FindOk dead eq h k es (.ok (o.map (·.2))) := by
  have vis : ∀ x ∈ Tb.probe t h, lmap dead es x.2 = some x.1 := fun x hx =>
    (r.2 x.1 x.2).1 (Tb.probe_sub t h x hx)
  have inr : ∀ x ∈ Tb.probe t h, es[x.2]? ≠ none := by
    intro x hx e
    obtain ⟨b, hb, _⟩ := lmap_some (vis x hx)
    rw [e] at hb; cases hb
  obtain ⟨s', o, e, ho⟩ := probeFind_any eq es k (Tb.probe t h) s inr
  refine ⟨s', o, e, fun x hx => vis x (ho x hx), ⟨by simp, ?_, ?_⟩⟩
  · intro i hi
    cases o with
    | none => cases hi
    | some x =>
      simp only [Option.map_some, Res.ok.injEq, Option.some.injEq] at hi
      subst hi
      obtain ⟨b, hb, hd, _⟩ := lmap_some (vis x (ho x rfl))
      exact ⟨b, hb, hd⟩
  · intro eqb hf law hk hh
    obtain ⟨h1, h2⟩ := probeFind_lawful law es k _ s inr s' o e
    congr 1
    cases o with
    | none =>
      symm
      unfold posOf
      simp only [Option.map_none, List.findIdx?_eq_none_iff]
      intro b hb
      by_contra hcon
      have hcon : dead b.key = false ∧ eqb k b.key = true := by simpa using hcon
      obtain ⟨i, hi⟩ := List.getElem?_of_mem hb
      have hm : lmap dead es i = some h := by
        unfold lmap
        rw [hi]
        simp only [hcon.1, Bool.false_eq_true, if_false]
        rw [hk.hash b hb hcon.1, hh, law.hash _ _ hcon.2]
      have := h2 rfl (h, i) (Tb.probe_all t h _ ((r.2 h i).2 hm) rfl) b hi
      rw [hcon.2] at this; cases this
    | some x =>
      obtain ⟨b, hb, he⟩ := h1 x rfl
      obtain ⟨b', hb', hd, _⟩ := lmap_some (vis x (ho x rfl))
      rw [hb] at hb'; cases hb'
      cases hp : posOf dead eqb k es with
      | none =>
        unfold posOf at hp
        rw [List.findIdx?_eq_none_iff] at hp
        have := hp b (List.mem_of_getElem? hb)
        simp [hd, he] at this
      | some j =>
        unfold posOf at hp
        obtain ⟨hj, hj1, _⟩ := List.findIdx?_eq_some_iff_getElem.1 hp
        have hj1 : dead es[j].key = false ∧ eqb k es[j].key = true := by simpa using hj1
        have := hk.unique law hb (List.getElem?_eq_getElem hj) hd hj1.1 he hj1.2
        simp [this]

theorem linear_findOk {dead : K → Bool} {es : List (Bucket K V)} (hc : Clean dead es)
    (eq : KeyEq σ ε K) (h : Nat) (k : K) (s : σ) :
    ∃ s', (∃ o, linearFind eq h k es 0 s = (s', .ok o) ∧ FindOk dead eq h k es (.ok o)) ∨
      (∃ e, linearFind eq h k es 0 s = (s', .error e) ∧ FindOk dead eq h k es (.raise e)) := by
  obtain ⟨s', r, e, hr⟩ := linearFind_any eq h k es 0 s
  refine ⟨s', ?_⟩
  have lawf : ∀ eqb hf, Lawful eq eqb hf → Keys dead eqb hf es → h = hf k →
      r = .ok (posOf dead eqb k es) := by
    intro eqb hf law hk hh
    have := linearFind_lawful law k es 0 s (fun b hb => hk.hash b hb (hc b hb))
    subst hh
    rw [e] at this
    simp only at this
    rw [this, posOf_clean hc]
    simp
  cases r with
  | ok o =>
    left
    refine ⟨o, e, by simp, ?_, ?_⟩
    · intro i hi
      cases hi
      have := hr i rfl
      exact ⟨es[i]'(by omega), List.getElem?_eq_getElem _, hc _ (List.getElem_mem _)⟩
    · intro eqb hf law hk hh
      have := lawf eqb hf law hk hh
      cases this; rfl
  | error x =>
    right
    refine ⟨x, e, by simp, by simp, ?_⟩
    intro eqb hf law hk hh
    have := lawf eqb hf law hk hh
    cases this

theorem getIndexOf_ok {dead : K → Bool} {c : Core Tb K V} (hi : Idx dead c) (eq : KeyEq σ ε K)
    (h : Nat) (k : K) (s : σ) : FindOk dead eq h k c.entries (c.getIndexOf eq h k s).2 := by
  unfold Core.getIndexOf
  split
  · rename_i hl
    obtain ⟨s', ⟨o, e, ok⟩ | ⟨x, e, ok⟩⟩ := linear_findOk (hi.repLinear hl).2 eq h k s
    · rw [e]; exact ok
    · rw [e]; exact ok
  · rename_i hl
    obtain ⟨s', o, e, _, ok⟩ := probe_findOk (hi.repLive (by simpa using hl)) eq h k s
    rw [e]; exact ok

end Verif.Rubymap
