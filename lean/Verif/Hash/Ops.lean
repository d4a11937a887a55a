import Verif.Hash.Lemmas

/-! # What each Hash operation does, seen as a list of pairs -/

namespace Verif.Hash

open Verif.Rubymap (Table Core Bucket KeyEq Res Lawful Keys Idx Clean pairs contents)

variable {Tb : Table} {K V : Type} [DecidableEq K] {env : Env K V}

/-- the entry vector, deleted entries included -/
def H.raw : H Tb K V → List (Option K × V)
  | .inline ps _ _ => ps.map (fun p => (some p.1, p.2))
  | .boxed c _ _ _ _ => contents c

/-- the iteration counter -/
def H.lev : H Tb K V → Nat
  | .inline _ _ d => d
  | .boxed _ _ l _ _ => l

theorem content_live (h : H Tb K V) : h.content = live h.raw := by
  cases h with
  | inline ps i d => exact (live_map ps).symm
  | boxed c i l d f =>
    simp only [H.content, H.raw, live, contents, List.filterMap_map]; rfl

theorem iterActive_lev (h : H Tb K V) : h.iterActive = decide (h.lev > 0) := by
  cases h <;> simp [H.iterActive, H.lev, Nat.pos_iff_ne_zero]

/-- number of deleted entries still in the vector -/
def deads (l : List (Option K × V)) : Nat := l.countP (fun p => p.1.isNone)

@[simp] theorem deads_append (a b : List (Option K × V)) : deads (a ++ b) = deads a + deads b := by
  simp [deads]
@[simp] theorem deads_some (k : K) (v : V) (l : List (Option K × V)) :
    deads ((some k, v) :: l) = deads l := by simp [deads]
@[simp] theorem deads_none (v : V) (l : List (Option K × V)) :
    deads ((none, v) :: l) = deads l + 1 := by simp [deads]
@[simp] theorem deads_nil : deads ([] : List (Option K × V)) = 0 := rfl

theorem live_length (l : List (Option K × V)) : (live l).length + deads l = l.length := by
  induction l with
  | nil => rfl
  | cons p l ih =>
    obtain ⟨o, v⟩ := p
    cases o <;> simp <;> omega

theorem deads_map (ps : List (K × V)) : deads (ps.map (fun p => (some p.1, p.2))) = 0 := by
  induction ps with
  | nil => rfl
  | cons p ps ih => simpa using ih

theorem deads_zero {l : List (Option K × V)} (h : deads l = 0) : ∀ p ∈ l, p.1.isNone = false := by
  intro p hp
  have := (List.countP_eq_zero.1 h) p hp
  cases e : p.1 <;> simp_all

/-- The representation invariant. -/
def Hok (env : Env K V) : H Tb K V → Prop
  | .inline ps ident d => ps.length ≤ 3 ∧ d ≤ 3 ∧
      (ident = false → ∀ p ∈ ps, env.packed p.1 = true) ∧ Distinct env ident ps
  | .boxed c ident _ dead _ => BOk env ident c ∧ dead = deads (contents c)

theorem Hok.distinct {h : H Tb K V} (hk : Hok env h) : Distinct env h.ident h.content := by
  rw [content_live]
  cases h with
  | inline ps i d => simp only [H.raw, live_map]; exact hk.2.2.2
  | boxed c i l d f => exact hk.1.distinct

/-- Positions survive: an entry may only be deleted. -/
def Stable (r r' : List (Option K × V)) : Prop :=
  r'.length = r.length ∧
  ∀ (i : Nat) (k : K), (r'[i]?.bind (·.1)) = some k → (r[i]?.bind (·.1)) = some k

theorem Stable.refl (r : List (Option K × V)) : Stable r r := ⟨rfl, fun _ _ h => h⟩

theorem Stable.mid {A B : List (Option K × V)} {k : Option K} {v : V} {p : Option K × V}
    (h : p.1 = none ∨ p.1 = k) : Stable (A ++ (k, v) :: B) (A ++ p :: B) := by
  refine ⟨by simp, ?_⟩
  intro i x hx
  rcases Nat.lt_trichotomy i A.length with hi | hi | hi
  · rw [List.getElem?_append_left hi] at hx ⊢; exact hx
  · subst hi
    rw [List.getElem?_append_right (Nat.le_refl _)] at hx ⊢
    simp only [Nat.sub_self, List.getElem?_cons_zero, Option.bind_some] at hx ⊢
    rcases h with h | h
    · rw [h] at hx; cases hx
    · rw [← h]; exact hx
  · rw [List.getElem?_append_right (by omega)] at hx ⊢
    obtain ⟨j, hj⟩ : ∃ j, i - A.length = j + 1 := ⟨i - A.length - 1, by omega⟩
    rw [hj] at hx ⊢
    simpa using hx

/-! ## Inline positions -/

theorem inlinePos_some (ct : Contract env) {ident : Bool} {ps : List (K × V)} {k : K} {i : Nat}
    (d : Distinct env ident ps) (h : inlinePos env ident ps k = some i) :
    ∃ A v' B, ps = A ++ (k, v') :: B ∧ A.length = i ∧ Hit env ident k A k B := by
  unfold inlinePos at h
  split at h
  · obtain ⟨hi, h1, _⟩ := List.findIdx?_eq_some_iff_getElem.1 h
    simp only [decide_eq_true_eq] at h1
    have e : ps = ps.take i ++ (k, ps[i].2) :: ps.drop (i + 1) := by
      conv_lhs => rw [← List.take_append_drop i ps]
      congr 1
      rw [← List.getElem_cons_drop hi, ← h1]
    refine ⟨ps.take i, ps[i].2, ps.drop (i + 1), e, by simp; omega, ?_⟩
    rw [e] at d
    exact Hit.of_distinct ct (same_refl ct k) d
  · cases h

theorem inlinePos_none (ct : Contract env) {ident : Bool} {ps : List (K × V)} {k : K}
    (hp : ident = false → ∀ p ∈ ps, env.packed p.1 = true)
    (h : inlinePos env ident ps k = none) : Miss env ident k ps := by
  intro p hm
  unfold inlinePos at h
  cases e : same env ident k p.1 with
  | false => rfl
  | true =>
    exfalso
    have hk : p.1 = k := by
      unfold same at e
      cases ident with
      | true => simp at e; exact e.symm
      | false =>
        simp only [Bool.false_eq_true, if_false] at e
        exact ct.packed _ _ (hp rfl p hm) (ct.symm _ _ e)
    have hpk : (ident || env.packed k) = true := by
      cases ident with
      | true => rfl
      | false => rw [← hk]; simpa using hp rfl p hm
    rw [if_pos hpk, List.findIdx?_eq_none_iff] at h
    have := h p hm
    simp [hk] at this

/-! ## Reading -/

theorem get_ok (ct : Contract env) {h : H Tb K V} (hk : Hok env h) (k : K) :
    h.get env k = some (lookup env h.ident k h.content) := by
  cases h with
  | inline ps ident d =>
    obtain ⟨_, _, hp, hd⟩ := hk
    simp only [H.get, H.ident, H.content]
    cases e : inlinePos env ident ps k with
    | none => rw [(inlinePos_none ct hp e).lookup]; rfl
    | some i =>
      obtain ⟨A, v', B, rfl, rfl, hit⟩ := inlinePos_some ct hd e
      rw [hit.lookup]; simp
  | boxed c ident lev dead df =>
    have hb := hk.1
    rw [content_live]
    simp only [H.get, H.ident, H.raw]
    rw [bFind_ok ct hb]
    cases e : Rubymap.find (·.isNone) (optEq env ident) (some k) (contents c) with
    | none => rw [(find_none e).lookup]; rfl
    | some i =>
      obtain ⟨A, k', v', B, hr, hA, hs⟩ := find_some e
      have d := hb.distinct
      rw [hr] at d ⊢
      simp only [live_append, live_some] at d ⊢
      rw [(Hit.of_distinct ct hs d).lookup]
      have : c.entries[i]?.map (·.val) = (contents c)[i]?.map (·.2) := by
        simp [contents, Function.comp_def]
      simp only [Option.map_some, Option.bind_some, this]
      rw [hr, ← hA]; simp

theorem contains_ok (ct : Contract env) {h : H Tb K V} (hk : Hok env h) (k : K) :
    h.containsKey env k = some (present env h.ident k h.content) := by
  cases h with
  | inline ps ident d =>
    obtain ⟨_, _, hp, hd⟩ := hk
    simp only [H.containsKey, H.ident, H.content]
    cases e : inlinePos env ident ps k with
    | none => rw [(inlinePos_none ct hp e).present]; rfl
    | some i =>
      obtain ⟨A, v', B, rfl, rfl, hit⟩ := inlinePos_some ct hd e
      rw [hit.present]; rfl
  | boxed c ident lev dead df =>
    have hb := hk.1
    rw [content_live]
    simp only [H.containsKey, H.ident, H.raw]
    rw [bFind_ok ct hb]
    cases e : Rubymap.find (·.isNone) (optEq env ident) (some k) (contents c) with
    | none => rw [(find_none e).present]; rfl
    | some i =>
      obtain ⟨A, k', v', B, hr, hA, hs⟩ := find_some e
      have d := hb.distinct
      rw [hr] at d ⊢
      simp only [live_append, live_some] at d ⊢
      rw [(Hit.of_distinct ct hs d).present]; rfl

theorem len_ok {h : H Tb K V} (hk : Hok env h) : h.len = h.content.length := by
  cases h with
  | inline ps ident d => rfl
  | boxed c ident lev dead df =>
    rw [content_live]
    have := live_length (contents c)
    have e : (contents c).length = c.entries.length := by simp [contents]
    simp only [H.len, H.raw]
    have := hk.2
    omega

/-! ## Writing -/

/-- the parts of a Hash that most operations leave alone -/
structure Kept (h h' : H Tb K V) : Prop where
  ident : h'.ident = h.ident
  dflt : h'.dflt = h.dflt
  lev : h'.lev = h.lev

theorem compact_ok {h : H Tb K V} (ct : Contract env) (hk : Hok env h) :
    ∃ h', h.compactIfDirty = some h' ∧ Hok env h' ∧ h'.content = h.content ∧ Kept h h' ∧
      deads h'.raw = 0 ∧ (∀ c i l d f, h = .boxed c i l d f → ∃ c', h' = .boxed c' i l 0 f) := by
  cases h with
  | inline ps ident d =>
    exact ⟨_, rfl, hk, rfl, ⟨rfl, rfl, rfl⟩, deads_map ps, by intro _ _ _ _ _ h; cases h⟩
  | boxed c ident lev dead df =>
    unfold H.compactIfDirty
    simp only []
    split
    · rename_i h0
      subst h0
      refine ⟨_, rfl, hk, rfl, ⟨rfl, rfl, rfl⟩, hk.2.symm, ?_⟩
      intro _ _ _ _ _ h; cases h; exact ⟨_, rfl⟩
    · obtain ⟨h1, h2, h3⟩ := exec_spec ct hk.1 .compact trivial trivial
      simp only [Rubymap.exec] at h1 h2 h3
      cases e : c.compactTombstones (·.isNone) with
      | none => rw [e] at h1; cases h1
      | some c' =>
        rw [e] at h1 h2 h3
        simp only [Option.map_some, Rubymap.lift, Rubymap.spec] at h2 h3
        have hd : deads (contents c') = 0 := by
          unfold deads
          rw [h2, List.countP_eq_zero]
          intro p hp
          have := (List.mem_filter.1 hp).2
          cases e : p.1 <;> simp_all
        refine ⟨_, rfl, ⟨h3, hd.symm⟩, ?_, ⟨rfl, rfl, rfl⟩, hd, ?_⟩
        · rw [content_live, content_live]
          simp only [H.raw, h2]
          unfold live
          rw [List.filterMap_filter]
          apply List.filterMap_congr
          rintro ⟨o, v⟩ _
          cases o <;> simp
        · intro _ _ _ _ _ h; cases h; exact ⟨_, rfl⟩

theorem promote_ok (ct : Contract env) {ps : List (K × V)} {ident : Bool} {d : Nat}
    (hk : Hok (Tb := Tb) env (.inline ps ident d)) :
    ∃ c, H.promote (Tb := Tb) env ident (.inline ps ident d) = some (.boxed c ident d 0 none) ∧
      BOk env ident c ∧ contents c = ps.map (fun p => (some p.1, p.2)) := by
  obtain ⟨_, _, _, hd⟩ := hk
  obtain ⟨c, e, hb, hc⟩ := bInsertAll_ok ct ps (Core.new : Core Tb (Option K) V) BOk.new hd
  exact ⟨c, by simp [H.promote, e], hb, by rw [hc]; rfl⟩

theorem bstore_ok (ct : Contract env) {c : Core Tb (Option K) V} {ident : Bool}
    (hb : BOk env ident c) (k : K) (v : V) :
    ∃ c', bInsert env ident c k v = some c' ∧ BOk env ident c' ∧
      deads (contents c') = deads (contents c) ∧
      live (contents c') = put env ident k v (live (contents c)) ∧
      (present env ident k (live (contents c)) = true → Stable (contents c) (contents c')) := by
  obtain ⟨c', e, hb', r⟩ := bInsert_ok ct hb k v
  refine ⟨c', e, hb', ?_⟩
  rcases r with ⟨hm, hc⟩ | ⟨A, k', v', B, h1, h2, hit⟩
  · rw [hc, hm.put, hm.present]
    simp
  · rw [h1, h2]
    simp only [live_append, live_some, deads_append, deads_some]
    rw [hit.put]
    exact ⟨trivial, rfl, fun _ => Stable.mid (Or.inr rfl)⟩

theorem store_ok (ct : Contract env) {h : H Tb K V} (hk : Hok env h) (k : K) (v : V) :
    ∃ h', h.store env k v = some h' ∧ Hok env h' ∧
      h'.content = put env h.ident k v h.content ∧ Kept h h' ∧
      (present env h.ident k h.content = true → Stable h.raw h'.raw) := by
  cases h with
  | inline ps ident d =>
    have hk' := hk
    obtain ⟨hl, hd3, hp, hd⟩ := hk
    simp only [H.store, H.ident, H.content]
    cases e : inlinePos env ident ps k with
    | some i =>
      obtain ⟨A, v', B, rfl, rfl, hit⟩ := inlinePos_some ct hd e
      simp only []
      rw [modify_mid]
      refine ⟨_, rfl, ⟨by simpa using hl, hd3, ?_, ?_⟩, ?_, ⟨rfl, rfl, rfl⟩, ?_⟩
      · intro hi p hpm
        have := hp hi
        simp only [List.mem_append, List.mem_cons] at hpm this
        rcases hpm with h | rfl | h
        · exact this p (Or.inl h)
        · exact this (k, v') (Or.inr (Or.inl rfl))
        · exact this p (Or.inr (Or.inr h))
      · unfold Distinct at hd ⊢
        rw [List.pairwise_append, List.pairwise_cons] at hd ⊢
        obtain ⟨d1, ⟨d2, d3⟩, d4⟩ := hd
        refine ⟨d1, ⟨d2, d3⟩, ?_⟩
        intro a ha b hbm
        rcases List.mem_cons.1 hbm with rfl | hbm
        · exact d4 a ha (k, v') (by simp)
        · exact d4 a ha b (by simp [hbm])
      · rw [hit.put]
      · intro _
        simp only [H.raw, List.map_append, List.map_cons]
        exact Stable.mid (Or.inr rfl)
    | none =>
      have hm := inlinePos_none ct hp e
      simp only [hm.put, hm.present]
      split
      · rename_i hc
        refine ⟨_, rfl, ⟨by simp only [List.length_append, List.length_singleton]; have := hc.2; unfold INLINE_CAP at this; omega, hd3, ?_, ?_⟩, rfl, ⟨rfl, rfl, rfl⟩, by intro h; cases h⟩
        · intro hi p hpm
          rcases List.mem_append.1 hpm with h | h
          · exact hp hi p h
          · simp only [List.mem_singleton] at h
            subst h
            simpa [hi] using hc.1
        · unfold Distinct at hd ⊢
          rw [List.pairwise_append]
          refine ⟨hd, List.pairwise_singleton _ _, ?_⟩
          intro a ha b hb
          simp only [List.mem_singleton] at hb
          subst hb
          have := hm a ha
          cases es : same env ident a.1 k with
          | false => rfl
          | true => rw [same_symm ct es] at this; cases this
      · obtain ⟨c, e1, hb, hc⟩ := promote_ok (Tb := Tb) ct hk'
        rw [e1]
        obtain ⟨c', e2, hb', hd', hl', _⟩ := bstore_ok ct hb k v
        rw [hc, live_map] at hl'
        rw [hc, deads_map] at hd'
        simp only [e2, Option.map_some]
        refine ⟨_, rfl, ⟨hb', hd'.symm⟩, ?_, ⟨rfl, rfl, rfl⟩, by intro h; cases h⟩
        have := content_live (.boxed c' ident d 0 none : H Tb K V)
        simp only [H.raw] at this
        rw [hl', hm.put] at this
        exact this
  | boxed c ident lev dead df =>
    obtain ⟨hb, hd⟩ := hk
    obtain ⟨c', e2, hb', hd', hl', hs⟩ := bstore_ok ct hb k v
    simp only [H.store, e2, Option.map_some, H.ident]
    refine ⟨_, rfl, ⟨hb', by rw [hd', hd]⟩, ?_, ⟨rfl, rfl, rfl⟩, ?_⟩
    · rw [content_live, content_live]; exact hl'
    · rw [content_live]; exact hs

/-- `[]=` -/
theorem insert_ok (ct : Contract env) {h : H Tb K V} (hk : Hok env h) (k : K) (v : V) :
    (h.iterActive = true ∧ present env h.ident k h.content = false ∧
      h.insert env k v = some (.error .add)) ∨
    ((h.iterActive = true → present env h.ident k h.content = true) ∧
      ∃ h', h.insert env k v = some (.ok h') ∧ Hok env h' ∧
        h'.content = put env h.ident k v h.content ∧ Kept h h' ∧
        (h.iterActive = true → Stable h.raw h'.raw)) := by
  unfold H.insert
  cases ha : h.iterActive with
  | true =>
    simp only [if_true, contains_ok ct hk]
    cases hpres : present env h.ident k h.content with
    | false => exact Or.inl ⟨trivial, rfl, rfl⟩
    | true =>
      obtain ⟨h', e, hk', hc, kp, st⟩ := store_ok ct hk k v
      exact Or.inr ⟨fun _ => rfl, h', by simp [e], hk', hc, kp, fun _ => st hpres⟩
  | false =>
    right
    refine ⟨(by intro h; cases h), ?_⟩
    obtain ⟨h1, e1, hk1, hc1, kp1, _⟩ := compact_ok ct hk
    obtain ⟨h', e, hk', hc, kp, st⟩ := store_ok ct hk1 k v
    simp only [Bool.false_eq_true, if_false, e1, e, Option.map_some]
    refine ⟨h', rfl, hk', by rw [hc, kp1.ident, hc1], ⟨by rw [kp.ident, kp1.ident], by rw [kp.dflt, kp1.dflt],
      by rw [kp.lev, kp1.lev]⟩, by intro h; cases h⟩

theorem btomb_ok (ct : Contract env) {c : Core Tb (Option K) V} {ident : Bool}
    (hb : BOk env ident c) (k : K) :
    ∃ c' o, bTombstone env ident c k = some (c', o) ∧ BOk env ident c' ∧
      o = lookup env ident k (live (contents c)) ∧
      live (contents c') = del env ident k (live (contents c)) ∧
      deads (contents c') = (if o.isSome then deads (contents c) + 1 else deads (contents c)) ∧
      Stable (contents c) (contents c') := by
  obtain ⟨c', o, e, hb', r⟩ := bTombstone_ok ct hb k
  refine ⟨c', o, e, hb', ?_⟩
  rcases r with ⟨hm, hc, rfl⟩ | ⟨A, k', v', B, h1, h2, rfl, hit⟩
  · rw [hc, hm.lookup, hm.del]
    exact ⟨rfl, rfl, rfl, Stable.refl _⟩
  · rw [h1, h2]
    simp only [live_append, live_some, live_none, deads_append, deads_some, deads_none]
    rw [hit.lookup, hit.del]
    exact ⟨rfl, rfl, rfl, Stable.mid (Or.inl rfl)⟩

/-- The boxed form of a Hash, as taken by a deletion during iteration. -/
theorem boxed_ok (ct : Contract env) {h : H Tb K V} (hk : Hok env h) :
    ∃ c dead df, h.toBoxed env = some (.boxed c h.ident h.lev dead df) ∧
      BOk env h.ident c ∧ contents c = h.raw ∧ dead = deads h.raw ∧ df = h.dflt := by
  cases h with
  | inline ps ident d =>
    obtain ⟨c, e, hb, hc⟩ := promote_ok (Tb := Tb) ct hk
    exact ⟨c, 0, none, e, hb, hc, (deads_map ps).symm, rfl⟩
  | boxed c i l d f => exact ⟨c, d, f, rfl, hk.1, rfl, hk.2, rfl⟩

/-- `delete` -/
theorem remove_ok (ct : Contract env) {h : H Tb K V} (hk : Hok env h) (k : K) :
    ∃ h', h.remove env k = some (h', lookup env h.ident k h.content) ∧ Hok env h' ∧
      h'.content = del env h.ident k h.content ∧ Kept h h' ∧
      (h.iterActive = true → Stable h.raw h'.raw) := by
  unfold H.remove
  cases ha : h.iterActive with
  | true =>
    simp only [if_true]
    obtain ⟨c, dead, df, e, hb, hc, hd, hf⟩ := boxed_ok ct hk
    rw [e]
    obtain ⟨c', o, e1, hb', ho, hl, hds, hst⟩ := btomb_ok ct hb k
    rw [hc] at ho hl hds hst
    rw [← content_live] at ho hl
    simp only [e1, Option.map_some]
    subst ho
    refine ⟨_, rfl, ⟨hb', ?_⟩, ?_, ⟨rfl, hf, rfl⟩, fun _ => hst⟩
    · rw [hds, hd]
    · rw [content_live]; exact hl
  | false =>
    simp only [Bool.false_eq_true, if_false]
    cases h with
    | inline ps ident d =>
      obtain ⟨hl, hd3, hp, hd⟩ := hk
      simp only [H.ident, H.content]
      cases e : inlinePos env ident ps k with
      | none =>
        have hm := inlinePos_none ct hp e
        rw [hm.lookup, hm.del]
        exact ⟨_, rfl, ⟨hl, hd3, hp, hd⟩, rfl, ⟨rfl, rfl, rfl⟩, by intro h; cases h⟩
      | some i =>
        obtain ⟨A, v', B, rfl, rfl, hit⟩ := inlinePos_some ct hd e
        simp only []
        have er : (A ++ (k, v') :: B).eraseIdx A.length = A ++ B := by
          rw [List.eraseIdx_append_of_length_le (Nat.le_refl _)]; simp
        rw [er, hit.lookup, hit.del]
        have sub : (A ++ B).Sublist (A ++ (k, v') :: B) :=
          List.Sublist.append (List.Sublist.refl _) (List.sublist_cons_self _ _)
        refine ⟨.inline (A ++ B) ident d, by simp, ⟨?_, hd3, ?_, hd.sublist sub⟩, rfl, ⟨rfl, rfl, rfl⟩, by intro h; cases h⟩
        · have := sub.length_le; omega
        · intro hi p hpm; exact hp hi p (sub.subset hpm)
    | boxed c ident lev dead df =>
      simp only []
      obtain ⟨h1, e1, hk1, hc1, kp1, hd1, hbx⟩ := compact_ok ct hk
      obtain ⟨c1, rfl⟩ := hbx _ _ _ _ _ rfl
      rw [e1]
      simp only []
      have hraw : deads (contents c1) = 0 := hd1
      obtain ⟨c', o, e2, hb', r⟩ := bRemove_ok ct hk1.1 (deads_zero hraw) k
      simp only [e2, Option.map_some]
      rw [← hc1, content_live]
      simp only [H.raw, H.ident]
      rcases r with ⟨hm, hc, rfl⟩ | ⟨A, k', v', B, r1, r2, rfl, hit⟩
      · rw [hm.lookup, hm.del]
        exact ⟨_, rfl, ⟨hb', by rw [hc]; exact hraw.symm⟩, by rw [content_live]; simp only [H.raw, hc],
          ⟨rfl, rfl, rfl⟩, by intro h; cases h⟩
      · rw [r1] at hraw ⊢
        simp only [live_append, live_some, deads_append, deads_some] at hraw ⊢
        rw [hit.lookup, hit.del]
        refine ⟨_, rfl, ⟨hb', by rw [r2]; simp [hraw]⟩, ?_, ⟨rfl, rfl, rfl⟩, by intro h; cases h⟩
        rw [content_live]; simp only [H.raw, r2, live_append]

theorem firstLive_ok {c : Core Tb (Option K) V} (h : live (contents c) ≠ []) :
    ∃ A k v B, contents c = A ++ (some k, v) :: B ∧ live A = [] ∧
      firstLive c.entries = some A.length := by
  unfold firstLive
  cases e : c.entries.findIdx? (fun b => b.key.isSome) with
  | none =>
    exfalso
    apply h
    rw [List.findIdx?_eq_none_iff] at e
    unfold live contents
    rw [List.filterMap_map, List.filterMap_eq_nil_iff]
    intro b hb
    have := e b hb
    simpa using this
  | some i =>
    obtain ⟨hi, h1, h2⟩ := List.findIdx?_eq_some_iff_getElem.1 e
    obtain ⟨k, hk⟩ := Option.isSome_iff_exists.1 h1
    refine ⟨(contents c).take i, k, c.entries[i].val, (contents c).drop (i + 1), ?_, ?_, ?_⟩
    · have hi' : i < (contents c).length := by simpa [contents] using hi
      have : (contents c)[i] = (some k, c.entries[i].val) := by simp [contents, hk]
      rw [← this, List.getElem_cons_drop, List.take_append_drop]
    · unfold live
      rw [List.filterMap_eq_nil_iff]
      rintro ⟨o, v⟩ hm
      obtain ⟨j, hj⟩ := List.getElem?_of_mem hm
      rw [List.getElem?_take] at hj
      split at hj
      · rename_i hji
        have := h2 j hji
        have hl : j < c.entries.length := by omega
        simp only [contents, List.getElem?_map, List.getElem?_eq_getElem hl, Option.map_some,
          Option.some.injEq, Prod.mk.injEq] at hj
        rw [← hj.1]
        simp only [Bool.not_eq_true, Option.isSome_eq_false_iff, Option.isNone_iff_eq_none] at this
        simp [this]
      · cases hj
    · have : i ≤ (contents c).length := by simp [contents]; omega
      simp [this]

/-- `shift` -/
theorem shift_ok (ct : Contract env) {h : H Tb K V} (hk : Hok env h) :
    ∃ h', h.shift env = some (h', h.content.head?) ∧ Hok env h' ∧ h'.content = h.content.tail ∧
      Kept h h' ∧ (h.iterActive = true → Stable h.raw h'.raw) := by
  unfold H.shift
  rw [len_ok hk]
  split
  · rename_i h0
    have h0 := List.length_eq_zero_iff.1 h0
    rw [h0]
    exact ⟨h, rfl, hk, by rw [h0]; rfl, ⟨rfl, rfl, rfl⟩, fun _ => Stable.refl _⟩
  rename_i hne
  have hne : h.content ≠ [] := by intro h; rw [h] at hne; exact hne rfl
  cases ha : h.iterActive with
  | true =>
    simp only [if_true]
    obtain ⟨c, dead, df, e, hb, hc, hd, hf⟩ := boxed_ok ct hk
    rw [e]
    simp only []
    rw [content_live, ← hc] at hne
    obtain ⟨A, k, v, B, hr, hA, hfl⟩ := firstLive_ok hne
    have hget : (contents c)[A.length]? = some (some k, v) := by rw [hr]; simp
    obtain ⟨h1, h2, h3⟩ := exec_spec ct hb (.tombstoneAt A.length)
      ⟨(some k, v), hget, rfl⟩ trivial
    simp only [Rubymap.exec] at h1 h2 h3
    cases e2 : c.tombstoneIndex A.length none env.nilV with
    | none => rw [e2] at h1; cases h1
    | some r =>
      obtain ⟨c', o⟩ := r
      rw [e2] at h1 h2 h3
      simp only [Rubymap.lift, Rubymap.spec, Res.ok.injEq, Rubymap.Out.popped.injEq] at h1 h2 h3
      rw [hget] at h1
      subst h1
      simp only [hfl, e2]
      have hc' : contents c' = A ++ (none, env.nilV) :: B := by
        rw [h2, hr, List.set_append_right _ _ (Nat.le_refl _)]; simp
      rw [hc] at hr
      rw [content_live, hr]
      simp only [live_append, live_some, hA, List.nil_append, List.head?_cons, List.tail_cons]
      refine ⟨_, rfl, ⟨h3, ?_⟩, ?_, ⟨rfl, hf, rfl⟩, fun _ => ?_⟩
      · rw [hc', hd, hr]; simp; omega
      · rw [content_live]; simp only [H.raw, hc', live_append, hA, live_none, List.nil_append]
      · simp only [H.raw, hc']; exact Stable.mid (Or.inl rfl)
  | false =>
    simp only [Bool.false_eq_true, if_false]
    cases h with
    | inline ps ident d =>
      obtain ⟨hl, hd3, hp, hd⟩ := hk
      cases ps with
      | nil => exact absurd rfl hne
      | cons p ps =>
        refine ⟨_, rfl, ⟨?_, hd3, ?_, ?_⟩, rfl, ⟨rfl, rfl, rfl⟩, by intro h; cases h⟩
        · simp at hl ⊢; omega
        · intro hi q hq; exact hp hi q (by simp at hq; simp [hq])
        · exact List.Pairwise.of_cons hd
    | boxed c ident lev dead df =>
      simp only []
      obtain ⟨h1, e1, hk1, hc1, kp1, hd1, hbx⟩ := compact_ok ct hk
      obtain ⟨c1, rfl⟩ := hbx _ _ _ _ _ rfl
      rw [e1, ← hc1]
      rw [← hc1] at hne
      simp only []
      have hraw : deads (contents c1) = 0 := hd1
      obtain ⟨h1, h2, h3⟩ := exec_spec ct hk1.1 (.shiftRemoveAt 0) (deads_zero hraw) trivial
      simp only [Rubymap.exec] at h1 h2 h3
      cases e2 : c1.shiftRemoveIndex 0 with
      | none => rw [e2] at h1; cases h1
      | some r =>
        obtain ⟨c', o⟩ := r
        rw [e2] at h1 h2 h3
        simp only [Rubymap.lift, Rubymap.spec, Res.ok.injEq, Rubymap.Out.popped.injEq] at h1 h2 h3
        rw [content_live] at hne ⊢
        simp only [H.raw] at hne ⊢
        cases hcc : contents c1 with
        | nil => rw [hcc] at hne; exact absurd rfl hne
        | cons p t =>
          rw [hcc] at h1 h2 hraw
          obtain ⟨o', v⟩ := p
          cases o' with
          | none => simp at hraw
          | some k =>
            simp only [List.getElem?_cons_zero] at h1
            subst h1
            simp only [List.eraseIdx_cons_zero] at h2
            simp only [live_some, List.head?_cons, List.tail_cons, deads_some] at hraw ⊢
            refine ⟨_, rfl, ⟨h3, by rw [h2]; exact hraw.symm⟩, ?_, ⟨rfl, rfl, rfl⟩,
              by intro h; cases h⟩
            rw [content_live]; simp only [H.raw, h2]

/-- `clear` -/
theorem clear_ok' {h : H Tb K V} (ct : Contract env) (hk : Hok env h) :
    (h.iterActive = true ∧ h.clear = .error .modify) ∨
    (h.iterActive = false ∧ ∃ h', h.clear = .ok h' ∧ Hok env h' ∧ h'.content = [] ∧ Kept h h' ∧
      h'.raw = []) := by
  unfold H.clear
  cases ha : h.iterActive with
  | true => exact Or.inl ⟨rfl, rfl⟩
  | false =>
    right
    refine ⟨rfl, ?_⟩
    simp only [Bool.false_eq_true, if_false]
    cases h with
    | inline ps ident d =>
      refine ⟨_, rfl, ⟨by simp, hk.2.1, (by intro _ p hp; cases hp), List.Pairwise.nil⟩, rfl,
        ⟨rfl, rfl, rfl⟩, rfl⟩
    | boxed c ident lev dead df =>
      cases df with
      | none =>
        have hl : lev = 0 := by simpa [H.iterActive] using ha
        refine ⟨_, rfl, ⟨by simp, by simp, (by intro _ p hp; cases hp), List.Pairwise.nil⟩, rfl,
          ⟨rfl, rfl, hl.symm⟩, rfl⟩
      | some w =>
        obtain ⟨_, _, h3⟩ := exec_spec ct hk.1 .clear trivial trivial
        refine ⟨_, rfl, ⟨h3, rfl⟩, rfl, ⟨rfl, rfl, rfl⟩, rfl⟩

/-- `default=` -/
theorem setDefault_ok (ct : Contract env) {h : H Tb K V} (hk : Hok env h) (d : Option V) :
    ∃ h', h.setDefault env d = some h' ∧ Hok env h' ∧ h'.raw = h.raw ∧ h'.ident = h.ident ∧
      h'.dflt = d ∧ h'.lev = h.lev := by
  cases d with
  | none =>
    cases h with
    | inline ps ident d => exact ⟨_, rfl, hk, rfl, rfl, rfl, rfl⟩
    | boxed c i l d f => exact ⟨_, rfl, hk, rfl, rfl, rfl, rfl⟩
  | some w =>
    cases h with
    | boxed c i l d f => exact ⟨_, rfl, hk, rfl, rfl, rfl, rfl⟩
    | inline ps ident d =>
      obtain ⟨c, e, hb, hc⟩ := promote_ok (Tb := Tb) ct hk
      refine ⟨.boxed c ident d 0 (some w), by simp only [H.setDefault, H.ident, e], ⟨hb, ?_⟩, hc, rfl, rfl, rfl⟩
      rw [hc, deads_map]

theorem Distinct.toIdent (ct : Contract env) {ident : Bool} {l : List (K × V)}
    (h : Distinct env ident l) : Distinct env true l := by
  unfold Distinct at *
  refine h.imp ?_
  intro a b hab
  unfold same
  simp only [if_true, decide_eq_false_iff_not]
  intro e
  rw [e, same_refl ct] at hab
  cases hab

/-- `compare_by_identity` -/
theorem compareByIdentity_ok (ct : Contract env) {h : H Tb K V} (hk : Hok env h) :
    (h.iterActive = true ∧ h.compareByIdentity env = some (.error .modify)) ∨
    (h.iterActive = false ∧ ∃ h', h.compareByIdentity env = some (.ok h') ∧ Hok env h' ∧
      h'.content = h.content ∧ h'.ident = true ∧ h'.dflt = h.dflt ∧ h'.lev = h.lev) := by
  unfold H.compareByIdentity
  cases ha : h.iterActive with
  | true => exact Or.inl ⟨rfl, rfl⟩
  | false =>
    right
    refine ⟨rfl, ?_⟩
    simp only [Bool.false_eq_true, if_false]
    obtain ⟨h1, e1, hk1, hc1, kp1, hd1, hbx⟩ := compact_ok ct hk
    rw [e1, ← hc1, ← kp1.dflt, ← kp1.lev]
    have hdis := hk1.distinct
    cases h1 with
    | inline ps i d =>
      refine ⟨_, rfl, ⟨hk1.1, hk1.2.1, (by intro h; cases h), hdis.toIdent ct⟩, rfl, rfl, rfl, rfl⟩
    | boxed c i l d f =>
      cases i with
      | true => exact ⟨_, rfl, hk1, rfl, rfl, rfl, rfl⟩
      | false =>
        obtain ⟨c', e, hb, hc⟩ := bInsertAll_ok (ident := true) ct
          (H.content (.boxed c false l d f)) (Core.new : Core Tb (Option K) V) BOk.new
          (hdis.toIdent ct)
        have hc : contents c' = (H.content (.boxed c false l d f)).map (fun p => (some p.1, p.2)) := by
          rw [hc]; rfl
        have e' : bInsertAll env true (Core.new : Core Tb (Option K) V)
          (c.entries.filterMap (fun b => b.key.map (fun k => (k, b.val)))) = some c' := e
        simp only [e', Option.map_some]
        have hz : deads (contents c) = 0 := hd1
        refine ⟨_, rfl, ⟨hb, ?_⟩, ?_, rfl, rfl, rfl⟩
        · rw [hc, deads_map, hk1.2, hz]
        · rw [content_live]; simp only [H.raw, hc, live_map]

/-- `Set#replace` and the like -/
theorem resetMode_ok (ct : Contract env) {h : H Tb K V} (hk : Hok env h) (b : Bool) :
    (h.iterActive = true ∧ h.resetMode b = some (.error .modify)) ∨
    (h.iterActive = false ∧ ∃ h', h.resetMode b = some (.ok h') ∧ Hok env h' ∧
      h'.content = [] ∧ h'.ident = b ∧ h'.dflt = h.dflt ∧ h'.lev = h.lev) := by
  unfold H.resetMode
  rcases clear_ok' ct hk with ⟨ha, e⟩ | ⟨ha, h1, e, hk1, hc1, kp1, hr1⟩
  · rw [e]; exact Or.inl ⟨ha, rfl⟩
  · right
    refine ⟨ha, ?_⟩
    rw [e]
    simp only []
    unfold H.setModeEmpty
    have ha1 : h1.iterActive = false := by
      rw [iterActive_lev, kp1.lev, ← iterActive_lev, ha]
    have hlev : h1.lev = 0 := by rw [iterActive_lev] at ha1; simpa using ha1
    rw [ha1, len_ok hk1, hc1, ← kp1.dflt, ← kp1.lev]
    simp only [Bool.false_eq_true, if_false, List.length_nil, ne_eq, not_true_eq_false]
    cases h1 with
    | inline ps i d =>
      have hp : ps = [] := hc1
      subst hp
      exact ⟨_, rfl, ⟨by simp, hk1.2.1, (by intro _ p hp; cases hp), List.Pairwise.nil⟩, rfl, rfl,
        rfl, rfl⟩
    | boxed c i l d f =>
      simp only []
      have hd0 : d = 0 := by
        have h2 : contents c = [] := hr1
        have := hk1.2; rw [h2] at this; exact this
      split
      · rename_i hb
        exact ⟨_, rfl, hk1, hc1, hb.symm, rfl, rfl⟩
      · rename_i hb
        split
        · rename_i hb2
          subst hb2
          exact ⟨_, rfl, ⟨BOk.new, hd0⟩, rfl, rfl, rfl, rfl⟩
        · rename_i hb2
          have hbf : b = false := by simpa using hb2
          subst hbf
          cases f with
          | some w => exact ⟨_, rfl, ⟨BOk.new, hd0⟩, rfl, rfl, rfl, rfl⟩
          | none =>
            exact ⟨_, rfl, ⟨by simp, by simp, (by intro _ p hp; cases hp), List.Pairwise.nil⟩, rfl,
              rfl, rfl, hlev.symm⟩

/-- `dup` -/
theorem dup_ok (ct : Contract env) {h : H Tb K V} (hk : Hok env h) :
    ∃ h', h.dup = some h' ∧ Hok env h' ∧ h'.content = h.content ∧ h'.ident = h.ident ∧
      h'.dflt = h.dflt ∧ h'.lev = 0 := by
  cases h with
  | inline ps i d => exact ⟨_, rfl, ⟨hk.1, by simp, hk.2.2⟩, rfl, rfl, rfl, rfl⟩
  | boxed c i l d f =>
    unfold H.dup
    simp only []
    split
    · rename_i h0
      obtain ⟨h1, e1, hk1, hc1, kp1, hd1, hbx⟩ := compact_ok ct hk
      obtain ⟨c1, rfl⟩ := hbx _ _ _ _ _ rfl
      simp only [H.compactIfDirty, if_neg (Nat.pos_iff_ne_zero.1 h0)] at e1
      cases e : c.compactTombstones (·.isNone) with
      | none => rw [e] at e1; cases e1
      | some c' =>
        rw [e] at e1
        simp only [Option.map_some, Option.some.injEq, H.boxed.injEq, and_true, true_and] at e1
        subst e1
        exact ⟨_, rfl, hk1, hc1, rfl, rfl, rfl⟩
    · rename_i h0
      have : d = 0 := by omega
      subst this
      exact ⟨_, rfl, hk, rfl, rfl, rfl, rfl⟩

theorem insertAll_ok (ct : Contract env) :
    ∀ (ps : List (K × V)) (h : H Tb K V), Hok env h → h.iterActive = false →
      Distinct env h.ident (h.content ++ ps) →
      ∃ h', h.insertAll env ps = some (.ok h') ∧ Hok env h' ∧ h'.content = h.content ++ ps ∧
        Kept h h'
  | [], h, hk, _, _ => ⟨h, rfl, hk, by simp, ⟨rfl, rfl, rfl⟩⟩
  | (k, v) :: ps, h, hk, ha, hd => by
    rcases insert_ok ct hk k v with ⟨h1, _⟩ | ⟨_, h1, e1, hk1, hc1, kp1, _⟩
    · rw [ha] at h1; cases h1
    · have hm : Miss env h.ident k h.content := by
        intro p hp
        have := (List.pairwise_append.1 hd).2.2 p hp (k, v) (by simp)
        cases es : same env h.ident k p.1 with
        | false => rfl
        | true => simp only at this; rw [same_symm ct es] at this; cases this
      rw [hm.put] at hc1
      obtain ⟨h2, e2, hk2, hc2, kp2⟩ := insertAll_ok ct ps h1 hk1
        (by rw [iterActive_lev, kp1.lev, ← iterActive_lev, ha])
        (by rw [hc1, kp1.ident]; simpa using hd)
      refine ⟨h2, ?_, hk2, by rw [hc2, hc1]; simp, ⟨by rw [kp2.ident, kp1.ident],
        by rw [kp2.dflt, kp1.dflt], by rw [kp2.lev, kp1.lev]⟩⟩
      rw [H.insertAll, e1]; exact e2

/-- `rehash` -/
theorem rehash_ok (ct : Contract env) {h : H Tb K V} (hk : Hok env h) :
    (h.iterActive = true ∧ h.rehash env = some (.error .modify)) ∨
    (h.iterActive = false ∧ ∃ h', h.rehash env = some (.ok h') ∧ Hok env h' ∧
      h'.content = h.content ∧ Kept h h') := by
  unfold H.rehash
  rcases clear_ok' ct hk with ⟨ha, e⟩ | ⟨ha, h1, e, hk1, hc1, kp1, _⟩
  · rw [e]; exact Or.inl ⟨ha, rfl⟩
  · rw [e]
    right
    refine ⟨ha, ?_⟩
    obtain ⟨h2, e2, hk2, hc2, kp2⟩ := insertAll_ok ct h.content h1 hk1
      (by rw [iterActive_lev, kp1.lev, ← iterActive_lev, ha])
      (by rw [hc1, kp1.ident]; exact hk.distinct)
    exact ⟨h2, e2, hk2, by rw [hc2, hc1]; rfl, ⟨by rw [kp2.ident, kp1.ident],
        by rw [kp2.dflt, kp1.dflt], by rw [kp2.lev, kp1.lev]⟩⟩

theorem entryAt_raw (h : H Tb K V) (i : Nat) :
    h.entryAt i = h.raw[i]?.bind (fun p => p.1.map (fun k => (k, p.2))) := by
  cases h with
  | inline ps id d =>
    simp only [H.entryAt, H.raw, List.getElem?_map]
    cases ps[i]? <;> rfl
  | boxed c id l d f =>
    simp only [H.entryAt, H.raw, contents, List.getElem?_map]
    cases c.entries[i]? <;> rfl

theorem entryCount_raw (h : H Tb K V) : h.entryCount = h.raw.length := by
  cases h <;> simp [H.entryCount, H.raw, contents]

/-- storing by position -/
theorem setValueAt_ok (ct : Contract env) {h : H Tb K V} (hk : Hok env h) {i : Nat} {v : V} :
    Hok env (h.setValueAt i v) ∧ Kept h (h.setValueAt i v) ∧
      Stable h.raw (h.setValueAt i v).raw ∧
      (h.setValueAt i v).raw = h.raw.modify i (fun p => if p.1.isSome then (p.1, v) else p) := by
  have hr : (h.setValueAt i v).raw = h.raw.modify i (fun p => if p.1.isSome then (p.1, v) else p) := by
    apply List.ext_getElem?
    intro j
    rw [List.getElem?_modify]
    cases h with
    | inline ps id d =>
      simp only [H.setValueAt, H.raw, List.getElem?_map, List.getElem?_modify]
      cases ps[j]? with
      | none => rfl
      | some p => simp only [Option.map_some]; split <;> rfl
    | boxed c id l d f =>
      simp only [H.setValueAt, H.raw, contents, List.getElem?_map, List.getElem?_modify]
      cases c.entries[j]? with
      | none => rfl
      | some p =>
        by_cases hij : i = j <;> cases hp : p.key <;> simp [hij, hp]
  have hst : Stable h.raw (h.setValueAt i v).raw := by
    rw [hr]
    refine ⟨by simp, ?_⟩
    intro j k
    rw [List.getElem?_modify]
    cases h.raw[j]? with
    | none => simp
    | some p =>
      obtain ⟨o, w⟩ := p
      by_cases hij : i = j <;> cases o <;> simp [hij]
  refine ⟨?_, ?_, hst, hr⟩
  · cases h with
    | inline ps id d =>
      obtain ⟨h1, h2, h3, h4⟩ := hk
      have hmap : (ps.modify i (fun p => (p.1, v))).map (·.1) = ps.map (·.1) := by
        apply List.ext_getElem?
        intro j
        rw [List.getElem?_map, List.getElem?_modify, List.getElem?_map]
        cases ps[j]? with
        | none => rfl
        | some p => simp only [Option.map_some]; split <;> rfl
      refine ⟨by simpa using h1, h2, ?_, ?_⟩
      · intro hi p hp
        have : p.1 ∈ (ps.modify i (fun p => (p.1, v))).map (·.1) := List.mem_map.2 ⟨p, hp, rfl⟩
        rw [hmap] at this
        obtain ⟨q, hq, e⟩ := List.mem_map.1 this
        rw [← e]; exact h3 hi q hq
      · unfold Distinct at h4 ⊢
        have h4 : (ps.map (·.1)).Pairwise (fun a b => same env id a b = false) :=
          List.pairwise_map.2 h4
        rw [← hmap] at h4
        exact List.pairwise_map.1 h4
    | boxed c id l d f =>
      obtain ⟨hb, hd⟩ := hk
      have src : ∀ (j : Nat) (b : Bucket (Option K) V), (c.entries.modify i
          (fun b => if b.key.isSome then ⟨b.hash, b.key, v⟩ else b))[j]? = some b →
          ∃ a : Bucket (Option K) V, c.entries[j]? = some a ∧ a.hash = b.hash ∧ a.key = b.key := by
        intro j b hj
        rw [List.getElem?_modify] at hj
        cases e : c.entries[j]? with
        | none => rw [e] at hj; cases hj
        | some a =>
          rw [e] at hj
          refine ⟨a, rfl, ?_⟩
          by_cases hij : i = j <;> cases hk : a.key <;> simp [hij, hk] at hj <;> simp [← hj, hk]
      refine ⟨⟨?_, ?_⟩, ?_⟩
      · have hi := hb.idx
        have hlm : ∀ j, Rubymap.lmap (·.isNone) (c.entries.modify i
            (fun b => if b.key.isSome then ⟨b.hash, b.key, v⟩ else b)) j =
            Rubymap.lmap (·.isNone) c.entries j := by
          intro j
          unfold Rubymap.lmap
          rw [List.getElem?_modify]
          cases c.entries[j]? with
          | none => rfl
          | some a => by_cases hij : i = j <;> cases hk : a.key <;> simp [hij, hk]
        unfold Idx at hi ⊢
        simp only []
        split
        · rename_i hl
          rw [if_pos hl] at hi
          refine ⟨hi.1, ?_⟩
          intro b hbm
          obtain ⟨j, hj⟩ := List.getElem?_of_mem hbm
          obtain ⟨a, ha, _, hkey⟩ := src j b hj
          rw [← hkey]; exact hi.2 a (List.mem_of_getElem? ha)
        · rename_i hl
          rw [if_neg hl] at hi
          exact hi.congr (fun j => (hlm j).symm)
      · refine hb.keys.of_inj (kLaw ct) _root_.id (fun _ _ _ _ e => e) ?_
        intro j b hj hdb
        obtain ⟨a, ha, hh, hkey⟩ := src j b hj
        exact ⟨a, ha, by rw [hkey]; exact hdb, hh, hkey⟩
      · rw [hd]
        have hr' : contents (⟨c.indices, c.linear, c.entries.modify i
          (fun b => if b.key.isSome then ⟨b.hash, b.key, v⟩ else b)⟩ : Core Tb (Option K) V) =
          (contents c).modify i (fun p => if p.1.isSome then (p.1, v) else p) := hr
        rw [hr']
        have hm : ((contents c).modify i (fun p => if p.1.isSome then (p.1, v) else p)).map (·.1) =
            (contents c).map (·.1) := by
          apply List.ext_getElem?
          intro j
          rw [List.getElem?_map, List.getElem?_modify, List.getElem?_map]
          cases (contents c)[j]? with
          | none => rfl
          | some p =>
            obtain ⟨o, w⟩ := p
            by_cases hij : i = j <;> cases o <;> simp [hij]
        have cnt : ∀ l : List (Option K × V), deads l = (l.map (·.1)).countP (·.isNone) := by
          intro l; unfold deads; rw [List.countP_map]; rfl
        rw [cnt, cnt, hm]
  · cases h <;> exact ⟨rfl, rfl, rfl⟩

end Verif.Hash
