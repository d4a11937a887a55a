import Verif.Hash.Spec
import Verif.Rubymap.Refine

/-! # Lemmas about the Hash model -/

namespace Verif.Hash

open Verif.Rubymap (Table Core Bucket KeyEq Res Lawful Keys Idx Clean pairs contents)

variable {Tb : Table} {K V : Type} [DecidableEq K] {env : Env K V} {ident : Bool}

/-- the live pairs of an entry vector -/
def live (l : List (Option K × V)) : List (K × V) :=
  l.filterMap (fun p => p.1.map (fun k => (k, p.2)))

@[simp] theorem live_nil : live ([] : List (Option K × V)) = [] := rfl
@[simp] theorem live_append (a b : List (Option K × V)) : live (a ++ b) = live a ++ live b := by
  simp [live]
@[simp] theorem live_some (k : K) (v : V) (l : List (Option K × V)) :
    live ((some k, v) :: l) = (k, v) :: live l := by simp [live]
@[simp] theorem live_none (v : V) (l : List (Option K × V)) :
    live ((none, v) :: l) = live l := by simp [live]

theorem live_map (l : List (K × V)) : live (l.map (fun p => (some p.1, p.2))) = l := by
  induction l with
  | nil => rfl
  | cons p l ih => simp [ih]

theorem mem_live {l : List (Option K × V)} {k : K} {v : V} :
    (k, v) ∈ live l ↔ (some k, v) ∈ l := by
  simp only [live, List.mem_filterMap, Option.map_eq_some_iff, Prod.mk.injEq]
  constructor
  · rintro ⟨⟨o, w⟩, h1, x, h2, rfl, rfl⟩
    simp only at h2; subst h2; exact h1
  · intro h; exact ⟨_, h, k, rfl, rfl, rfl⟩

/-- Keys are pairwise different in the given mode. -/
def Distinct (env : Env K V) (ident : Bool) (l : List (K × V)) : Prop :=
  l.Pairwise (fun a b => same env ident a.1 b.1 = false)

theorem same_refl (ct : Contract env) (a : K) : same env ident a a = true := by
  unfold same; split
  · simp
  · exact ct.refl a

theorem same_symm (ct : Contract env) {a b : K} (h : same env ident a b = true) :
    same env ident b a = true := by
  unfold same at *; split at h
  · rename_i hi; simp only [hi, if_true]; simpa [eq_comm] using h
  · rename_i hi; simp only [hi]; exact ct.symm _ _ h

theorem same_trans (ct : Contract env) {a b c : K} (h : same env ident a b = true)
    (h' : same env ident b c = true) : same env ident a c = true := by
  unfold same at *; split at h
  · rename_i hi; simp only [hi, if_true] at *; simp at h h'; simp [h, h']
  · rename_i hi; simp only [hi] at *; exact ct.trans _ _ _ h h'

theorem kLaw (ct : Contract env) :
    Lawful (kEq env ident) (optEq env ident) (optHash env ident) where
  pure := fun _ _ _ => rfl
  refl := by
    intro a; cases a with
    | none => rfl
    | some a => exact same_refl (ident := ident) ct a
  symm := by
    rintro (_ | a) (_ | b) h
    · rfl
    · cases h
    · cases h
    · exact same_symm (ident := ident) ct h
  trans := by
    rintro (_ | a) (_ | b) (_ | c) h h' <;>
      first | rfl | (cases h; done) | (cases h'; done) | exact same_trans (ident := ident) ct h h'
  hash := by
    rintro (_ | a) (_ | b) h
    · rfl
    · cases h
    · cases h
    · have h : same env ident a b = true := h
      unfold same at h
      unfold optHash
      cases ident with
      | true => simp at h; simp [h]
      | false => exact ct.hash _ _ h

/-! ## Hits and misses in a plain list -/

/-- `k` is found exactly at the pair `(k', v')`. -/
structure Hit (env : Env K V) (ident : Bool) (k : K) (a : List (K × V)) (k' : K)
    (b : List (K × V)) : Prop where
  eq : same env ident k k' = true
  left : ∀ p ∈ a, same env ident k p.1 = false
  right : ∀ p ∈ b, same env ident k p.1 = false

theorem Hit.of_distinct (ct : Contract env) {k k' : K} {v' : V} {a b : List (K × V)}
    (h : same env ident k k' = true) (d : Distinct env ident (a ++ (k', v') :: b)) :
    Hit env ident k a k' b := by
  unfold Distinct at d
  rw [List.pairwise_append] at d
  obtain ⟨_, d2, d3⟩ := d
  rw [List.pairwise_cons] at d2
  refine ⟨h, ?_, ?_⟩
  · intro p hp
    have := d3 p hp (k', v') (by simp)
    cases e : same env ident k p.1 with
    | false => rfl
    | true => rw [same_trans ct (same_symm ct e) h] at this; cases this
  · intro p hp
    have := d2.1 p hp
    cases e : same env ident k p.1 with
    | false => rfl
    | true => rw [same_trans ct (same_symm ct h) e] at this; cases this

variable {k k' : K} {v v' : V} {a b : List (K × V)}

theorem Hit.present (h : Hit env ident k a k' b) :
    present env ident k (a ++ (k', v') :: b) = true := by
  simp [Hash.present, h.eq]

theorem Hit.lookup (h : Hit env ident k a k' b) :
    lookup env ident k (a ++ (k', v') :: b) = some v' := by
  unfold Hash.lookup
  rw [List.find?_append, List.find?_eq_none.2 (by intro p hp; simp [h.left p hp])]
  simp [h.eq]

theorem Hit.put (h : Hit env ident k a k' b) :
    put env ident k v (a ++ (k', v') :: b) = a ++ (k', v) :: b := by
  unfold Hash.put
  rw [if_pos h.present, List.map_append, List.map_cons]
  congr 1
  · conv_rhs => rw [← List.map_id a]
    exact List.map_congr_left (fun p hp => by simp [h.left p hp])
  · rw [if_pos h.eq]
    congr 1
    conv_rhs => rw [← List.map_id b]
    exact List.map_congr_left (fun p hp => by simp [h.right p hp])

theorem Hit.del (h : Hit env ident k a k' b) :
    del env ident k (a ++ (k', v') :: b) = a ++ b := by
  unfold Hash.del
  rw [List.filter_append, List.filter_cons, if_neg (by simp [h.eq])]
  congr 1
  · exact List.filter_eq_self.2 (fun p hp => by simp [h.left p hp])
  · exact List.filter_eq_self.2 (fun p hp => by simp [h.right p hp])

/-- `k` is not a key. -/
def Miss (env : Env K V) (ident : Bool) (k : K) (l : List (K × V)) : Prop :=
  ∀ p ∈ l, same env ident k p.1 = false

variable {l : List (K × V)}

theorem Miss.present (h : Miss env ident k l) : present env ident k l = false := by
  simp only [Hash.present, List.any_eq_false]
  intro p hp; simp [h p hp]

theorem Miss.lookup (h : Miss env ident k l) : lookup env ident k l = none := by
  unfold Hash.lookup
  rw [List.find?_eq_none.2 (by intro p hp; simp [h p hp])]; rfl

theorem Miss.put (h : Miss env ident k l) : put env ident k v l = l ++ [(k, v)] := by
  unfold Hash.put; simp [h.present]

theorem Miss.del (h : Miss env ident k l) : del env ident k l = l := by
  unfold Hash.del
  exact List.filter_eq_self.2 (fun p hp => by simp [h p hp])

/-! ## Hits and misses in an entry vector -/

theorem find_some {r : List (Option K × V)} {i : Nat}
    (h : Rubymap.find (·.isNone) (optEq env ident) (some k) r = some i) :
    ∃ A k' v' B, r = A ++ (some k', v') :: B ∧ A.length = i ∧ same env ident k k' = true := by
  unfold Rubymap.find at h
  obtain ⟨hi, h1, _⟩ := List.findIdx?_eq_some_iff_getElem.1 h
  rcases hr : r[i] with ⟨o, w⟩
  rw [hr] at h1
  cases o with
  | none => simp at h1
  | some x =>
    refine ⟨r.take i, x, w, r.drop (i + 1), ?_, by simp; omega, ?_⟩
    · rw [← hr, List.getElem_cons_drop, List.take_append_drop]
    · simpa [optEq, same] using h1

theorem find_none {r : List (Option K × V)}
    (h : Rubymap.find (·.isNone) (optEq env ident) (some k) r = none) :
    Miss env ident k (live r) := by
  unfold Rubymap.find at h
  rw [List.findIdx?_eq_none_iff] at h
  rintro ⟨x, w⟩ hx
  have := h _ (mem_live.1 hx)
  simpa [optEq, same] using this

/-! ## The boxed map -/

/-- The boxed map is well-formed. -/
structure BOk (env : Env K V) (ident : Bool) (c : Core Tb (Option K) V) : Prop where
  idx : Idx (·.isNone) c
  keys : Keys (·.isNone) (optEq env ident) (optHash env ident) c.entries

theorem BOk.distinct {c : Core Tb (Option K) V} (h : BOk env ident c) :
    Distinct env ident (live (contents c)) := by
  have := h.keys.uniq
  unfold Distinct live contents
  rw [List.filterMap_map, List.pairwise_filterMap]
  refine this.imp ?_
  intro x y hxy p hp q hq
  simp only [Function.comp, Option.map_eq_some_iff] at hp hq
  obtain ⟨a, ha, rfl⟩ := hp
  obtain ⟨b, hb, rfl⟩ := hq
  have := hxy (by simp [ha]) (by simp [hb])
  rw [ha, hb] at this
  simpa [optEq, same] using this

theorem BOk.new : BOk env ident (Core.new : Core Tb (Option K) V) :=
  ⟨by
    have := Rubymap.withCapacity_ok (Tb := Tb) (V := V) (dead := fun o : Option K => o.isNone) 0
    simp only [Core.withCapacity, Rubymap.AR_MAX, Nat.zero_le, if_true] at this
    exact this,
   ⟨(by intro b hb; cases hb), (by exact List.Pairwise.nil)⟩⟩

theorem BOk.withCapacity (n : Nat) : BOk env ident (Core.withCapacity n : Core Tb (Option K) V) :=
  ⟨Rubymap.withCapacity_ok n, by
    unfold Core.withCapacity
    split <;> exact ⟨(by intro b hb; cases hb), (by exact List.Pairwise.nil)⟩⟩

/-- Where a key is, seen from the index and from the list. -/
theorem bFind_ok (ct : Contract env) {c : Core Tb (Option K) V} (h : BOk env ident c) (k : K) :
    bFind env ident c k = some (Rubymap.find (·.isNone) (optEq env ident) (some k) (contents c)) := by
  have := (Rubymap.getIndexOf_ok h.idx (kEq env ident) (optHash env ident (some k)) (some k) ()).lawful
    _ _ (kLaw ct) h.keys rfl
  unfold bFind
  rcases e : c.getIndexOf (kEq env ident) (optHash env ident (some k)) (some k) () with ⟨_, r⟩
  rw [e] at this
  simp only at this
  subst this
  show some _ = some _
  rw [← Rubymap.find_pairs]; rfl

/-- The ordered map follows its specification. -/
theorem exec_spec (ct : Contract env) {c : Core Tb (Option K) V} (h : BOk env ident c)
    (op : Rubymap.Op (Option K) V) (hv : Rubymap.Valid (·.isNone) (contents c) op)
    (hf : Rubymap.Fresh (·.isNone) (optEq env ident) (contents c) op) :
    let r := Rubymap.exec (·.isNone) none env.nilV (kEq env ident)
      (fun _ => optHash env ident) c () op
    let q := Rubymap.spec (·.isNone) none env.nilV (optEq env ident) (contents c) op
    r.2.2 = .ok q.2 ∧ contents r.1 = q.1 ∧ BOk env ident r.1 := by
  have st := Rubymap.exec_ok (eq := kEq env ident) (dk := none) (dv := env.nilV)
    (hf := fun _ => optHash env ident) rfl h.idx op hv ()
  obtain ⟨h1, h2, h3⟩ := st.follows _ _ (kLaw ct) (fun _ _ => rfl) h.keys hf
  exact ⟨h1, h2, st.idx, h3⟩

theorem mapRes_ok {α : Type} {f : α → Rubymap.Out (Option K) V} {r : Res Empty α}
    {o : Rubymap.Out (Option K) V} (h : Rubymap.mapRes f r = .ok o) : ∃ x, r = .ok x ∧ f x = o := by
  cases r with
  | ok x => simp only [Rubymap.mapRes, Res.ok.injEq] at h; exact ⟨x, rfl, h⟩
  | raise e => cases h
  | panic => cases h

theorem modify_mid {α : Type} (A : List α) (x : α) (B : List α) (f : α → α) :
    (A ++ x :: B).modify A.length f = A ++ f x :: B := by
  induction A with
  | nil => rfl
  | cons a A ih => simp [ih]

theorem bInsert_ok (ct : Contract env) {c : Core Tb (Option K) V} (h : BOk env ident c) (k : K)
    (v : V) :
    ∃ c', bInsert env ident c k v = some c' ∧ BOk env ident c' ∧
      ((Miss env ident k (live (contents c)) ∧ contents c' = contents c ++ [(some k, v)]) ∨
       ∃ A k' v' B, contents c = A ++ (some k', v') :: B ∧ contents c' = A ++ (some k', v) :: B ∧
         Hit env ident k (live A) k' (live B)) := by
  obtain ⟨h1, h2, h3⟩ := exec_spec ct h (.insert (some k) v) rfl trivial
  simp only [Rubymap.exec] at h1 h2 h3
  obtain ⟨x, hx, _⟩ := mapRes_ok h1
  unfold bInsert
  rcases e : c.insertFull (kEq env ident) (optHash env ident (some k)) (some k) v () with ⟨c', u, r⟩
  rw [e] at h2 h3 hx
  simp only at h2 h3 hx
  subst hx
  refine ⟨c', rfl, h3, ?_⟩
  rw [h2]
  simp only [Rubymap.spec]
  cases hf : Rubymap.find (·.isNone) (optEq env ident) (some k) (contents c) with
  | none => exact Or.inl ⟨find_none hf, rfl⟩
  | some i =>
    obtain ⟨A, k', v', B, hr, hA, hs⟩ := find_some hf
    refine Or.inr ⟨A, k', v', B, hr, ?_, ?_⟩
    · simp only [hr]
      rw [← hA, modify_mid]
    · have d := h.distinct
      rw [hr] at d
      simp only [live_append, live_some] at d
      exact Hit.of_distinct ct hs d

theorem bTombstone_ok (ct : Contract env) {c : Core Tb (Option K) V} (h : BOk env ident c)
    (k : K) :
    ∃ c' o, bTombstone env ident c k = some (c', o) ∧ BOk env ident c' ∧
      ((Miss env ident k (live (contents c)) ∧ contents c' = contents c ∧ o = none) ∨
       ∃ A k' v' B, contents c = A ++ (some k', v') :: B ∧
         contents c' = A ++ (none, env.nilV) :: B ∧ o = some v' ∧
         Hit env ident k (live A) k' (live B)) := by
  obtain ⟨h1, h2, h3⟩ := exec_spec ct h (.tombstone (some k)) trivial trivial
  simp only [Rubymap.exec] at h1 h2 h3
  obtain ⟨x, hx, hx2⟩ := mapRes_ok h1
  unfold bTombstone
  rcases e : c.tombstoneRemoveFull (kEq env ident) (optHash env ident (some k)) (some k) none
    env.nilV () with ⟨c', u, r⟩
  rw [e] at h2 h3 hx
  simp only at h2 h3 hx
  subst hx
  refine ⟨c', _, rfl, h3, ?_⟩
  rw [h2]
  simp only [Rubymap.spec] at hx2 ⊢
  cases hf : Rubymap.find (·.isNone) (optEq env ident) (some k) (contents c) with
  | none =>
    rw [hf] at hx2
    simp only [Rubymap.Out.removed.injEq] at hx2
    subst hx2
    exact Or.inl ⟨find_none hf, rfl, rfl⟩
  | some i =>
    obtain ⟨A, k', v', B, hr, hA, hs⟩ := find_some hf
    rw [hf] at hx2
    simp only [Rubymap.Out.removed.injEq] at hx2
    rw [hr, ← hA] at hx2
    simp only [List.getElem?_append_right (Nat.le_refl _), Nat.sub_self, List.getElem?_cons_zero,
      Option.map_some] at hx2
    subst hx2
    refine Or.inr ⟨A, k', v', B, hr, ?_, rfl, ?_⟩
    · simp only [hr]
      rw [← hA, List.set_append_right _ _ (Nat.le_refl _)]
      simp
    · have d := h.distinct
      rw [hr] at d
      simp only [live_append, live_some] at d
      exact Hit.of_distinct ct hs d

theorem live_eraseIdx (A : List (Option K × V)) (p : Option K × V) (B : List (Option K × V)) :
    (A ++ p :: B).eraseIdx A.length = A ++ B := by
  rw [List.eraseIdx_append_of_length_le (Nat.le_refl _)]; simp

theorem bRemove_ok (ct : Contract env) {c : Core Tb (Option K) V} (h : BOk env ident c)
    (hc : ∀ p ∈ contents c, p.1.isNone = false) (k : K) :
    ∃ c' o, bRemove env ident c k = some (c', o) ∧ BOk env ident c' ∧
      ((Miss env ident k (live (contents c)) ∧ contents c' = contents c ∧ o = none) ∨
       ∃ A k' v' B, contents c = A ++ (some k', v') :: B ∧
         contents c' = A ++ B ∧ o = some v' ∧ Hit env ident k (live A) k' (live B)) := by
  unfold bRemove
  split
  · rename_i he
    refine ⟨c, none, rfl, h, Or.inl ⟨?_, rfl, rfl⟩⟩
    simp [contents, he, Miss]
  · rename_i x he
    have hx : contents c = [(x.key, x.val)] := by simp [contents, he]
    have hlive := hc (x.key, x.val) (by rw [hx]; simp)
    obtain ⟨kx, hkx⟩ : ∃ kx, x.key = some kx := by
      cases hk : x.key with
      | none => simp [hk] at hlive
      | some kx => exact ⟨kx, rfl⟩
    rw [hkx] at hx
    split
    · rename_i hs
      obtain ⟨h1, h2, h3⟩ := exec_spec ct h .pop (fun p hp => hc p hp) trivial
      simp only [Rubymap.exec] at h1 h2 h3
      cases e : c.pop with
      | none => rw [e] at h1; cases h1
      | some r =>
        rw [e] at h1 h2 h3
        simp only [Rubymap.lift, Rubymap.spec, Res.ok.injEq, Rubymap.Out.popped.injEq] at h1 h2 h3
        refine ⟨r.1, r.2.map (·.2), rfl, h3, Or.inr ⟨[], kx, x.val, [], hx, ?_, ?_, ?_⟩⟩
        · rw [h2, hx]; rfl
        · rw [h1, hx]; rfl
        · exact ⟨by rw [hkx] at hs; simpa [optEq, same] using hs, (by simp), (by simp)⟩
    · rename_i hs
      refine ⟨c, none, rfl, h, Or.inl ⟨?_, rfl, rfl⟩⟩
      rw [hx]
      intro p hp
      simp only [live_some, live_nil, List.mem_singleton] at hp
      subst hp
      rw [hkx] at hs
      have hs : ¬ same env ident k kx = true := hs
      simpa using hs
  · obtain ⟨h1, h2, h3⟩ := exec_spec ct h (.shiftRemove (some k)) (fun p hp => hc p hp) trivial
    simp only [Rubymap.exec] at h1 h2 h3
    obtain ⟨x, hx, hx2⟩ := mapRes_ok h1
    rcases e : c.shiftRemoveFull (kEq env ident) (optHash env ident (some k)) (some k) ()
      with ⟨c', u, r⟩
    rw [e] at h2 h3 hx
    simp only at h2 h3 hx
    subst hx
    refine ⟨c', _, rfl, h3, ?_⟩
    rw [h2]
    simp only [Rubymap.spec] at hx2 ⊢
    cases hf : Rubymap.find (·.isNone) (optEq env ident) (some k) (contents c) with
    | none =>
      rw [hf] at hx2
      simp only [Rubymap.Out.removed.injEq] at hx2
      subst hx2
      exact Or.inl ⟨find_none hf, rfl, rfl⟩
    | some i =>
      obtain ⟨A, k', v', B, hr, hA, hs⟩ := find_some hf
      rw [hf] at hx2
      simp only [Rubymap.Out.removed.injEq] at hx2
      rw [hr, ← hA] at hx2
      simp only [List.getElem?_append_right (Nat.le_refl _), Nat.sub_self,
        List.getElem?_cons_zero, Option.map_some] at hx2
      subst hx2
      refine Or.inr ⟨A, k', v', B, hr, ?_, rfl, ?_⟩
      · simp only [hr]
        rw [← hA, live_eraseIdx]
      · have d := h.distinct
        rw [hr] at d
        simp only [live_append, live_some] at d
        exact Hit.of_distinct ct hs d

theorem bInsertAll_ok (ct : Contract env) :
    ∀ (ps : List (K × V)) (c : Core Tb (Option K) V), BOk env ident c →
      Distinct env ident (live (contents c) ++ ps) →
      ∃ c', bInsertAll env ident c ps = some c' ∧ BOk env ident c' ∧
        contents c' = contents c ++ ps.map (fun p => (some p.1, p.2))
  | [], c, h, _ => ⟨c, rfl, h, by simp⟩
  | (k, v) :: ps, c, h, d => by
    obtain ⟨c1, e1, h1, r⟩ := bInsert_ok ct h k v
    have hm : contents c1 = contents c ++ [(some k, v)] := by
      rcases r with ⟨_, r⟩ | ⟨A, k', v', B, r1, r2, hit⟩
      · exact r
      · exfalso
        unfold Distinct at d
        have := (List.pairwise_append.1 d).2.2 (k', v')
          (by rw [r1]; simp) (k, v) (by simp)
        simp only at this
        rw [same_symm ct hit.eq] at this
        cases this
    obtain ⟨c2, e2, h2, r2⟩ := bInsertAll_ok ct ps c1 h1 (by rw [hm]; simpa using d)
    refine ⟨c2, ?_, h2, ?_⟩
    · rw [bInsertAll, e1]; exact e2
    · rw [r2, hm]; simp

end Verif.Hash
