import Verif.Hash.Ops

/-! # The Hash with its traversals follows the specification -/

namespace Verif.Hash

open Verif.Rubymap (Table Core Bucket)

variable {Tb : Table} {K V : Type} [DecidableEq K] {env : Env K V}

/-- the key at a position -/
def keyAt (r : List (Option K × V)) (i : Nat) : Option K := r[i]?.bind (·.1)

theorem keyAt_some {r : List (Option K × V)} {i : Nat} {k : K} (h : keyAt r i = some k) :
    ∃ v, r[i]? = some (some k, v) := by
  unfold keyAt at h
  cases e : r[i]? with
  | none => rw [e] at h; cases h
  | some p => rw [e] at h; obtain ⟨o, v⟩ := p; simp at h; exact ⟨v, by rw [h]⟩

theorem mem_keys_live {r : List (Option K × V)} {k : K} :
    k ∈ (live r).map (·.1) ↔ ∃ i, keyAt r i = some k := by
  constructor
  · intro h
    obtain ⟨⟨x, v⟩, hp, rfl⟩ := List.mem_map.1 h
    obtain ⟨i, hi⟩ := List.getElem?_of_mem (mem_live.1 hp)
    exact ⟨i, by simp [keyAt, hi]⟩
  · rintro ⟨i, hi⟩
    obtain ⟨v, hv⟩ := keyAt_some hi
    exact List.mem_map.2 ⟨(k, v), mem_live.2 (List.mem_of_getElem? hv), rfl⟩

/-- A running traversal and its specification; `rs` are the keys by position when it
began. -/
def CurRel (r : List (Option K × V)) (c : Cursor) (ac : ACur K) : Prop :=
  ∃ rs : List (Option K), rs.length = r.length ∧
    (∀ i k, keyAt r i = some k → rs[i]? = some (some k)) ∧
    (∀ (i j : Nat) (k : K), rs[i]? = some (some k) → rs[j]? = some (some k) → i = j) ∧
    ac.todo = (rs.drop c.pos).filterMap id ∧
    (∀ i, c.cur = some i → ∃ k, rs[i]? = some (some k) ∧ ac.last = some k) ∧
    (c.cur = none → ac.last = none)

theorem CurRel.stable {r r' : List (Option K × V)} {c : Cursor} {ac : ACur K}
    (h : CurRel r c ac) (s : Stable r r') : CurRel r' c ac := by
  obtain ⟨rs, h1, h2, h3⟩ := h
  exact ⟨rs, by rw [h1, s.1], fun i k e => h2 i k (s.2 i k e), h3⟩

/-- The abstraction relation. -/
structure R (env : Env K V) (s : Sys Tb K V) (a : ASys K V) : Prop where
  ok : Hok env s.h
  pairs : s.h.content = a.pairs
  ident : s.h.ident = a.ident
  dflt : s.h.dflt = a.dflt
  len : s.curs.length = a.curs.length
  lev : s.h.lev = s.curs.countP (·.real)
  outer : ∀ (i : Nat) (c : Cursor), s.curs[i]? = some c → s.curs.length ≤ i + 3 → c.real = true
  curs : ∀ (i : Nat) (c : Cursor) (ac : ACur K), s.curs[i]? = some c → a.curs[i]? = some ac →
    CurRel s.h.raw c ac

theorem R.active {s : Sys Tb K V} {a : ASys K V} (r : R env s a) :
    s.h.iterActive = true ↔ a.curs ≠ [] := by
  rw [iterActive_lev, decide_eq_true_eq, r.lev, gt_iff_lt, List.countP_pos_iff]
  have hl := r.len
  constructor
  · rintro ⟨c, hc, _⟩ e
    rw [e] at hl
    have := List.length_eq_zero_iff.1 hl
    rw [this] at hc; cases hc
  · intro h
    have hpos : 0 < s.curs.length := by
      rw [hl]; exact List.length_pos_iff.2 h
    have hlt : s.curs.length - 1 < s.curs.length := by omega
    exact ⟨_, List.getElem_mem hlt,
      r.outer _ _ (List.getElem?_eq_getElem hlt) (by omega)⟩

theorem R.inactive {s : Sys Tb K V} {a : ASys K V} (r : R env s a) :
    s.h.iterActive = false ↔ a.curs = [] := by
  rw [← Bool.not_eq_true, r.active]; simp

theorem R.empty {s : Sys Tb K V} {a : ASys K V} (r : R env s a) (h : a.curs = []) :
    s.curs = [] := by
  have := r.len
  rw [h] at this
  exact List.length_eq_zero_iff.1 this

/-- an operation on the Hash that keeps mode, default and counter -/
theorem R.write {s : Sys Tb K V} {a : ASys K V} (r : R env s a) {h' : H Tb K V}
    {ps : List (K × V)} (hk : Hok env h') (kp : Kept s.h h') (hc : h'.content = ps)
    (st : s.h.iterActive = true → Stable s.h.raw h'.raw) :
    R env { s with h := h' } { a with pairs := ps } where
  ok := hk
  pairs := hc
  ident := by rw [kp.ident, r.ident]
  dflt := by rw [kp.dflt, r.dflt]
  len := r.len
  lev := by simp only [kp.lev, r.lev]
  outer := r.outer
  curs := by
    intro i c ac h1 h2
    refine (r.curs i c ac h1 h2).stable (st (r.active.2 ?_))
    intro e; rw [e] at h2; cases h2

theorem unique_of_distinct (ct : Contract env) {ident : Bool} {r : List (Option K × V)}
    (d : Distinct env ident (live r)) {i j : Nat} {k : K} (hi : keyAt r i = some k)
    (hj : keyAt r j = some k) : i = j := by
  have key : ∀ {i j : Nat}, keyAt r i = some k → keyAt r j = some k → ¬ i < j := by
    intro i j hi hj hlt
    obtain ⟨v, hv⟩ := keyAt_some hi
    obtain ⟨w, hw⟩ := keyAt_some hj
    obtain ⟨hil, ei⟩ := List.getElem?_eq_some_iff.1 hv
    obtain ⟨hjl, ej⟩ := List.getElem?_eq_some_iff.1 hw
    unfold Distinct live at d
    rw [List.pairwise_filterMap] at d
    have := List.pairwise_iff_getElem.1 d i j hil hjl hlt (k, v) (by simp [ei]) (k, w) (by simp [ej])
    simp only at this
    rw [same_refl ct] at this
    cases this
  have h1 := key hi hj
  have h2 := key hj hi
  omega

theorem find_key (ct : Contract env) {ident : Bool} {l : List (K × V)} (d : Distinct env ident l)
    {k : K} {v : V} (h : (k, v) ∈ l) : l.find? (fun p => decide (p.1 = k)) = some (k, v) := by
  induction l with
  | nil => cases h
  | cons p l ih =>
    unfold Distinct at d
    rw [List.pairwise_cons] at d
    rw [List.find?_cons]
    rcases List.mem_cons.1 h with rfl | h
    · simp
    · have hne : p.1 ≠ k := by
        intro e
        have := d.1 (k, v) h
        rw [e, same_refl ct] at this
        cases this
      simp only [hne, decide_false]
      exact ih d.2 h

/-- The loop of `each` and the specification agree on the next entry. -/
theorem seek_ok {h : H Tb K V} {rs : List (Option K)} (hl : rs.length = h.raw.length)
    (hsub : ∀ i k, keyAt h.raw i = some k → rs[i]? = some (some k))
    (huniq : ∀ (i j : Nat) (k : K), rs[i]? = some (some k) → rs[j]? = some (some k) → i = j) :
    ∀ (fuel pos : Nat), fuel = h.raw.length - pos →
    match h.seek fuel pos with
    | none => ((rs.drop pos).filterMap id).dropWhile (fun k => !still (live h.raw) k) = []
    | some (i, k, v) => h.raw[i]? = some (some k, v) ∧ rs[i]? = some (some k) ∧
        ((rs.drop pos).filterMap id).dropWhile (fun k => !still (live h.raw) k) =
          k :: (rs.drop (i + 1)).filterMap id
  | 0, pos, hf => by
    rw [H.seek, List.drop_of_length_le (by omega)]; rfl
  | fuel + 1, pos, hf => by
    have hpos : pos < rs.length := by omega
    have ih := seek_ok hl hsub huniq fuel (pos + 1) (by omega)
    rw [H.seek, entryAt_raw, List.drop_eq_getElem_cons hpos]
    have hr : rs[pos]? = some rs[pos] := List.getElem?_eq_getElem hpos
    have hrp : pos < h.raw.length := by omega
    have hg : h.raw[pos]? = some h.raw[pos] := List.getElem?_eq_getElem hrp
    rcases e : h.raw[pos] with ⟨o, v⟩
    rw [e] at hg
    rw [hg]
    cases o with
    | some k =>
      simp only [Option.bind_some, Option.map_some]
      have hk : keyAt h.raw pos = some k := by simp [keyAt, hg]
      have h2 := hsub pos k hk
      refine ⟨hg, h2, ?_⟩
      have : rs[pos] = some k := by rw [h2] at hr; exact (Option.some.inj hr).symm
      rw [this, List.filterMap_cons_some (f := id) (b := k) rfl, List.dropWhile_cons_of_neg]
      have : still (live h.raw) k = true := by
        simp only [still, decide_eq_true_eq]
        exact mem_keys_live.2 ⟨pos, hk⟩
      simp [this]
    | none =>
      simp only [Option.bind_some, Option.map_none]
      have hdrop : (((rs[pos] :: rs.drop (pos + 1)).filterMap id).dropWhile
          (fun k => !still (live h.raw) k)) =
          ((rs.drop (pos + 1)).filterMap id).dropWhile (fun k => !still (live h.raw) k) := by
        cases e2 : rs[pos] with
        | none => rfl
        | some k =>
          rw [List.filterMap_cons_some (f := id) (b := k) rfl, List.dropWhile_cons_of_pos]
          have : still (live h.raw) k = false := by
            simp only [still, decide_eq_false_iff_not]
            intro hm
            obtain ⟨j, hj⟩ := mem_keys_live.1 hm
            have := huniq pos j k (by rw [hr, e2]) (hsub j k hj)
            subst this
            simp [keyAt, hg] at hj
          simp [this]
      rw [hdrop]
      exact ih

theorem live_map_val (r : List (Option K × V)) (k : K) (v : V) :
    live (r.map (fun p => if p.1 = some k then (p.1, v) else p)) =
      (live r).map (fun p => if p.1 = k then (p.1, v) else p) := by
  induction r with
  | nil => rfl
  | cons p r ih =>
    obtain ⟨o, w⟩ := p
    cases o with
    | none => simpa using ih
    | some x =>
      by_cases hx : x = k
      · simp [hx, ih]
      · simp [hx, ih]

theorem getElem?_set_split {α : Type} {l : List α} {j i : Nat} {x y : α}
    (h : (l.set j x)[i]? = some y) : (i = j ∧ y = x) ∨ (i ≠ j ∧ l[i]? = some y) := by
  rw [List.getElem?_set] at h
  split at h
  · rename_i e
    split at h
    · exact Or.inl ⟨e.symm, (Option.some.inj h).symm⟩
    · cases h
  · rename_i e; exact Or.inr ⟨fun e' => e e'.symm, h⟩

/-- replacing a cursor by one with the same guard -/
theorem R.cursor {s : Sys Tb K V} {a : ASys K V} (r : R env s a) {j : Nat} {c c' : Cursor}
    {ac' : ACur K} (hj : s.curs[j]? = some c) (hreal : c'.real = c.real)
    (hrel : CurRel s.h.raw c' ac') :
    R env { s with curs := s.curs.set j c' } { a with curs := a.curs.set j ac' } where
  ok := r.ok
  pairs := r.pairs
  ident := r.ident
  dflt := r.dflt
  len := by simpa using r.len
  lev := by
    rw [r.lev]
    obtain ⟨hlt, hc⟩ := List.getElem?_eq_some_iff.1 hj
    have hset : (s.curs.set j c') = s.curs.take j ++ c' :: s.curs.drop (j + 1) := by
      rw [List.set_eq_take_append_cons_drop, if_pos hlt]
    have horig : s.curs = s.curs.take j ++ c :: s.curs.drop (j + 1) := by
      rw [← hc, List.getElem_cons_drop, List.take_append_drop]
    rw [hset]
    conv_lhs => rw [horig]
    simp only [List.countP_append, List.countP_cons, hreal]
  outer := by
    intro i d hd hl
    simp only [List.length_set] at hl
    rcases getElem?_set_split hd with ⟨rfl, rfl⟩ | ⟨_, hd⟩
    · rw [hreal]; exact r.outer _ c hj hl
    · exact r.outer i d hd hl
  curs := by
    intro i d ad hd had
    rcases getElem?_set_split hd with ⟨rfl, rfl⟩ | ⟨hne, hd⟩
    · rcases getElem?_set_split had with ⟨_, rfl⟩ | ⟨hne, _⟩
      · exact hrel
      · exact absurd rfl hne
    · rcases getElem?_set_split had with ⟨he, _⟩ | ⟨_, had⟩
      · exact absurd he hne
      · exact r.curs i d ad hd had

theorem R.curs_some {s : Sys Tb K V} {a : ASys K V} (r : R env s a) {j : Nat} {c : Cursor}
    (h : s.curs[j]? = some c) : ∃ ac, a.curs[j]? = some ac := by
  obtain ⟨hlt, _⟩ := List.getElem?_eq_some_iff.1 h
  exact ⟨_, List.getElem?_eq_getElem (by rw [← r.len]; exact hlt)⟩

theorem R.curs_none {s : Sys Tb K V} {a : ASys K V} (r : R env s a) {j : Nat}
    (h : s.curs[j]? = none) : a.curs[j]? = none := by
  rw [List.getElem?_eq_none_iff] at h ⊢
  rw [← r.len]; exact h

theorem iterIncr_ok {h : H Tb K V} (hk : Hok env h) :
    Hok env h.iterIncr.1 ∧ h.iterIncr.1.raw = h.raw ∧ h.iterIncr.1.ident = h.ident ∧
      h.iterIncr.1.dflt = h.dflt ∧
      h.iterIncr.1.lev = h.lev + (if h.iterIncr.2 then 1 else 0) ∧
      (h.lev < 3 → h.iterIncr.2 = true) := by
  cases h with
  | inline ps i d =>
    unfold H.iterIncr
    simp only []
    split
    · rename_i hlt
      refine ⟨⟨hk.1, by unfold ITER_MAX at hlt; omega, hk.2.2⟩, rfl, rfl, rfl, rfl, fun _ => rfl⟩
    · rename_i hlt
      exact ⟨hk, rfl, rfl, rfl, rfl, fun h => absurd h hlt⟩
  | boxed c i l d f => exact ⟨hk, rfl, rfl, rfl, rfl, fun _ => rfl⟩

theorem iterDecr_ok {h : H Tb K V} (hk : Hok env h) {real : Bool} (hl : real = true → 0 < h.lev) :
    ∃ h', h.iterDecr real = some h' ∧ Hok env h' ∧ h'.raw = h.raw ∧ h'.ident = h.ident ∧
      h'.dflt = h.dflt ∧ h'.lev = h.lev - (if real then 1 else 0) := by
  unfold H.iterDecr
  cases real with
  | false => exact ⟨h, rfl, hk, rfl, rfl, rfl, rfl⟩
  | true =>
    have hl := hl rfl
    simp only [if_true]
    cases h with
    | inline ps i d =>
      have hl : 0 < d := hl
      simp only []
      rw [if_neg (by omega)]
      exact ⟨_, rfl, ⟨hk.1, by have := hk.2.1; omega, hk.2.2⟩, rfl, rfl, rfl, rfl⟩
    | boxed c i l d f =>
      have hl : 0 < l := hl
      simp only []
      rw [if_neg (by omega)]
      exact ⟨_, rfl, hk, rfl, rfl, rfl, rfl⟩

theorem content_of_raw {h h' : H Tb K V} (e : h'.raw = h.raw) : h'.content = h.content := by
  rw [content_live, content_live, e]

theorem getElem?_eraseIdx_split {α : Type} {l : List α} {j i : Nat} {y : α}
    (h : (l.eraseIdx j)[i]? = some y) : ∃ i', l[i']? = some y ∧ i' = (if i < j then i else i + 1) := by
  rw [List.getElem?_eraseIdx] at h
  split at h
  · rename_i hlt; exact ⟨i, h, by rw [if_pos hlt]⟩
  · rename_i hlt; exact ⟨i + 1, h, by rw [if_neg hlt]⟩

/-- One step of the code is one step of the specification. -/
theorem step_ok (ct : Contract env) {s : Sys Tb K V} {a : ASys K V} (r : R env s a)
    (op : Op K V) (hn : Nested a op) :
    ∃ s', step env s op = some (s', (aStep env a op).2) ∧ R env s' (aStep env a op).1 := by
  cases op with
  | get k =>
    refine ⟨s, ?_, r⟩
    simp only [step, aStep, get_ok ct r.ok, Option.map_some, r.ident, r.pairs, r.dflt]
  | has k =>
    refine ⟨s, ?_, r⟩
    simp only [step, aStep, contains_ok ct r.ok, Option.map_some, r.ident, r.pairs]
  | size =>
    refine ⟨s, ?_, r⟩
    simp only [step, aStep, len_ok r.ok, r.pairs]
  | toA =>
    refine ⟨s, ?_, r⟩
    simp only [step, aStep, r.pairs]
  | put k v =>
    simp only [step, aStep]
    rcases insert_ok ct r.ok k v with ⟨ha, hp, e⟩ | ⟨hp, h', e, hk', hc', kp, st⟩
    · rw [r.ident, r.pairs] at hp
      rw [e, if_pos ⟨r.active.1 ha, hp⟩]
      exact ⟨s, rfl, r⟩
    · rw [e, if_neg]
      · refine ⟨{ s with h := h' }, rfl, r.write hk' kp ?_ st⟩
        rw [hc', r.ident, r.pairs]
      · rintro ⟨h1, h2⟩
        have := hp (r.active.2 h1)
        rw [r.ident, r.pairs, h2] at this
        cases this
  | del k =>
    obtain ⟨h', e, hk', hc', kp, st⟩ := remove_ok ct r.ok k
    simp only [step, aStep, e, Option.map_some, r.ident, r.pairs]
    refine ⟨_, rfl, r.write hk' kp ?_ st⟩
    rw [hc', r.ident, r.pairs]
  | shift =>
    obtain ⟨h', e, hk', hc', kp, st⟩ := shift_ok ct r.ok
    simp only [step, aStep, e, Option.map_some, r.pairs]
    refine ⟨_, rfl, r.write hk' kp ?_ st⟩
    rw [hc', r.pairs]
  | clear =>
    simp only [step, aStep]
    rcases clear_ok' ct r.ok with ⟨ha, e⟩ | ⟨ha, h', e, hk', hc', kp, _⟩
    · rw [e, if_pos (r.active.1 ha)]
      exact ⟨s, rfl, r⟩
    · rw [e, if_neg (by simpa using r.inactive.1 ha)]
      exact ⟨{ s with h := h' }, rfl, r.write hk' kp hc' (by intro h; rw [ha] at h; cases h)⟩
  | setDefault d =>
    obtain ⟨h', e, hk', hr, hi, hd, hl⟩ := setDefault_ok ct r.ok d
    simp only [step, aStep, e, Option.map_some]
    refine ⟨_, rfl, ?_⟩
    exact { ok := hk'
            pairs := by rw [content_of_raw hr, r.pairs]
            ident := by rw [hi, r.ident]
            dflt := hd
            len := r.len
            lev := by simp only [hl, r.lev]
            outer := r.outer
            curs := by simp only [hr]; exact r.curs }
  | compareByIdentity =>
    simp only [step, aStep]
    rcases compareByIdentity_ok ct r.ok with ⟨ha, e⟩ | ⟨ha, h', e, hk', hc', hi, hd, hl⟩
    · rw [e, if_pos (r.active.1 ha)]
      exact ⟨s, rfl, r⟩
    · have hnil := r.inactive.1 ha
      have hs := r.empty hnil
      rw [e, if_neg (by simpa using hnil)]
      exact ⟨{ s with h := h' }, rfl,
          { ok := hk'
            pairs := by simp only [hc', r.pairs]
            ident := hi
            dflt := by simp only [hd, r.dflt]
            len := r.len
            lev := by simp only [hl, r.lev]
            outer := r.outer
            curs := by intro i c ac h; simp only [hs] at h; cases h }⟩
  | resetMode b =>
    simp only [step, aStep]
    rcases resetMode_ok ct r.ok b with ⟨ha, e⟩ | ⟨ha, h', e, hk', hc', hi, hd, hl⟩
    · rw [e, if_pos (r.active.1 ha)]
      exact ⟨s, rfl, r⟩
    · have hnil := r.inactive.1 ha
      have hs := r.empty hnil
      rw [e, if_neg (by simpa using hnil)]
      exact ⟨{ s with h := h' }, rfl,
          { ok := hk'
            pairs := hc'
            ident := hi
            dflt := by simp only [hd, r.dflt]
            len := r.len
            lev := by simp only [hl, r.lev]
            outer := r.outer
            curs := by intro i c ac h; simp only [hs] at h; cases h }⟩
  | rehash =>
    simp only [step, aStep]
    rcases rehash_ok ct r.ok with ⟨ha, e⟩ | ⟨ha, h', e, hk', hc', kp⟩
    · rw [e, if_pos (r.active.1 ha)]
      exact ⟨s, rfl, r⟩
    · rw [e, if_neg (by simpa using r.inactive.1 ha)]
      exact ⟨{ s with h := h' }, rfl, r.write hk' kp (by rw [hc', r.pairs])
        (by intro h; rw [ha] at h; cases h)⟩
  | dup =>
    obtain ⟨h', e, hk', hc, hi, hd, hl⟩ := dup_ok ct r.ok
    simp only [step, aStep, e, Option.map_some]
    exact ⟨_, rfl,
          { ok := hk'
            pairs := by simp only [hc, r.pairs]
            ident := by simp only [hi, r.ident]
            dflt := by simp only [hd, r.dflt]
            len := rfl
            lev := by simp only [hl]; rfl
            outer := by intro i c h; cases h
            curs := by intro i c ac h; cases h }⟩
  | iterBegin =>
    obtain ⟨hk', hr, hi, hd, hl, hreal⟩ := iterIncr_ok r.ok
    simp only [step, aStep]
    refine ⟨_, rfl, ?_⟩
    exact { ok := hk'
            pairs := by rw [content_of_raw hr, r.pairs]
            ident := by simp only [hi, r.ident]
            dflt := by simp only [hd, r.dflt]
            len := by simp only [List.length_cons, r.len]
            lev := by simp only [hl, r.lev, List.countP_cons]
            outer := by
              intro i c h hle
              simp only [List.length_cons] at hle
              cases i with
              | zero =>
                simp only [List.getElem?_cons_zero, Option.some.injEq] at h
                subst h
                apply hreal
                rw [r.lev]
                have := List.countP_le_length (p := fun c : Cursor => c.real) (l := s.curs)
                omega
              | succ i =>
                simp only [List.getElem?_cons_succ] at h
                exact r.outer i c h (by omega)
            curs := by
              intro i c ac h h2
              simp only [hr]
              cases i with
              | succ i =>
                simp only [List.getElem?_cons_succ] at h h2
                exact r.curs i c ac h h2
              | zero =>
                simp only [List.getElem?_cons_zero, Option.some.injEq] at h h2
                subst h h2
                have key : ∀ (i : Nat) (k : K), (s.h.raw.map (·.1))[i]? = some (some k) ↔
                    keyAt s.h.raw i = some k := by
                  intro i k
                  rw [List.getElem?_map]
                  unfold keyAt
                  cases s.h.raw[i]? with
                  | none => simp
                  | some p => simp
                have dis := r.ok.distinct
                rw [content_live] at dis
                refine ⟨s.h.raw.map (·.1), by simp, fun i k => (key i k).2, ?_, ?_, ?_, ?_⟩
                · intro i j k hi hj
                  exact unique_of_distinct ct dis ((key i k).1 hi) ((key j k).1 hj)
                · simp only [List.drop_zero]
                  rw [← r.pairs, content_live]
                  unfold live
                  rw [List.filterMap_map, List.map_filterMap]
                  apply List.filterMap_congr
                  rintro ⟨o, v⟩ _
                  cases o <;> rfl
                · intro i h; cases h
                · intro _; rfl }
  | iterNext j =>
    simp only [step, aStep]
    cases hj : s.curs[j]? with
    | none =>
      rw [r.curs_none hj]
      exact ⟨s, rfl, r⟩
    | some c =>
      obtain ⟨ac, hac⟩ := r.curs_some hj
      rw [hac]
      simp only []
      obtain ⟨rs, h1, h2, h3, h4, h5, h6⟩ := r.curs j c ac hj hac
      have sk := seek_ok h1 h2 h3 (s.h.entryCount - c.pos) c.pos (by rw [entryCount_raw])
      rw [← content_live, r.pairs, ← h4] at sk
      cases e : s.h.seek (s.h.entryCount - c.pos) c.pos with
      | none =>
        rw [e] at sk
        simp only at sk
        rw [sk]
        refine ⟨_, rfl, r.cursor hj rfl ⟨rs, h1, h2, h3, ?_, ?_, fun _ => rfl⟩⟩
        · simp only []
          rw [entryCount_raw, ← h1, List.drop_length]; rfl
        · intro i h; cases h
      | some q =>
        obtain ⟨i, k, v⟩ := q
        rw [e] at sk
        obtain ⟨s1, s2, s3⟩ := sk
        rw [s3]
        simp only []
        have hfind : a.pairs.find? (fun p => decide (p.1 = k)) = some (k, v) := by
          have dis := r.ok.distinct
          rw [r.pairs] at dis
          refine find_key ct dis ?_
          rw [← r.pairs, content_live]
          exact mem_live.2 (List.mem_of_getElem? s1)
        rw [hfind]
        refine ⟨_, rfl, r.cursor hj rfl ⟨rs, h1, h2, h3, rfl, ?_, by intro h; cases h⟩⟩
        intro i' h
        cases h
        exact ⟨k, s2, rfl⟩
  | iterSet j v =>
    simp only [step, aStep]
    cases hj : s.curs[j]? with
    | none =>
      rw [r.curs_none hj]
      exact ⟨s, rfl, r⟩
    | some c =>
      obtain ⟨ac, hac⟩ := r.curs_some hj
      rw [hac]
      obtain ⟨rs, h1, h2, h3, h4, h5, h6⟩ := r.curs j c ac hj hac
      obtain ⟨pos, real, cur⟩ := c
      obtain ⟨st, sn, td, last⟩ := ac
      cases cur with
      | none =>
        have : last = none := h6 rfl
        subst this
        exact ⟨s, rfl, r⟩
      | some i =>
        obtain ⟨k, hk, hlast⟩ := h5 i rfl
        simp only at hlast
        subst hlast
        simp only []
        obtain ⟨hok, kp, hst, hraw⟩ := setValueAt_ok ct r.ok (i := i) (v := v)
        refine ⟨_, rfl, r.write hok kp ?_ (fun _ => hst)⟩
        rw [content_live, hraw, ← r.pairs, content_live, ← live_map_val]
        congr 1
        apply List.ext_getElem?
        intro n
        rw [List.getElem?_modify, List.getElem?_map]
        cases e : s.h.raw[n]? with
        | none => rfl
        | some p =>
          obtain ⟨o, w⟩ := p
          cases o with
          | none => by_cases hin : i = n <;> simp [hin]
          | some x =>
            have hx : rs[n]? = some (some x) := h2 n x (by simp [keyAt, e])
            by_cases hin : i = n
            · subst hin
              rw [hk] at hx
              have : k = x := by simpa using hx
              simp [this]
            · have : x ≠ k := by
                intro exk; subst exk; exact hin (h3 i n x hk hx)
              simp [hin, this]
  | iterEnd j =>
    simp only [step, aStep]
    cases hj : s.curs[j]? with
    | none =>
      rw [r.curs_none hj]
      exact ⟨s, rfl, r⟩
    | some c =>
      obtain ⟨ac, hac⟩ := r.curs_some hj
      rw [hac]
      simp only []
      obtain ⟨hlt, hc⟩ := List.getElem?_eq_some_iff.1 hj
      have horig : s.curs = s.curs.take j ++ c :: s.curs.drop (j + 1) := by
        rw [← hc, List.getElem_cons_drop, List.take_append_drop]
      have hcount : s.curs.countP (·.real) =
          (s.curs.eraseIdx j).countP (·.real) + (if c.real then 1 else 0) := by
        rw [List.eraseIdx_eq_take_drop_succ]
        conv_lhs => rw [horig]
        simp only [List.countP_append, List.countP_cons]
        omega
      obtain ⟨h', e, hk', hr, hi, hd, hl⟩ := iterDecr_ok r.ok (real := c.real) (by
        intro h; rw [r.lev, hcount, h]; simp)
      rw [e]
      refine ⟨_, rfl, ?_⟩
      exact
        { ok := hk'
          pairs := by rw [content_of_raw hr, r.pairs]
          ident := by simp only [hi, r.ident]
          dflt := by simp only [hd, r.dflt]
          len := by
            have := r.len
            simp only [List.length_eraseIdx]
            rw [← this]
          lev := by
            simp only [hl, r.lev, hcount]
            omega
          outer := by
            intro i d hd hle
            obtain ⟨i', h1, h2⟩ := getElem?_eraseIdx_split hd
            refine r.outer i' d h1 ?_
            simp only [List.length_eraseIdx, if_pos hlt] at hle
            rcases hn with rfl | h3
            · simp only [Nat.not_lt_zero, if_false] at h2; omega
            · rw [← r.len] at h3; omega
          curs := by
            intro i d ad hd had
            obtain ⟨i', h1, h2⟩ := getElem?_eraseIdx_split hd
            obtain ⟨i2, h3, h4⟩ := getElem?_eraseIdx_split had
            rw [h4, ← h2] at h3
            simp only [hr]
            exact r.curs i' d ad h1 h3 }

theorem run_ok (ct : Contract env) : ∀ (ops : List (Op K V)) {s : Sys Tb K V} {a : ASys K V},
    R env s a → NestedAll env a ops →
    ∃ s', run env s ops = some (s', (aRun env a ops).2) ∧ R env s' (aRun env a ops).1
  | [], s, a, r, _ => ⟨s, rfl, r⟩
  | op :: ops, s, a, r, hn => by
    obtain ⟨s1, e1, r1⟩ := step_ok ct r op hn.1
    obtain ⟨s2, e2, r2⟩ := run_ok ct ops r1 hn.2
    exact ⟨s2, by rw [run, e1]; simp only [e2]; rfl, r2⟩

theorem new_ok (env : Env K V) (n : Nat) : R env (⟨H.new n, []⟩ : Sys Tb K V) aNew := by
  unfold H.new
  split
  · exact ⟨⟨by simp, by simp, (by intro _ p hp; cases hp), List.Pairwise.nil⟩, rfl, rfl, rfl, rfl,
      rfl, (by intro i c h; cases h), (by intro i c ac h; cases h)⟩
  · have hnil : (Core.withCapacity n : Core Tb (Option K) V).entries = [] := by
      unfold Core.withCapacity; split <;> rfl
    refine ⟨⟨BOk.withCapacity n, ?_⟩, ?_, rfl, rfl, rfl,
      rfl, (by intro i c h; cases h), (by intro i c ac h; cases h)⟩
    · unfold Rubymap.contents; rw [hnil]; rfl
    · simp only [H.content, hnil]; rfl

end Verif.Hash
