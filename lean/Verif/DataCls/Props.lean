import Verif.DataCls.Model
import Mathlib.Data.List.Nodup

/-!
# C140: Data
-/

namespace Verif.DataCls

open Verif.StructCls (Err Key Mem Vals Obj Over)

variable {V : Type} [Vals V]

/-- C140: define takes Symbols and Strings alike, and refuses a repeated name. -/
theorem C140_define (ms : List Mem) :
    ((ms.map Mem.nm).Nodup → define ms = .ok ⟨ms.map Mem.nm, ms.map Mem.nm⟩)
    ∧ (¬ (ms.map Mem.nm).Nodup → define ms = .error .argument) := by
  constructor <;> intro h
  · simp [define, h]
  · simp [define, h]

theorem lastVal_some (kvs : List (String × V)) (hd : (kvs.map Prod.fst).Nodup) (n : String) (v : V)
    (h : (n, v) ∈ kvs) : lastVal kvs n = some v := by
  have hr : (kvs.reverse.map Prod.fst).Nodup := by
    rw [List.map_reverse]
    exact List.nodup_reverse.2 hd
  have hm : (n, v) ∈ kvs.reverse := List.mem_reverse.2 h
  generalize e : kvs.reverse = l at hr hm
  have : l.find? (fun p => p.1 == n) = some (n, v) := by
    clear e
    induction l with
    | nil => cases hm
    | cons p r ih =>
      rw [List.map_cons, List.nodup_cons] at hr
      rcases List.mem_cons.1 hm with hm | hm
      · subst hm
        simp
      · have hp : p.1 ≠ n := fun he => hr.1 (by
          rw [he]
          exact List.mem_map_of_mem (f := Prod.fst) hm)
        have hb : (p.1 == n) = false := by simpa using hp
        rw [List.find?_cons, hb]
        exact ih hr.2 hm
  simp [lastVal, e, this]

theorem lastVal_none (kvs : List (String × V)) (n : String) :
    lastVal kvs n = none ↔ ∀ v, (n, v) ∉ kvs := by
  constructor
  · intro h v hv
    simp only [lastVal] at h
    split at h
    · cases h
    · rename_i h1
      rw [List.find?_eq_none] at h1
      exact h1 _ (List.mem_reverse.2 hv) (by simp)
  · intro h
    have : kvs.reverse.find? (fun p => p.1 == n) = none := by
      rw [List.find?_eq_none]
      intro p hp he
      have he : p.1 = n := by simpa using he
      exact h p.2 (he ▸ List.mem_reverse.1 hp)
    simp [lastVal, this]

theorem normAll_sym : ∀ (kvs : List (String × V)),
    normAll (kvs.map (fun p => (Key.sym p.1, p.2))) = .ok kvs
  | [] => rfl
  | (n, v) :: r => by simp [normAll, dataKey, normAll_sym r]

theorem normAll_str : ∀ (kvs : List (String × V)),
    normAll (kvs.map (fun p => (Key.str p.1, p.2))) = .ok kvs
  | [] => rfl
  | (n, v) :: r => by simp [normAll, dataKey, normAll_str r]

/-- Distinct names that are exactly the members give the values in the order of the members. -/
theorem dataValues_ok (ns : List String) (kw : List (Key × V)) (kvs : List (String × V))
    (hn : normAll kw = .ok kvs) (hd : (kvs.map Prod.fst).Nodup)
    (h1 : ∀ n ∈ ns, ∃ v, (n, v) ∈ kvs) (h2 : ∀ p ∈ kvs, p.1 ∈ ns) :
    ∃ vs, dataValues ns kw = .ok vs ∧ vs.length = ns.length
      ∧ ∀ (i : Nat) n v, ns[i]? = some n → (n, v) ∈ kvs → vs[i]? = some v := by
  have e1 : ns.any (fun n => (lastVal kvs n).isNone) = false := by
    rw [List.any_eq_false]
    intro n hn hc
    obtain ⟨v, hv⟩ := h1 n hn
    rw [lastVal_some kvs hd n v hv] at hc
    cases hc
  have e2 : kvs.any (fun p => !ns.contains p.1) = false := by
    rw [List.any_eq_false]
    intro p hp hc
    have := h2 p hp
    simp [this] at hc
  refine ⟨_, by simp only [dataValues, hn, e1, e2, Bool.false_eq_true, if_false]; rfl, by simp, ?_⟩
  intro i n v hi hv
  simp [List.getElem?_map, hi, lastVal_some kvs hd n v hv]

theorem dataValues_bad (ns : List String) (kw : List (Key × V)) (kvs : List (String × V))
    (hn : normAll kw = .ok kvs)
    (h : (∃ n ∈ ns, ∀ v, (n, v) ∉ kvs) ∨ (∃ p ∈ kvs, p.1 ∉ ns)) :
    dataValues ns kw = .error .argument := by
  simp only [dataValues, hn]
  split
  · rfl
  · rename_i h1
    rcases h with ⟨n, hn, hv⟩ | ⟨p, hp, hq⟩
    · exfalso
      apply h1
      rw [List.any_eq_true]
      exact ⟨n, hn, by rw [(lastVal_none kvs n).2 hv]; rfl⟩
    · rw [if_pos]
      rw [List.any_eq_true]
      exact ⟨p, hp, by simpa using hq⟩

theorem init_of (c : Cls) (hc : "class" ∉ c.readers) (kw : List (Key × V)) (vs : List V)
    (hv : dataValues c.members kw = .ok vs) (hl : vs.length = c.members.length) :
    initObj c (allocate c) kw = .ok ⟨vs, true⟩ := by
  have h1 : c.readers.contains "class" = false := by simpa using hc
  have h2 : (allocate c : Obj V).slots.length = c.members.length := by simp [allocate]
  simp only [initObj, classMembers, h1, hv, dataInit, Bool.false_eq_true, if_false]
  rw [if_pos (by omega), List.drop_eq_nil_of_le (by omega), List.append_nil]

theorem init_bad (c : Cls) (hc : "class" ∉ c.readers) (o : Obj V) (kw : List (Key × V)) (e : Err)
    (hv : dataValues c.members kw = .error e) : initObj c o kw = .error e := by
  have h1 : c.readers.contains "class" = false := by simpa using hc
  simp only [initObj, classMembers, h1, hv, Bool.false_eq_true, if_false]

/-- C140, in part: with distinct keywords, Symbols or Strings, that are exactly the members, new gives a
frozen object with each member's value; with a member missing or a keyword unknown, ArgumentError.
Missing: a member named `class`, see `C140_class_member_fails`. -/
theorem C140_keywords_partial (c : Cls) (hc : "class" ∉ c.readers) (kvs : List (String × V))
    (hd : (kvs.map Prod.fst).Nodup) :
    ((∀ n ∈ c.members, ∃ v, (n, v) ∈ kvs) → (∀ p ∈ kvs, p.1 ∈ c.members) →
      ∃ o : Obj V, new c [] (kvs.map (fun p => (Key.sym p.1, p.2))) = .ok o
        ∧ new c [] (kvs.map (fun p => (Key.str p.1, p.2))) = .ok o
        ∧ o.frozen = true ∧ o.slots.length = c.members.length
        ∧ ∀ (i : Nat) n v, c.members[i]? = some n → (n, v) ∈ kvs → o.slots[i]? = some v)
    ∧ ((∃ n ∈ c.members, ∀ v, (n, v) ∉ kvs) ∨ (∃ p ∈ kvs, p.1 ∉ c.members) →
      new c [] (kvs.map (fun p => (Key.sym p.1, p.2))) = .error .argument
      ∧ new c [] (kvs.map (fun p => (Key.str p.1, p.2))) = .error .argument) := by
  constructor
  · intro h1 h2
    obtain ⟨vs, hv, hl, hg⟩ := dataValues_ok c.members _ kvs (normAll_sym kvs) hd h1 h2
    have hv' : dataValues c.members (kvs.map (fun p => (Key.str p.1, p.2))) = .ok vs := by
      rw [← hv]
      simp only [dataValues, normAll_sym, normAll_str]
    exact ⟨_, init_of c hc _ vs hv hl, init_of c hc _ vs hv' hl, rfl, hl, hg⟩
  · intro h
    exact ⟨init_bad c hc _ _ _ (dataValues_bad c.members _ kvs (normAll_sym kvs) h),
      init_bad c hc _ _ _ (dataValues_bad c.members _ kvs (normAll_str kvs) h)⟩

theorem zip_keys (ns : List String) (args : List V) :
    (ns.map Key.sym).zip args = (ns.zip args).map (fun p => (Key.sym p.1, p.2)) := by
  induction ns generalizing args with
  | nil => rfl
  | cons n r ih =>
    cases args with
    | nil => rfl
    | cons v vs => simp [ih]

theorem fst_zip (ns : List String) (args : List V) (h : args.length = ns.length) :
    (ns.zip args).map Prod.fst = ns := by
  rw [List.map_fst_zip]
  omega

theorem zip_values (ns : List String) (hd : ns.Nodup) (args : List V) (h : args.length = ns.length) :
    dataValues ns ((ns.map Key.sym).zip args) = .ok args := by
  rw [zip_keys]
  obtain ⟨vs, hv, hl, hg⟩ := dataValues_ok ns _ (ns.zip args) (normAll_sym _)
    (by rw [fst_zip ns args h]; exact hd)
    (by
      intro n hn
      rw [← fst_zip ns args h, List.mem_map] at hn
      obtain ⟨p, hp, e⟩ := hn
      exact ⟨p.2, e ▸ hp⟩)
    (by
      intro p hp
      exact (List.of_mem_zip (a := p.1) (b := p.2) hp).1)
  rw [hv]
  congr 1
  apply List.ext_getElem (by omega)
  intro i h1 h2
  have hi : i < ns.length := by omega
  have := hg i ns[i] args[i] (List.getElem?_eq_getElem hi) (by
    rw [List.mem_iff_getElem]
    exact ⟨i, by simp; omega, by simp⟩)
  rw [List.getElem?_eq_getElem h1] at this
  exact Option.some.inj this

/-- C140, in part: as many positional arguments as members become the values in order, and the object is
frozen; any other number but none, and positional with keyword arguments, are refused. -/
theorem C140_positional_partial (c : Cls) (hd : c.members.Nodup) (hc : "class" ∉ c.readers) (v : V)
    (vs : List V) (p : Key × V) (kw : List (Key × V)) :
    ((v :: vs).length = c.members.length → new c (v :: vs) [] = .ok ⟨v :: vs, true⟩)
    ∧ ((v :: vs).length ≠ c.members.length → new c (v :: vs) [] = .error .argument)
    ∧ new c (v :: vs) (p :: kw) = .error .argument := by
  refine ⟨?_, ?_, ?_⟩
  · intro h
    simp only [new]
    rw [if_neg (by simp), if_neg (by simpa using h)]
    exact init_of c hc _ _ (zip_values c.members hd _ h) h
  · intro h
    simp only [new]
    rw [if_neg (by simp), if_pos h]
  · simp only [new]
    rw [if_pos (by simp)]

/-- C140, in part: to_h names each value, and new with what to_h gives makes an equal object. -/
theorem C140_to_h_partial (c : Cls) (hd : c.members.Nodup) (hc : "class" ∉ c.readers) (o : Obj V)
    (hl : o.slots.length = c.members.length) :
    ∃ h, toH c o = .ok h ∧ h.map Prod.fst = c.members.map Key.sym ∧ h.map Prod.snd = o.slots
      ∧ new c [] h = .ok ⟨o.slots, true⟩ := by
  have h1 : c.readers.contains "class" = false := by simpa using hc
  refine ⟨(c.members.map Key.sym).zip o.slots,
    by simp only [toH, classMembers, h1, Bool.false_eq_true, if_false], ?_, ?_, ?_⟩
  · rw [List.map_fst_zip]
    simp
    omega
  · rw [List.map_snd_zip]
    simp
    omega
  · exact init_of c hc _ _ (zip_values c.members hd _ hl) hl

/-! ### with -/

theorem put_keys (h : List (Key × V)) (k : Key) (v : V) :
    (put h k v).map Prod.fst = if k ∈ h.map Prod.fst then h.map Prod.fst else h.map Prod.fst ++ [k] := by
  induction h with
  | nil => simp [put]
  | cons p r ih =>
    obtain ⟨k', v'⟩ := p
    simp only [put]
    by_cases hk : k' = k
    · rw [if_pos hk]
      simp [hk]
    · rw [if_neg hk, List.map_cons, ih]
      by_cases hm : k ∈ r.map Prod.fst
      · rw [if_pos hm, if_pos (by simp [hm])]
        rfl
      · rw [if_neg hm, if_neg]
        · rfl
        · simp only [List.map_cons, List.mem_cons, not_or]
          exact ⟨fun e => hk e.symm, hm⟩

theorem put_mem (h : List (Key × V)) (hd : (h.map Prod.fst).Nodup) (k : Key) (v : V) (q : Key × V) :
    q ∈ put h k v ↔ q = (k, v) ∨ (q ∈ h ∧ q.1 ≠ k) := by
  induction h with
  | nil => simp [put]
  | cons p r ih =>
    obtain ⟨k', v'⟩ := p
    rw [List.map_cons, List.nodup_cons] at hd
    simp only [put]
    by_cases hk : k' = k
    · subst hk
      rw [if_pos rfl]
      simp only [List.mem_cons]
      constructor
      · rintro (h | h)
        · exact .inl h
        · refine .inr ⟨.inr h, fun e => hd.1 ?_⟩
          show k' ∈ r.map Prod.fst
          rw [← e]
          exact List.mem_map_of_mem (f := Prod.fst) h
      · rintro (h | ⟨h | h, h2⟩)
        · exact .inl h
        · subst h
          exact absurd rfl h2
        · exact .inr h
    · rw [if_neg hk]
      simp only [List.mem_cons, ih hd.2]
      constructor
      · rintro (h | h | ⟨h, h2⟩)
        · subst h
          exact .inr ⟨.inl rfl, hk⟩
        · exact .inl h
        · exact .inr ⟨.inr h, h2⟩
      · rintro (h | ⟨h | h, h2⟩)
        · exact .inr (.inl h)
        · exact .inl h
        · exact .inr (.inr ⟨h, h2⟩)

theorem put_nodup (h : List (Key × V)) (hd : (h.map Prod.fst).Nodup) (k : Key) (v : V) :
    ((put h k v).map Prod.fst).Nodup := by
  rw [put_keys]
  split
  · exact hd
  · rename_i hk
    rw [List.nodup_append]
    refine ⟨hd, by simp, ?_⟩
    intro a ha b hb e
    rw [List.mem_singleton] at hb
    subst hb
    exact hk (e ▸ ha)

theorem merge_spec (kw : List (Key × V)) : ∀ (h : List (Key × V)), (h.map Prod.fst).Nodup →
    (kw.map Prod.fst).Nodup →
    ((merge h kw).map Prod.fst).Nodup
    ∧ ∀ q, q ∈ merge h kw ↔ q ∈ kw ∨ (q ∈ h ∧ q.1 ∉ kw.map Prod.fst) := by
  induction kw with
  | nil =>
    intro h hd _
    exact ⟨hd, by simp [merge]⟩
  | cons p r ih =>
    intro h hd hk
    rw [List.map_cons, List.nodup_cons] at hk
    obtain ⟨h1, h2⟩ := ih (put h p.1 p.2) (put_nodup h hd _ _) hk.2
    refine ⟨h1, ?_⟩
    intro q
    have : merge h (p :: r) = merge (put h p.1 p.2) r := rfl
    rw [this, h2, put_mem h hd]
    simp only [List.mem_cons, List.map_cons, not_or]
    constructor
    · rintro (h | ⟨h | ⟨h, h3⟩, h4⟩)
      · exact .inl (.inr h)
      · exact .inl (.inl h)
      · exact .inr ⟨h, h3, h4⟩
    · rintro ((h | h) | ⟨h, h3, h4⟩)
      · subst h
        exact .inr ⟨.inl rfl, hk.1⟩
      · exact .inl h
      · exact .inr ⟨.inr ⟨h, h3⟩, h4⟩

theorem normKw_eq (kvs : List (String × V)) :
    normKw (kvs.map (fun p => (Key.sym p.1, p.2)))
      = merge [] (kvs.map (fun p => (Key.sym p.1, p.2)))
    ∧ normKw (kvs.map (fun p => (Key.str p.1, p.2)))
      = merge [] (kvs.map (fun p => (Key.sym p.1, p.2))) := by
  simp only [normKw, merge, List.foldl_map, symKey, and_self]

theorem sym_inj : Function.Injective Key.sym := fun _ _ h => by cases h; rfl

/-- C140, in part: with gives a frozen object in which the members named have the new values and the
others the old ones; an unknown name is refused; the receiver itself is given back when nothing is
named. -/
theorem C140_with_partial (c : Cls) (hd : c.members.Nodup) (hc : "class" ∉ c.readers) (o : Obj V)
    (hl : o.slots.length = c.members.length) (kvs : List (String × V)) (hne : kvs ≠ [])
    (hk : (kvs.map Prod.fst).Nodup) :
    with_ c o [] = .ok o
    ∧ ((∀ p ∈ kvs, p.1 ∈ c.members) →
      ∃ o' : Obj V, with_ c o (kvs.map (fun p => (Key.sym p.1, p.2))) = .ok o'
        ∧ with_ c o (kvs.map (fun p => (Key.str p.1, p.2))) = .ok o'
        ∧ o'.frozen = true ∧ o'.slots.length = c.members.length
        ∧ ∀ (i : Nat) n, c.members[i]? = some n →
          (∀ v, (n, v) ∈ kvs → o'.slots[i]? = some v)
          ∧ ((∀ v, (n, v) ∉ kvs) → o'.slots[i]? = o.slots[i]?))
    ∧ ((∃ p ∈ kvs, p.1 ∉ c.members) →
      with_ c o (kvs.map (fun p => (Key.sym p.1, p.2))) = .error .argument
      ∧ with_ c o (kvs.map (fun p => (Key.str p.1, p.2))) = .error .argument) := by
  have h1 : c.readers.contains "class" = false := by simpa using hc
  have hth : toH c o = .ok ((c.members.zip o.slots).map (fun p => (Key.sym p.1, p.2))) := by
    simp only [toH, classMembers, h1, Bool.false_eq_true, if_false, zip_keys]
  have hks : ((kvs.map (fun p => (Key.sym p.1, p.2))).map Prod.fst).Nodup := by
    rw [List.map_map]
    have : (Prod.fst ∘ fun p : String × V => (Key.sym p.1, p.2)) = Key.sym ∘ Prod.fst := rfl
    rw [this, ← List.map_map, List.nodup_map_iff sym_inj]
    exact hk
  obtain ⟨m1, m2⟩ := merge_spec (kvs.map (fun p => (Key.sym p.1, p.2))) [] (by simp) hks
  generalize hM : merge [] (kvs.map (fun p => (Key.sym p.1, p.2))) = M at m1 m2
  have hhd : (((c.members.zip o.slots).map (fun p => (Key.sym p.1, p.2))).map Prod.fst).Nodup := by
    rw [List.map_map]
    have : (Prod.fst ∘ fun p : String × V => (Key.sym p.1, p.2)) = Key.sym ∘ Prod.fst := rfl
    rw [this, ← List.map_map, fst_zip _ _ hl, List.nodup_map_iff sym_inj]
    exact hd
  obtain ⟨n1, n2⟩ := merge_spec M _ hhd m1
  generalize hN : merge ((c.members.zip o.slots).map (fun p => (Key.sym p.1, p.2))) M = N at n1 n2
  -- the merged keywords, all Symbols
  have hNmem : ∀ q, q ∈ N ↔ (∃ p ∈ kvs, q = (Key.sym p.1, p.2))
      ∨ ((∃ p ∈ c.members.zip o.slots, q = (Key.sym p.1, p.2)) ∧ ∀ p ∈ kvs, q.1 ≠ Key.sym p.1) := by
    intro q
    rw [n2]
    have hMq : ∀ q, q ∈ M ↔ ∃ p ∈ kvs, q = (Key.sym p.1, p.2) := by
      intro q
      rw [m2]
      simp [eq_comm]
    have hMk : q.1 ∉ M.map Prod.fst ↔ ∀ p ∈ kvs, q.1 ≠ Key.sym p.1 := by
      constructor
      · intro h p hp e
        apply h
        rw [List.mem_map]
        exact ⟨(Key.sym p.1, p.2), (hMq _).2 ⟨p, hp, rfl⟩, e.symm⟩
      · intro h hm
        rw [List.mem_map] at hm
        obtain ⟨r, hr, e⟩ := hm
        obtain ⟨p, hp, e2⟩ := (hMq r).1 hr
        exact h p hp (by rw [← e, e2])
    rw [hMq, hMk]
    simp [eq_comm]
  obtain ⟨kv2, hkv2⟩ : ∃ kv2 : List (String × V), N = kv2.map (fun p => (Key.sym p.1, p.2)) := by
    have hall : ∀ q ∈ N, ∃ n, q.1 = Key.sym n := by
      intro q hq
      rcases (hNmem q).1 hq with ⟨p, -, e⟩ | ⟨⟨p, -, e⟩, -⟩
      · exact ⟨p.1, by rw [e]⟩
      · exact ⟨p.1, by rw [e]⟩
    clear hNmem n1 n2 hN
    induction N with
    | nil => exact ⟨[], rfl⟩
    | cons q r ih =>
      obtain ⟨t, ht⟩ := ih (fun q hq => hall q (List.mem_cons_of_mem _ hq))
      obtain ⟨n, hn⟩ := hall q (List.mem_cons_self)
      exact ⟨(n, q.2) :: t, by rw [ht]; simp [← hn]⟩
  have hw : ∀ kw, kw ≠ [] → normKw kw = M → with_ c o kw = initObj c (allocate c) N := by
    intro kw hne he
    cases kw with
    | nil => exact absurd rfl hne
    | cons a b => simp only [with_, hth, he, hN]
  have hw1 := hw (kvs.map (fun p => (Key.sym p.1, p.2))) (by simpa using hne)
    ((normKw_eq kvs).1.trans hM)
  have hw2 := hw (kvs.map (fun p => (Key.str p.1, p.2))) (by simpa using hne)
    ((normKw_eq kvs).2.trans hM)
  have hnorm : normAll N = .ok kv2 := by rw [hkv2, normAll_sym]
  have hkv2n : (kv2.map Prod.fst).Nodup := by
    rw [hkv2, List.map_map] at n1
    have : (Prod.fst ∘ fun p : String × V => (Key.sym p.1, p.2)) = Key.sym ∘ Prod.fst := rfl
    rw [this, ← List.map_map, List.nodup_map_iff sym_inj] at n1
    exact n1
  have hkv2m : ∀ n v, (n, v) ∈ kv2 ↔ (n, v) ∈ kvs
      ∨ ((n, v) ∈ c.members.zip o.slots ∧ ∀ w, (n, w) ∉ kvs) := by
    intro n v
    have e1 : (n, v) ∈ kv2 ↔ (Key.sym n, v) ∈ N := by
      rw [hkv2, List.mem_map]
      constructor
      · intro h
        exact ⟨_, h, rfl⟩
      · rintro ⟨p, hp, e⟩
        simp only [Prod.mk.injEq, Key.sym.injEq] at e
        obtain ⟨e1, e2⟩ := e
        rw [← e1, ← e2]
        exact hp
    have e3 : ∀ l : List (String × V), (∃ p ∈ l, (Key.sym n, v) = (Key.sym p.1, p.2)) ↔ (n, v) ∈ l := by
      intro l
      constructor
      · rintro ⟨p, hp, e⟩
        simp only [Prod.mk.injEq, Key.sym.injEq] at e
        obtain ⟨e1, e2⟩ := e
        rw [e1, e2]
        exact hp
      · intro h
        exact ⟨_, h, rfl⟩
    rw [e1, hNmem, e3, e3]
    have e4 : (∀ p ∈ kvs, Key.sym n ≠ Key.sym p.1) ↔ ∀ w, (n, w) ∉ kvs := by
      constructor
      · intro h w hw
        exact h _ hw rfl
      · intro h p hp e
        injection e with e
        exact h p.2 (e ▸ hp)
    show _ ∨ (_ ∧ (∀ p ∈ kvs, Key.sym n ≠ Key.sym p.1)) ↔ _
    rw [e4]
  refine ⟨rfl, ?_, ?_⟩
  · intro hsub
    obtain ⟨vs, hv, hvl, hg⟩ := dataValues_ok c.members N kv2 hnorm hkv2n
      (by
        intro n hn
        by_cases hex : ∃ v, (n, v) ∈ kvs
        · obtain ⟨v, hv⟩ := hex
          exact ⟨v, (hkv2m n v).2 (.inl hv)⟩
        · rw [← fst_zip _ _ hl, List.mem_map] at hn
          obtain ⟨p, hp, e⟩ := hn
          refine ⟨p.2, (hkv2m n p.2).2 (.inr ⟨e ▸ hp, ?_⟩)⟩
          intro w hw
          exact hex ⟨w, hw⟩)
      (by
        intro p hp
        rcases (hkv2m p.1 p.2).1 hp with h | ⟨h, -⟩
        · exact hsub _ h
        · exact (List.of_mem_zip h).1)
    have hi := init_of c hc N vs hv hvl
    refine ⟨_, hw1.trans hi, hw2.trans hi, rfl, hvl, ?_⟩
    intro i n hin
    constructor
    · intro v hv
      exact hg i n v hin ((hkv2m n v).2 (.inl hv))
    · intro hno
      have hilt : i < c.members.length := (List.getElem?_eq_some_iff.1 hin).1
      have hi2 : i < o.slots.length := by omega
      have hie : c.members[i] = n := (List.getElem?_eq_some_iff.1 hin).2
      rw [List.getElem?_eq_getElem hi2]
      refine hg i n _ hin ((hkv2m n _).2 (.inr ⟨?_, hno⟩))
      rw [List.mem_iff_getElem]
      exact ⟨i, by simp; omega, by simp [hie]⟩
  · rintro ⟨p, hp, hq⟩
    have hb := dataValues_bad c.members N kv2 hnorm
      (.inr ⟨p, (hkv2m p.1 p.2).2 (.inl hp), hq⟩)
    have hi := init_bad c hc (allocate c) N _ hb
    exact ⟨hw1.trans hi, hw2.trans hi⟩

/-- C140, in part: deconstruct_keys gives the values of the Symbols asked for, up to the first that is
no member. -/
theorem C140_deconstruct_keys_partial (c : Cls) (hr : c.readers = c.members) (hd : c.members.Nodup)
    (hc : "class" ∉ c.members) (hs : "send" ∉ c.members) (o : Obj V)
    (hl : o.slots.length = c.members.length) (ks : List String) :
    ∃ r, deconstructKeys c (fun _ => none) o ks = .ok r
      ∧ r.map Prod.fst = (if c.members.length < ks.length then []
          else ks.takeWhile (fun k => decide (k ∈ c.members)))
      ∧ ∀ p ∈ r, p ∈ c.members.zip o.slots := by
  have h1 : c.readers.contains "class" = false := by simpa [hr] using hc
  have h2 : c.readers.contains "send" = false := by simpa [hr] using hs
  have hread : ∀ n ∈ c.members, ∃ v, reader c (fun _ => none) o n = .ok v
      ∧ (n, v) ∈ c.members.zip o.slots := by
    intro n hn
    obtain ⟨i, hi⟩ : ∃ i, c.members.idxOf? n = some i := by
      cases hx : c.members.idxOf? n with
      | some i => exact ⟨i, rfl⟩
      | none =>
        rw [List.idxOf?, List.findIdx?_eq_none_iff] at hx
        have := hx n hn
        simp at this
    have hi' := hi
    rw [List.idxOf?, List.findIdx?_eq_some_iff_getElem] at hi'
    obtain ⟨hlt, he, -⟩ := hi'
    have he : c.members[i] = n := by simpa using he
    have hlt2 : i < o.slots.length := by omega
    refine ⟨o.slots[i], ?_, ?_⟩
    · simp only [reader, hr, hi, List.getElem?_eq_getElem hlt2]
    · rw [List.mem_iff_getElem]
      exact ⟨i, by simp; omega, by simp [he]⟩
  have loop : ∀ ks : List String, ∃ r, deconLoop c (fun _ => none) o c.members ks = .ok r
      ∧ r.map Prod.fst = ks.takeWhile (fun k => decide (k ∈ c.members))
      ∧ ∀ p ∈ r, p ∈ c.members.zip o.slots := by
    intro ks
    induction ks with
    | nil => exact ⟨[], rfl, rfl, by simp⟩
    | cons n r ih =>
      obtain ⟨t, t1, t2, t3⟩ := ih
      by_cases hn : n ∈ c.members
      · obtain ⟨v, hv, hz⟩ := hread n hn
        have hm : c.members.contains n = true := by simpa using hn
        refine ⟨(n, v) :: t, ?_, ?_, ?_⟩
        · simp only [deconLoop, hm, if_true, h2, Bool.false_eq_true, if_false, hv, t1]
        · simp [hn, t2]
        · intro p hp
          rcases List.mem_cons.1 hp with hp | hp
          · subst hp
            exact hz
          · exact t3 p hp
      · have hm : c.members.contains n = false := by simpa using hn
        exact ⟨[], by simp only [deconLoop, hm, Bool.false_eq_true, if_false], by simp [hn], by simp⟩
  simp only [deconstructKeys, classMembers, h1, Bool.false_eq_true, if_false]
  by_cases h : c.members.length < ks.length
  · rw [if_pos h]
    exact ⟨[], rfl, by simp [h], by simp⟩
  · rw [if_neg h]
    obtain ⟨r, r1, r2, r3⟩ := loop ks
    exact ⟨r, r1, by simp [h, r2], r3⟩

/-! ### What fails -/

/-- C140 fails: a Data class with a member named `class` cannot be instantiated. -/
theorem C140_class_member_fails (v w : V) :
    ∃ c, define [.sym "name", .sym "class"] = .ok c ∧ new c [v, w] [] = .error .noMethod
      ∧ new c [] [(.sym "name", v), (.sym "class", w)] = .error .noMethod :=
  ⟨⟨["name", "class"], ["name", "class"]⟩, by simp [define, Mem.nm], rfl, rfl⟩

/-- C140 fails: `initialize` sent to an object changes it although it is frozen. -/
theorem C140_frozen_fails (v w : V) :
    ∃ c, define [.sym "a"] = .ok c ∧ ∃ o : Obj V, new c [v] [] = .ok o ∧ o.frozen = true
      ∧ initObj c o [(.sym "a", w)] = .ok ⟨[w], true⟩ := by
  refine ⟨⟨["a"], ["a"]⟩, by simp [define, Mem.nm], ⟨[v], true⟩, ?_, rfl, ?_⟩
  · rfl
  · rfl

/-- C140 fails: `members` gives the class's own array: after it is cleared, to_h of every object is
empty and new refuses all values. -/
theorem C140_members_shared_fails (c : Cls) (hc : "class" ∉ c.readers) (o : Obj V) (v : V)
    (vs : List V) :
    toH { c with members := [] } o = .ok []
    ∧ new { c with members := [] } (v :: vs) [] = .error .argument := by
  have h1 : c.readers.contains "class" = false := by simpa using hc
  constructor
  · simp only [toH, classMembers, h1, Bool.false_eq_true, if_false]
    rfl
  · simp [new]

/-! ## Cases -/

/-- Values for the cases below. -/
inductive Val where
  | nil
  | num (i : Int)
deriving DecidableEq

instance : Vals Val := ⟨.nil, fun v => match v with | .num i => some i | _ => none, fun _ => none, fun _ => .nil⟩

/-- `D = Data.define(:x, :y)` -/
def dCls : Cls := ⟨["x", "y"], ["x", "y"]⟩

example : define [.sym "x", .str "y"] = .ok dCls ∧ dCls.members.Nodup ∧ "class" ∉ dCls.readers ∧
    "send" ∉ dCls.members := ⟨by rfl, by decide, by decide, by decide⟩

example : new dCls [Val.num 1, .num 2] [] = .ok ⟨[.num 1, .num 2], true⟩ ∧
    new dCls [] [(.str "y", Val.num 2), (.sym "x", .num 1)] = .ok ⟨[.num 1, .num 2], true⟩ ∧
    new dCls [] [(.sym "x", Val.num 1)] = .error .argument ∧
    with_ dCls ⟨[Val.num 1, .num 2], true⟩ [(.sym "y", .num 5)] = .ok ⟨[.num 1, .num 5], true⟩ := by
  refine ⟨?_, ?_, ?_, ?_⟩ <;> rfl

end Verif.DataCls
