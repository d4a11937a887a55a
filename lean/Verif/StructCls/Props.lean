import Verif.StructCls.Model
import Mathlib.Tactic.SplitIfs

/-!
# C139: Struct
-/

namespace Verif.StructCls

variable {V : Type} [Vals V]

/-- A class whose members are the given Symbols. -/
structure IsStruct (ns : List String) (c : Cls) : Prop where
  mem : membersOf c = .ok (ns.map Mem.sym)
  rd : c.readers = ns
  nodup : ns.Nodup

/-- No member takes the place of a method struct.rb calls on self. -/
structure Clean (ns : List String) : Prop where
  snd : "send" ∉ ns
  mem : "members" ∉ ns
  siz : "size" ∉ ns

/-- No user-defined method. -/
def noOver : Over V := fun _ => none

/-- C139: Struct.new of distinct Symbols gives a class with those members, and so has every subclass;
a repeated name is refused. -/
theorem C139_define (ns : List String) (kw : Option Bool) :
    (ns.Nodup → ∃ c, define (ns.map Mem.sym) kw = .ok c ∧ IsStruct ns c ∧ IsStruct ns (subclass c))
    ∧ (¬ ns.Nodup → define (ns.map Mem.sym) kw = .error .argument) := by
  have e : (ns.map Mem.sym).map Mem.nm = ns := by
    rw [List.map_map]
    exact List.map_id'' (fun _ => rfl) _
  constructor
  · intro h
    refine ⟨_, by rw [define, e, if_pos h], ⟨by simp [membersOf], rfl, h⟩,
      ⟨by simp [membersOf, subclass], rfl, h⟩⟩
  · intro h
    rw [define, e, if_neg h]

example : ["name", "age"].Nodup ∧ Clean ["name", "age"] := ⟨by decide, by decide, by decide, by decide⟩

theorem fromPos_eq : ∀ (ms : List Mem) (pos : List V), pos.length ≤ ms.length →
    fromPos ms pos = pos ++ List.replicate (ms.length - pos.length) Vals.nilV
  | [], pos, h => by
    have : pos = [] := List.length_eq_zero_iff.1 (Nat.le_zero.1 h)
    subst this
    rfl
  | _ :: r, [], _ => by
    rw [fromPos, fromPos_eq r [] (Nat.zero_le _)]
    simp [List.replicate_succ]
  | _ :: r, v :: vs, h => by
    rw [fromPos, fromPos_eq r vs (by simpa using h)]
    simp

theorem new_of_slots (c : Cls) (ms : List Mem) (h : membersOf c = .ok ms) (pos : List V)
    (kw : List (Key × V)) (vs : List V) (hv : initSlots c pos kw = .ok vs)
    (hl : vs.length = ms.length) : new c pos kw = .ok ⟨vs, false⟩ := by
  have : storeAll (ms.map (fun _ => (Vals.nilV : V))) vs = .ok vs := by
    rw [storeAll, if_pos (by simp [hl]), List.drop_eq_nil_of_le (by simp [hl]), List.append_nil]
  simp only [new, allocate, h, initObj, hv, this]

theorem new_of_error (c : Cls) (ms : List Mem) (h : membersOf c = .ok ms) (pos : List V)
    (kw : List (Key × V)) (e : Err) (hv : initSlots c pos kw = .error e) :
    new c pos kw = .error e := by
  simp only [new, allocate, h, initObj, hv]

/-- C139: positional arguments become the members' values in order, those not given nil; too many are
refused. -/
theorem C139_new_positional (ns : List String) (c : Cls) (hs : IsStruct ns c)
    (hk : keywordInit c = false) (pos : List V) :
    (pos.length ≤ ns.length →
      new c pos [] = .ok ⟨pos ++ List.replicate (ns.length - pos.length) Vals.nilV, false⟩)
    ∧ (ns.length < pos.length → new c pos [] = .error .argument) := by
  constructor
  · intro h
    refine new_of_slots c _ hs.mem pos [] _ ?_ ?_
    · simp only [initSlots, hs.mem, hk, initPlain, Bool.false_eq_true, if_false]
      rw [if_neg (by simp; omega), fromPos_eq _ _ (by simpa using h)]
      simp
    · simp; omega
  · intro h
    refine new_of_error c _ hs.mem pos [] _ ?_
    simp only [initSlots, hs.mem, hk, initPlain, Bool.false_eq_true, if_false]
    rw [if_pos (by simpa using h)]

theorem fromHash_sym : ∀ (ns : List String) (h : List (Key × V)),
    fromHash (ns.map Mem.sym) h = .ok (ns.map (fun n => (fetch h n).getD Vals.nilV))
  | [], _ => rfl
  | n :: r, h => by simp [fromHash, fromHash_sym r h]

theorem known_sym : ∀ (ns : List String), known (ns.map Mem.sym) = ns
  | [] => rfl
  | n :: r => by
    have := known_sym r
    simp only [known] at this ⊢
    simp [Mem.trySym, this]

theorem checks_ok (ns : List String) (h : List (Key × V))
    (hm : ∀ p ∈ h, ∃ n ∈ ns, p.1 = .sym n) :
    checkKeys (ns.map Mem.sym) h = .ok () ∧ checkKeysLoose (ns.map Mem.sym) h = .ok () := by
  have h1 : h.all (fun p => p.1.isSym) = true := by
    rw [List.all_eq_true]
    intro p hp
    obtain ⟨n, -, e⟩ := hm p hp
    simp [e, Key.isSym]
  have h2 : h.all (fun p => keyKnown (ns.map Mem.sym) p.1) = true := by
    rw [List.all_eq_true]
    intro p hp
    obtain ⟨n, hn, e⟩ := hm p hp
    simp [e, keyKnown, known_sym, hn]
  simp only [checkKeys, checkKeysLoose, h1, h2, if_true, and_self]

theorem checks_bad (ns : List String) (h : List (Key × V)) (p : Key × V) (hp : p ∈ h) (n : String)
    (hn : n ∉ ns) (e : p.1 = .sym n) :
    checkKeys (ns.map Mem.sym) h = .error .argument
    ∧ checkKeysLoose (ns.map Mem.sym) h = .error .argument := by
  have h2 : ¬ h.all (fun p => keyKnown (ns.map Mem.sym) p.1) = true := by
    intro hc
    rw [List.all_eq_true] at hc
    have := hc p hp
    simp [e, keyKnown, known_sym, hn] at this
  constructor
  · rw [checkKeys, if_neg h2, ite_self]
  · rw [checkKeysLoose, if_neg h2]

theorem initSlots_kw (ns : List String) (c : Cls) (hs : IsStruct ns c) (kw : List (Key × V))
    (hne : kw ≠ []) (hm : ∀ p ∈ kw, ∃ n ∈ ns, p.1 = .sym n) :
    initSlots c [] kw = .ok (ns.map (fun n => (fetch kw n).getD Vals.nilV)) := by
  obtain ⟨h1, h2⟩ := checks_ok ns kw hm
  cases kw with
  | nil => exact absurd rfl hne
  | cons k ks =>
    simp only [initSlots, hs.mem, initKw, initPlain, h1, h2, fromHash_sym, ite_self]

theorem fetch_some (kw : List (Key × V)) (hd : (kw.map Prod.fst).Nodup) (n : String) (v : V)
    (h : (Key.sym n, v) ∈ kw) : fetch kw n = some v := by
  induction kw with
  | nil => cases h
  | cons p r ih =>
    rw [List.map_cons, List.nodup_cons] at hd
    rcases List.mem_cons.1 h with h | h
    · subst h
      simp [fetch]
    · have hp : p.1 ≠ .sym n := by
        intro he
        exact hd.1 (he ▸ List.mem_map_of_mem (f := Prod.fst) h)
      have := ih hd.2 h
      simp only [fetch, List.find?_cons] at this ⊢
      have hb : (p.1 == Key.sym n) = false := by simpa using hp
      simp [hb, this]

theorem fetch_none (kw : List (Key × V)) (n : String) (h : ∀ v, (Key.sym n, v) ∉ kw) :
    fetch kw n = none := by
  have : kw.find? (fun p => p.1 == Key.sym n) = none := by
    rw [List.find?_eq_none]
    intro p hp he
    have he : p.1 = .sym n := by simpa using he
    exact h p.2 (he ▸ hp)
  simp [fetch, this]

/-- C139: with keywords naming members, each member named has its value and each other member nil, with
or without `keyword_init: true`; a keyword that is no member is refused. -/
theorem C139_new_keywords (ns : List String) (c : Cls) (hs : IsStruct ns c) (kw : List (Key × V))
    (hne : kw ≠ []) :
    ((∀ p ∈ kw, ∃ n ∈ ns, p.1 = .sym n) → (kw.map Prod.fst).Nodup →
      ∃ o : Obj V, new c [] kw = .ok o ∧ o.frozen = false ∧ o.slots.length = ns.length
        ∧ ∀ (i : Nat) n, ns[i]? = some n →
          (∀ v, (Key.sym n, v) ∈ kw → o.slots[i]? = some v)
          ∧ ((∀ v, (Key.sym n, v) ∉ kw) → o.slots[i]? = some Vals.nilV))
    ∧ (∀ n v, (Key.sym n, v) ∈ kw → n ∉ ns → new c [] kw = .error .argument) := by
  constructor
  · intro hm hd
    refine ⟨_, new_of_slots c _ hs.mem [] kw _ (initSlots_kw ns c hs kw hne hm) (by simp), rfl,
      by simp, ?_⟩
    intro i n hi
    constructor
    · intro v hv
      simp [List.getElem?_map, hi, fetch_some kw hd n v hv]
    · intro hv
      simp [List.getElem?_map, hi, fetch_none kw n hv]
  · intro n v hv hn
    obtain ⟨h1, h2⟩ := checks_bad ns kw _ hv n hn rfl
    refine new_of_error c _ hs.mem [] kw _ ?_
    cases kw with
    | nil => exact absurd rfl hne
    | cons k ks => simp only [initSlots, hs.mem, initKw, initPlain, h1, h2, ite_self]

theorem zip_fetch : ∀ (ns : List String) (pos : List V), ns.Nodup → pos.length = ns.length →
    ns.map (fun n => (fetch ((ns.map Key.sym).zip pos) n).getD Vals.nilV) = pos
  | [], pos, _, h => by
    have : pos = [] := List.length_eq_zero_iff.1 h
    subst this
    rfl
  | n :: r, [], _, h => by cases h
  | n :: r, v :: vs, hd, h => by
    rw [List.nodup_cons] at hd
    have ih := zip_fetch r vs hd.2 (by simpa using h)
    rw [List.map_cons]
    congr 1
    · simp [fetch]
    · refine Eq.trans (List.map_congr_left ?_) ih
      intro m hm
      have hne : n ≠ m := fun e => hd.1 (e ▸ hm)
      have hb : (Key.sym n == Key.sym m) = false := by simpa using hne
      simp only [fetch, List.map_cons, List.zip_cons_cons, List.find?_cons, hb]

/-- C139: all values by position and all values by keyword make the same object. -/
theorem C139_new_same (ns : List String) (c : Cls) (hs : IsStruct ns c)
    (hk : keywordInit c = false) (pos : List V) (hl : pos.length = ns.length) (hne : ns ≠ []) :
    new c [] ((ns.map Key.sym).zip pos) = new c pos [] := by
  have h1 := (C139_new_positional ns c hs hk pos).1 (Nat.le_of_eq hl)
  rw [h1, hl, Nat.sub_self, List.replicate_zero, List.append_nil]
  have hz : (ns.map Key.sym).zip pos ≠ [] := by
    cases ns with
    | nil => exact absurd rfl hne
    | cons n r =>
      cases pos with
      | nil => cases hl
      | cons v vs => simp
  have := new_of_slots c _ hs.mem [] ((ns.map Key.sym).zip pos) _
    (initSlots_kw ns c hs _ hz (by
      intro p hp
      obtain ⟨n, hn, e⟩ := List.mem_map.1 (List.of_mem_zip (a := p.1) (b := p.2) hp).1
      exact ⟨n, hn, e.symm⟩)) (by simp)
  rw [this, zip_fetch ns pos hs.nodup hl]

/-- C139: a class made with `keyword_init: true` refuses positional arguments, but for one Hash, which
counts as its keywords. -/
theorem C139_keyword_init_partial (ns : List String) (c : Cls) (hs : IsStruct ns c)
    (hk : keywordInit c = true) (v w : V) (vs : List V) (p : Key × V) (kw : List (Key × V)) :
    new c (v :: w :: vs) [] = .error .argument ∧ new c (v :: vs) (p :: kw) = .error .argument
    ∧ (Vals.asHash v = none → new c [v] [] = .error .argument)
    ∧ (Vals.asHash v = some (p :: kw) → new c [v] [] = new c [] (p :: kw)) := by
  refine ⟨?_, ?_, ?_, ?_⟩
  · refine new_of_error c _ hs.mem _ _ _ ?_
    simp only [initSlots, hs.mem, hk, initKw, if_true]
  · refine new_of_error c _ hs.mem _ _ _ ?_
    simp only [initSlots, hs.mem, hk, initKw, if_true]
  · intro h
    refine new_of_error c _ hs.mem _ _ _ ?_
    simp only [initSlots, hs.mem, hk, initKw, h, if_true]
  · intro h
    have : initSlots c [v] [] = initSlots c [] (p :: kw) := by
      simp only [initSlots, hs.mem, hk, initKw, h, if_true]
    simp only [new, allocate, hs.mem, initObj, this]

/-- C139: positional arguments with keywords beside them: the keywords are one Hash, the last
argument; too many are refused. -/
theorem C139_new_mixed (ns : List String) (c : Cls) (hs : IsStruct ns c)
    (hk : keywordInit c = false) (v : V) (pos : List V) (p : Key × V) (kw : List (Key × V)) :
    new c (v :: pos) (p :: kw) = new c (v :: pos ++ [Vals.ofHash (p :: kw)]) [] := by
  have : initSlots c (v :: pos) (p :: kw) = initSlots c (v :: pos ++ [Vals.ofHash (p :: kw)]) [] := by
    simp only [initSlots, hs.mem, hk, initPlain, Bool.false_eq_true, if_false]
    simp
  simp only [new, allocate, hs.mem, initObj, this]

/-- C139: under `keyword_init: true` a key that is not a Symbol, or names no member, is refused. -/
theorem C139_keyword_init_keys (ns : List String) (c : Cls) (hs : IsStruct ns c)
    (hk : keywordInit c = true) (p : Key × V) (kw : List (Key × V))
    (h : ∃ q ∈ p :: kw, ∀ n ∈ ns, q.1 ≠ .sym n) : new c [] (p :: kw) = .error .argument := by
  refine new_of_error c _ hs.mem _ _ _ ?_
  have hc : checkKeys (ns.map Mem.sym) (p :: kw) = .error .argument := by
    obtain ⟨q, hq, hn⟩ := h
    unfold checkKeys
    split_ifs with h1 h2
    · exfalso
      have a := List.all_eq_true.1 h1 q hq
      have b := List.all_eq_true.1 h2 q hq
      cases hk : q.1 with
      | sym n =>
        rw [hk] at b
        simp only [keyKnown, known_sym, List.contains_iff_mem] at b
        exact hn n b hk
      | str n => rw [hk] at a; simp [Key.isSym] at a
      | int n => rw [hk] at a; simp [Key.isSym] at a
      | flt n => rw [hk] at a; simp [Key.isSym] at a
      | obj n => rw [hk] at a; simp [Key.isSym] at a
    · rfl
    · rfl
  simp only [initSlots, hs.mem, hk, initKw, hc, if_true]

/-- C139 fails: a subclass of a class made with `keyword_init: true` takes positional arguments, for
any such class with a member. -/
theorem C139_subclass_keyword_init_fails (ns : List String) (hd : ns.Nodup) (n : String) (v : V) :
    ns = [n] → ∃ c, define (ns.map Mem.sym) (some true) = .ok c
      ∧ (Vals.asHash v = none → new c [v] [] = .error .argument)
      ∧ new (subclass c) [v] [] = .ok ⟨[v], false⟩ := by
  rintro rfl
  obtain ⟨c, hc, hs, hs'⟩ := (C139_define [n] (some true)).1 hd
  have hk : keywordInit c = true := by
    simp [define] at hc
    subst hc
    rfl
  refine ⟨c, hc, (C139_keyword_init_partial [n] c hs hk v v [] (.sym n, v) []).2.2.1, ?_⟩
  have := (C139_new_positional [n] (subclass c) hs' rfl [v]).1 (by simp)
  simpa using this

/-- C139 fails: `keyword_init: false` makes no difference: keywords still fill the members instead of
making one Hash, the first member's value. -/
theorem C139_keyword_init_false_fails (n : String) (v : V) :
    ∃ c, define [.sym n] (some false) = .ok c ∧ new c [] [(.sym n, v)] = .ok ⟨[v], false⟩ := by
  obtain ⟨c, hc, hs, -⟩ := (C139_define [n] (some false)).1 (by simp)
  refine ⟨c, hc, ?_⟩
  obtain ⟨o, h1, h2, h3, h4⟩ := (C139_new_keywords [n] c hs [(.sym n, v)] (by simp)).1
    (by simp) (by simp)
  rw [h1]
  have h5 := (h4 0 n rfl).1 v (by simp)
  obtain ⟨sl, fr⟩ := o
  simp only at h2 h3 h5
  subst h2
  match sl, h3, h5 with
  | [x], _, h5 =>
    simp at h5
    rw [h5]

/-- C139 fails: a String key among the keywords is dropped in silence: the member it names is nil. -/
theorem C139_string_key_fails (n : String) (v : V) :
    ∃ c, define [.sym n] none = .ok c
      ∧ new c [] [(.str n, v)] = .ok ⟨[Vals.nilV], false⟩ := by
  obtain ⟨c, hc, hs, -⟩ := (C139_define [n] none).1 (by simp)
  refine ⟨c, hc, new_of_slots c _ hs.mem [] _ _ ?_ rfl⟩
  have hk : keywordInit c = false := by
    simp [define] at hc
    subst hc
    rfl
  simp only [initSlots, hs.mem, hk, initPlain, checkKeysLoose, Bool.false_eq_true, if_false]
  simp [fromHash, fetch, keyKnown]

/-- C139 fails: a member given as a String stays a String: it is not found by name, and `new` with
keywords kills the process. -/
theorem C139_string_member_fails (v : V) :
    ∃ c, define [.sym "a", .str "b"] none = .ok c
      ∧ new c [] [(.sym "a", v)] = .error .panic
      ∧ ∃ o : Obj V, new c [v, v] [] = .ok o ∧ aref c noOver o (.sym "b") = .error .name := by
  refine ⟨⟨[⟨some [.sym "a", .str "b"], none⟩], ["a", "b"]⟩, by simp [define, Mem.nm], ?_, ⟨[v, v], false⟩, rfl, ?_⟩
  · rfl
  · simp [aref, resolve, callMembers, membersOf]

/-! ### Readers, indices, names -/

theorem idxOf?_getElem (ns : List String) (hd : ns.Nodup) (i : Nat) (n : String)
    (h : ns[i]? = some n) : ns.idxOf? n = some i := by
  induction ns generalizing i with
  | nil => simp at h
  | cons m r ih =>
    rw [List.nodup_cons] at hd
    cases i with
    | zero =>
      simp at h
      subst h
      simp [List.idxOf?, List.findIdx?_cons]
    | succ j =>
      simp at h
      have hm : n ∈ r := List.mem_of_getElem? h
      have hne : m ≠ n := fun e => hd.1 (e ▸ hm)
      have := ih hd.2 j h
      simp only [List.idxOf?, List.findIdx?_cons] at this ⊢
      have hb : (m == n) = false := by simpa using hne
      simp [hb, this]

theorem send_member (ns : List String) (c : Cls) (hs : IsStruct ns c) (hc : "send" ∉ ns) (o : Obj V)
    (i : Nat) (n : String) (v : V) (hn : ns[i]? = some n) (hv : o.slots[i]? = some v) :
    send c noOver o n = .ok v := by
  have : ns.contains "send" = false := by simpa using hc
  simp only [send, this, callName, noOver, hs.rd, idxOf?_getElem ns hs.nodup i n hn, hv,
    Bool.false_eq_true, if_false]

theorem callMembers_clean (ns : List String) (c : Cls) (hs : IsStruct ns c) (hc : "members" ∉ ns) :
    callMembers c = .ok (ns.map Mem.sym) := by
  have : c.readers.contains "members" = false := by simpa [hs.rd] using hc
  simp only [callMembers, this, hs.mem, Bool.false_eq_true, if_false]

theorem callSize_clean (ns : List String) (c : Cls) (hs : IsStruct ns c) (hc : Clean ns)
    (ov : Over V) (o : Obj V) : callSize c ov o = .ok (some ns.length) := by
  have : c.readers.contains "size" = false := by simpa [hs.rd] using hc.siz
  simp only [callSize, this, callMembers_clean ns c hs hc.mem, Bool.false_eq_true, if_false,
    List.length_map]

theorem sendAll_drop (ns : List String) (c : Cls) (hs : IsStruct ns c) (hc : "send" ∉ ns) (o : Obj V)
    (hl : o.slots.length = ns.length) : ∀ (k : Nat) (r : List String), r = ns.drop k →
    sendAll c noOver o (r.map Mem.sym) = .ok (o.slots.drop k)
  | k, [], h => by
    have : ns.length ≤ k := List.drop_eq_nil_iff.1 h.symm
    rw [List.drop_eq_nil_of_le (by omega)]
    rfl
  | k, n :: r, h => by
    have hk : k < ns.length := by
      apply Decidable.byContradiction
      intro hc
      rw [List.drop_eq_nil_of_le (by omega)] at h
      cases h
    rw [List.drop_eq_getElem_cons hk] at h
    injection h with h1 h2
    have hv : o.slots[k]? = some (o.slots[k]'(by omega)) := List.getElem?_eq_getElem _
    have hsend := send_member ns c hs hc o k n _ (by rw [List.getElem?_eq_getElem hk, h1]) hv
    have ih := sendAll_drop ns c hs hc o hl (k + 1) r h2
    simp only [List.map_cons, sendAll, Mem.nm, hsend, ih]
    rw [← List.drop_eq_getElem_cons (by omega)]

/-- C139, in part: to_a (values, deconstruct, each) gives the members' values in order, to_h pairs them
with the names.
Missing: members named `send` or `members`, and user-defined readers (`C139_override_fails`). -/
theorem C139_to_a_partial (ns : List String) (c : Cls) (hs : IsStruct ns c) (hc : Clean ns)
    (o : Obj V) (hl : o.slots.length = ns.length) :
    toA c noOver o = .ok o.slots ∧ toH c noOver o = .ok ((ns.map Mem.sym).zip o.slots) := by
  have h := sendAll_drop ns c hs hc.snd o hl 0 ns rfl
  rw [List.drop_zero] at h
  simp only [toA, toH, callMembers_clean ns c hs hc.mem, h, and_self]

theorem offset_clean (ns : List String) (c : Cls) (hs : IsStruct ns c) (hc : Clean ns) (ov : Over V)
    (o : Obj V) (k : Int) :
    (0 ≤ k → k < ns.length → offset c ov o k = .ok k.toNat)
    ∧ (k < 0 → -(ns.length : Int) ≤ k → offset c ov o k = .ok (k + ns.length).toNat)
    ∧ (k < -(ns.length : Int) ∨ (ns.length : Int) ≤ k → offset c ov o k = .error .index) := by
  simp only [offset, callSize_clean ns c hs hc]
  refine ⟨?_, ?_, ?_⟩
  · intro h1 h2
    rw [if_neg (by omega), if_neg (by omega), if_neg (by omega)]
  · intro h1 h2
    rw [if_pos h1, if_neg (by omega), if_neg (by omega)]
  · intro h
    by_cases hk : k < 0
    · rw [if_pos hk, if_pos (by omega)]
    · rw [if_neg hk, if_neg hk, if_pos (by omega)]

theorem resolve_clean (ns : List String) (c : Cls) (hs : IsStruct ns c) (hc : Clean ns) (ov : Over V)
    (o : Obj V) (i : Nat) (n : String) (hn : ns[i]? = some n) :
    resolve c ov o (.int i) = .ok n ∧ resolve c ov o (.int ((i : Int) - ns.length)) = .ok n
    ∧ resolve c ov o (.sym n) = .ok n ∧ resolve c ov o (.str n) = .ok n := by
  have hi : i < ns.length := (List.getElem?_eq_some_iff.1 hn).1
  have hm : (ns.map Mem.sym).contains (.sym n) = true := by
    have := List.mem_of_getElem? hn
    simpa using this
  have e1 : ((ns.map Mem.sym)[i]?) = some (.sym n) := by simp [hn]
  refine ⟨?_, ?_, ?_, ?_⟩
  · have := (offset_clean ns c hs hc ov o i).1 (by omega) (by omega)
    simp only [resolve, this, callMembers_clean ns c hs hc.mem, Int.toNat_natCast, e1, Mem.nm]
  · have := (offset_clean ns c hs hc ov o ((i : Int) - ns.length)).2.1 (by omega) (by omega)
    have e2 : ((i : Int) - ns.length + ns.length).toNat = i := by omega
    rw [e2] at this
    simp only [resolve, this, callMembers_clean ns c hs hc.mem, e1, Mem.nm]
  · simp only [resolve, callMembers_clean ns c hs hc.mem, hm, if_true]
  · simp only [resolve, callMembers_clean ns c hs hc.mem, hm, if_true]

/-- C139, in part: a member's value is had by its position from the front, from the back, by Symbol and
by String alike; a position out of range raises IndexError, a name that is no member NameError.
Missing: members named like methods of Struct, user-defined readers, Floats as positions. -/
theorem C139_fetch_partial (ns : List String) (c : Cls) (hs : IsStruct ns c) (hc : Clean ns)
    (o : Obj V) (hl : o.slots.length = ns.length) :
    (∀ (i : Nat) n v, ns[i]? = some n → o.slots[i]? = some v →
      aref c noOver o (.int i) = .ok v ∧ aref c noOver o (.int ((i : Int) - ns.length)) = .ok v
      ∧ aref c noOver o (.sym n) = .ok v ∧ aref c noOver o (.str n) = .ok v)
    ∧ (∀ k : Int, k < -(ns.length : Int) ∨ (ns.length : Int) ≤ k →
      aref c noOver o (.int k) = .error .index)
    ∧ (∀ n, n ∉ ns → aref c noOver o (.sym n) = .error .name
      ∧ aref c noOver o (.str n) = .error .name) := by
  refine ⟨?_, ?_, ?_⟩
  · intro i n v hn hv
    obtain ⟨h1, h2, h3, h4⟩ := resolve_clean ns c hs hc noOver o i n hn
    have := send_member ns c hs hc.snd o i n v hn hv
    simp only [aref, h1, h2, h3, h4, this, and_self]
  · intro k hk
    have := (offset_clean ns c hs hc noOver o k).2.2 hk
    simp only [aref, resolve, this]
  · intro n hn
    have hm : (ns.map Mem.sym).contains (.sym n) = false := by simpa using hn
    simp only [aref, resolve, callMembers_clean ns c hs hc.mem, hm, Bool.false_eq_true, if_false,
      and_self]

/-- C139, in part: assignment by position, Symbol or String changes that member and no other; a frozen
struct refuses it, by index or by writer.
Missing: as for `C139_fetch_partial`. -/
theorem C139_store_partial (ns : List String) (c : Cls) (hs : IsStruct ns c) (hc : Clean ns)
    (o : Obj V) (hl : o.slots.length = ns.length) (i : Nat) (n : String) (hn : ns[i]? = some n)
    (w : V) :
    (o.frozen = false → ∃ o' : Obj V, aset c noOver o (.int i) w = .ok o'
      ∧ aset c noOver o (.int ((i : Int) - ns.length)) w = .ok o'
      ∧ aset c noOver o (.sym n) w = .ok o' ∧ aset c noOver o (.str n) w = .ok o'
      ∧ write c o n w = .ok o' ∧ o'.frozen = false
      ∧ aref c noOver o' (.sym n) = .ok w
      ∧ ∀ j : Nat, j ≠ i → o'.slots[j]? = o.slots[j]?)
    ∧ (o.frozen = true → ∀ k, aset c noOver o k w = .error .frozen ∧ write c o n w = .error .frozen) := by
  have hi : i < ns.length := (List.getElem?_eq_some_iff.1 hn).1
  have hix := idxOf?_getElem ns hs.nodup i n hn
  constructor
  · intro hf
    obtain ⟨h1, h2, h3, h4⟩ := resolve_clean ns c hs hc noOver o i n hn
    have hw : write c o n w = .ok { o with slots := o.slots.set i w } := by
      simp only [write, hs.rd, hix, hf, Bool.false_eq_true, if_false]
      rw [if_pos (by omega)]
    have hsnd : c.readers.contains "send" = false := by simpa [hs.rd] using hc.snd
    have hsw : sendWrite c o n w = .ok { o with slots := o.slots.set i w } := by
      simp only [sendWrite, hsnd, hw, Bool.false_eq_true, if_false]
    refine ⟨{ o with slots := o.slots.set i w }, ?_, ?_, ?_, ?_, hw, hf, ?_, ?_⟩
    · simp only [aset, hf, h1, hsw, Bool.false_eq_true, if_false]
    · simp only [aset, hf, h2, hsw, Bool.false_eq_true, if_false]
    · simp only [aset, hf, h3, hsw, Bool.false_eq_true, if_false]
    · simp only [aset, hf, h4, hsw, Bool.false_eq_true, if_false]
    · refine ((C139_fetch_partial ns c hs hc _ (by simpa using hl)).1 i n w hn ?_).2.2.1
      simp [show i < o.slots.length by omega]
    · intro j hj
      simp [List.getElem?_set, Ne.symm hj]
  · intro hf k
    constructor
    · simp only [aset, hf, if_true]
    · simp only [write, hs.rd, hix, hf, if_true]

/-- C139, in part: dig gives the member, or nil where `[]` would raise IndexError or NameError. -/
theorem C139_dig_partial (ns : List String) (c : Cls) (hs : IsStruct ns c) (hc : Clean ns)
    (o : Obj V) (hl : o.slots.length = ns.length) (k : Key) :
    (∀ v, aref c noOver o k = .ok v → dig1 c noOver o k = .ok v)
    ∧ (aref c noOver o k = .error .index ∨ aref c noOver o k = .error .name →
      dig1 c noOver o k = .ok Vals.nilV) := by
  have hsend : ∀ n, n ∈ ns → ∃ v, send c noOver o n = .ok v := by
    intro n hn
    obtain ⟨i, hi⟩ := List.getElem?_of_mem hn
    have hlt : i < ns.length := (List.getElem?_eq_some_iff.1 hi).1
    exact ⟨_, send_member ns c hs hc.snd o i n _ hi
      (List.getElem?_eq_getElem (by omega : i < o.slots.length))⟩
  have hname : ∀ n, (∀ v, aref c noOver o (.sym n) = .ok v → dig1 c noOver o (.sym n) = .ok v)
      ∧ (aref c noOver o (.sym n) = .error .index ∨ aref c noOver o (.sym n) = .error .name →
        dig1 c noOver o (.sym n) = .ok Vals.nilV) := by
    intro n
    by_cases hn : n ∈ ns
    · obtain ⟨v, hv⟩ := hsend n hn
      have hm : (ns.map Mem.sym).contains (.sym n) = true := by simpa using hn
      simp only [aref, resolve, dig1, callMembers_clean ns c hs hc.mem, hm, if_true, hv]
      simp
    · have hm : (ns.map Mem.sym).contains (.sym n) = false := by simpa using hn
      simp only [aref, resolve, dig1, callMembers_clean ns c hs hc.mem, hm, Bool.false_eq_true,
        if_false]
      simp
  cases k with
  | sym n => exact hname n
  | str n => exact hname n
  | flt i => simp [aref, dig1, resolve]
  | obj i => simp [aref, dig1, resolve]
  | int i =>
    by_cases hr : i < -(ns.length : Int) ∨ (ns.length : Int) ≤ i
    · have := (C139_fetch_partial ns c hs hc o hl).2.1 i hr
      rw [this]
      refine ⟨by simp, fun _ => ?_⟩
      simp only [dig1, callSize_clean ns c hs hc]
      rw [if_pos]
      split <;> omega
    · obtain ⟨j, hj, hji⟩ : ∃ j : Nat, j < ns.length ∧ (if i < 0 then i + ns.length else i) = j := by
        refine ⟨(if i < 0 then i + ns.length else i).toNat, ?_, ?_⟩ <;> split <;> omega
      have hn : ns[j]? = some ns[j] := List.getElem?_eq_getElem hj
      obtain ⟨w, hv⟩ : ∃ w, o.slots[j]? = some w :=
        ⟨_, List.getElem?_eq_getElem (by omega : j < o.slots.length)⟩
      obtain ⟨f1, f2, -, -⟩ := (C139_fetch_partial ns c hs hc o hl).1 j _ _ hn hv
      have hd : dig1 c noOver o (.int i) = .ok w := by
        simp only [dig1, callSize_clean ns c hs hc, hji]
        rw [if_neg (by omega)]
        simp only [callMembers_clean ns c hs hc.mem, Int.toNat_natCast, List.getElem?_map, hn,
          Option.map_some, Mem.nm]
        exact send_member ns c hs hc.snd o j _ _ hn hv
      have ha : aref c noOver o (.int i) = .ok w := by
        by_cases h0 : i < 0
        · rw [if_pos h0] at hji
          rw [show i = (j : Int) - ns.length by omega]
          exact f2
        · rw [if_neg h0] at hji
          rw [hji]
          exact f1
      rw [ha, hd]
      simp

/-- C139, in part: deconstruct_keys gives the values of the keys asked for, up to the first that is no
member; nothing when more are asked for than there are members. -/
theorem C139_deconstruct_keys_partial (ns : List String) (c : Cls) (hs : IsStruct ns c)
    (hc : Clean ns) (o : Obj V) (hl : o.slots.length = ns.length) (ks : List String) :
    ∃ r, deconstructKeys c noOver o ks = .ok r
      ∧ r.map Prod.fst = (if ns.length < ks.length then [] else ks.takeWhile (fun k => decide (k ∈ ns)))
      ∧ ∀ p ∈ r, aref c noOver o (.sym p.1) = .ok p.2 := by
  have loop : ∀ ks : List String, ∃ r, deconLoop c noOver o (ns.map Mem.sym) ks = .ok r
      ∧ r.map Prod.fst = ks.takeWhile (fun k => decide (k ∈ ns))
      ∧ ∀ p ∈ r, aref c noOver o (.sym p.1) = .ok p.2 := by
    intro ks
    induction ks with
    | nil => exact ⟨[], rfl, rfl, by simp⟩
    | cons n r ih =>
      obtain ⟨t, h1, h2, h3⟩ := ih
      by_cases hn : n ∈ ns
      · obtain ⟨i, hi⟩ := List.getElem?_of_mem hn
        have hlt : i < ns.length := (List.getElem?_eq_some_iff.1 hi).1
        have hv := List.getElem?_eq_getElem (by omega : i < o.slots.length)
        have hsend := send_member ns c hs hc.snd o i n _ hi hv
        have hget := ((C139_fetch_partial ns c hs hc o hl).1 i n _ hi hv).2.2.1
        have hm : (ns.map Mem.sym).contains (.sym n) = true := by simpa using hn
        refine ⟨_, by simp only [deconLoop, hm, if_true, hsend, h1]; rfl, ?_, ?_⟩
        · simp [hn, h2]
        · intro p hp
          rcases List.mem_cons.1 hp with hp | hp
          · subst hp
            exact hget
          · exact h3 p hp
      · have hm : (ns.map Mem.sym).contains (.sym n) = false := by simpa using hn
        refine ⟨[], by simp only [deconLoop, hm, Bool.false_eq_true, if_false], ?_, by simp⟩
        simp [hn]
  simp only [deconstructKeys, callSize_clean ns c hs hc, callMembers_clean ns c hs hc.mem]
  by_cases h : ns.length < ks.length
  · rw [if_pos (by omega)]
    exact ⟨[], rfl, by simp [h], by simp⟩
  · rw [if_neg (by omega)]
    obtain ⟨r, h1, h2, h3⟩ := loop ks
    exact ⟨r, h1, by simp [h, h2], h3⟩

/-! ### Equality and hash -/

/-- C139: `!=` is the negation of `==`, and raises when it does. -/
theorem C139_ne (neE : V → V → Except Err Bool) (ca cb : Nat) (a b : Obj V) :
    ne neE ca cb a b = (match eq neE ca cb a b with
      | .ok r => .ok (!r)
      | .error e => .error e) := by
  have loop : ∀ (x y : List V), neLoop neE x y = (match eqLoop neE x y with
      | .ok r => .ok (!r)
      | .error e => .error e) := by
    intro x
    induction x with
    | nil => intro y; rfl
    | cons u r ih =>
      intro y
      cases y with
      | nil => rfl
      | cons w s =>
        simp only [neLoop, eqLoop]
        cases neE u w with
        | error e => rfl
        | ok t => cases t <;> simp [ih]
  simp only [ne, eq]
  split
  · rfl
  · split
    · rfl
    · exact loop _ _

/-- C139: where elements' `!=` answers, two structs are `==` exactly when they are of one class and no
two values at one place are `!=`. -/
theorem C139_eq (neE : V → V → Except Err Bool) (d : V → V → Bool) (hd : ∀ x y, neE x y = .ok (d x y))
    (ca cb : Nat) (a b : Obj V) :
    eq neE ca cb a b = .ok true ↔ ca = cb ∧ a.slots.length = b.slots.length
      ∧ ∀ (i : Nat) x y, a.slots[i]? = some x → b.slots[i]? = some y → d x y = false := by
  have loop : ∀ (x y : List V), x.length = y.length → (eqLoop neE x y = .ok true ↔
      ∀ (i : Nat) u w, x[i]? = some u → y[i]? = some w → d u w = false) := by
    intro x
    induction x with
    | nil => intro y _; simp [eqLoop]
    | cons u r ih =>
      intro y hl
      cases y with
      | nil => cases hl
      | cons w s =>
        simp only [eqLoop, hd]
        cases hdu : d u w
        · simp only [Bool.false_eq_true, if_false]
          rw [ih s (by simpa using hl)]
          constructor
          · intro h i u' w' hu hw
            cases i with
            | zero =>
              simp at hu hw
              rw [← hu, ← hw, hdu]
            | succ j => exact h j u' w' (by simpa using hu) (by simpa using hw)
          · intro h i u' w' hu hw
            exact h (i + 1) u' w' (by simpa using hu) (by simpa using hw)
        · simp only [Except.ok.injEq, Bool.false_eq_true, false_iff]
          intro h
          have := h 0 u w rfl rfl
          rw [hdu] at this
          cases this
  simp only [eq]
  by_cases h1 : ca = cb
  · rw [if_neg (by simpa using h1)]
    by_cases h2 : a.slots.length = b.slots.length
    · rw [if_neg (by simpa using h2), loop _ _ h2]
      simp [h1, h2]
    · rw [if_pos h2]
      simp [h2]
  · rw [if_pos h1]
    simp [h1]

/-- C139: structs that are `eql?` feed the hasher alike, if their elements do. -/
theorem C139_hash (eqlE : V → V → Bool) (hashE : V → Nat)
    (hh : ∀ x y, eqlE x y = true → hashE x = hashE y) (ca cb : Nat) (a b : Obj V)
    (h : eql eqlE ca cb a b = true) : hashFeed hashE ca a = hashFeed hashE cb b := by
  simp only [eql] at h
  split at h
  · cases h
  · rename_i h1
    split at h
    · cases h
    · rename_i h2
      have h1 : ca = cb := by simpa using h1
      have h2 : a.slots.length = b.slots.length := by simpa using h2
      subst h1
      simp only [hashFeed, List.cons.injEq, true_and]
      apply List.ext_getElem (by simpa using h2)
      intro i hi1 hi2
      simp only [List.getElem_map]
      apply hh
      rw [List.all_eq_true] at h
      have hi1' : i < a.slots.length := by simpa using hi1
      have hi2' : i < b.slots.length := by simpa using hi2
      have := h (a.slots[i], b.slots[i]) (by
        rw [List.mem_iff_getElem]
        exact ⟨i, by simp; omega, by simp⟩)
      exact this

/-- C139 fails: a struct that holds a value which is `!=` to itself (NaN) is not `==` to itself. -/
theorem C139_eq_self_fails (neE : V → V → Except Err Bool) (nan : V) (h : neE nan nan = .ok true)
    (ca : Nat) (o : Obj V) (ho : o.slots = [nan]) : eq neE ca ca o o = .ok false := by
  simp [eq, ho, eqLoop, h]

/-! ### What fails -/

/-- Values for the witnesses. -/
inductive W where
  | nil
  | int (i : Int)
  | text (s : String)
deriving DecidableEq, Repr

instance : Vals W where
  nilV := .nil
  asInt := fun v => match v with | .int i => some i | _ => none
  asHash := fun _ => none
  ofHash := fun _ => .nil

/-- C139 fails: with a member named `size`, `s[0]` raises, whatever the other member's value. -/
theorem C139_size_member_fails (v : W) :
    ∃ c, define [.sym "name", .sym "size"] none = .ok c
      ∧ ∃ o : Obj W, new c [v] [] = .ok o ∧ aref c noOver o (.int 0) = .error .argument
        ∧ aref c noOver o (.sym "name") = .ok v
        ∧ ∃ o' : Obj W, new c [v, .int 0] [] = .ok o' ∧ aref c noOver o' (.int 0) = .error .index :=
  ⟨⟨[⟨some [.sym "name", .sym "size"], none⟩], ["name", "size"]⟩, by simp [define, Mem.nm], ⟨[v, .nil], false⟩, rfl,
    rfl, rfl, ⟨[v, .int 0], false⟩, rfl, rfl⟩

/-- C139 fails: with a member named `members`, to_a raises. -/
theorem C139_members_member_fails (v : W) :
    ∃ c, define [.sym "members"] none = .ok c
      ∧ ∃ o : Obj W, new c [v] [] = .ok o ∧ toA c noOver o = .error .noMethod :=
  ⟨⟨[⟨some [.sym "members"], none⟩], ["members"]⟩, by simp [define, Mem.nm], ⟨[v], false⟩, rfl, rfl⟩

/-- C139 fails: with a user-defined reader, to_a and `[]` give its value, not the member's. -/
theorem C139_override_fails (v w : V) :
    ∃ c, define [.sym "a"] none = .ok c
      ∧ ∃ (o : Obj V) (ov : Over V), new c [v] [] = .ok o ∧ toA c ov o = .ok [w]
        ∧ aref c ov o (.int 0) = .ok w ∧ o.slots = [v] :=
  ⟨⟨[⟨some [.sym "a"], none⟩], ["a"]⟩, by simp [define, Mem.nm], ⟨[v], false⟩,
    fun n => if n = "a" then some (fun _ => w) else none, rfl, rfl, rfl, rfl⟩

/-- C139 fails: a Float as index raises TypeError (CRuby truncates it). -/
theorem C139_float_index_fails (c : Cls) (o : Obj V) (i : Int) :
    aref c noOver o (.flt i) = .error .type := rfl

/-- C139 fails: `members` gives the class's own array: clearing it empties to_a of every instance,
adding a name makes to_a of every instance raise. -/
theorem C139_members_shared_fails (ns : List String) (c : Cls) (kw : Option Bool)
    (hdef : define (ns.map Mem.sym) kw = .ok c) (hc : Clean ns) (o : Obj V)
    (hl : o.slots.length = ns.length) (n : String) (hn : n ∉ ns) :
    toA c noOver o = .ok o.slots
    ∧ toA (changeMembers c (fun _ => [])) noOver o = .ok []
    ∧ toA (changeMembers c (fun ms => ms ++ [.sym n])) noOver o = .error .noMethod := by
  have hd : ns.Nodup := by
    apply Decidable.byContradiction
    intro h
    rw [(C139_define ns kw).2 h] at hdef
    cases hdef
  obtain ⟨c', hc', hs, -⟩ := (C139_define ns kw).1 hd
  rw [hdef] at hc'
  cases hc'
  have hcc : c = ⟨[⟨some (ns.map Mem.sym), kw⟩], ns⟩ := by
    have e : (ns.map Mem.sym).map Mem.nm = ns := by
      rw [List.map_map]
      exact List.map_id'' (fun _ => rfl) _
    rw [define, e, if_pos hd] at hdef
    cases hdef
    rfl
  have hmem : ns.contains "members" = false := by simpa using hc.mem
  have hsnd : ns.contains "send" = false := by simpa using hc.snd
  refine ⟨(C139_to_a_partial ns c hs hc o hl).1, ?_, ?_⟩
  · subst hcc
    simp only [toA, callMembers, changeMembers, changeMembers.go, membersOf, hmem,
      Bool.false_eq_true, if_false]
    rfl
  · have happ : ∀ (ms : List Mem), (∃ vs, sendAll c noOver o ms = .ok vs) →
        sendAll c noOver o (ms ++ [.sym n]) = .error .noMethod := by
      intro ms
      induction ms with
      | nil =>
        intro _
        have : c.readers.idxOf? n = none := by
          rw [hs.rd]
          rw [List.idxOf?, List.findIdx?_eq_none_iff]
          intro x hx
          simp only [beq_eq_false_iff_ne, ne_eq]
          intro e
          exact hn (e ▸ hx)
        have hsr : c.readers.contains "send" = false := by simpa [hs.rd] using hc.snd
        simp only [List.nil_append, sendAll, Mem.nm, send, hsr, callName, noOver, this,
          Bool.false_eq_true, if_false]
      | cons m r ih =>
        rintro ⟨vs, hvs⟩
        simp only [sendAll, List.cons_append] at hvs ⊢
        split at hvs
        · cases hvs
        · split at hvs
          · cases hvs
          · rename_i h2
            rw [ih ⟨_, h2⟩]
    have h0 := sendAll_drop ns c hs hc.snd o hl 0 ns rfl
    have := happ _ ⟨_, h0⟩
    have hsame : ∀ ms, sendAll (changeMembers c (fun ms => ms ++ [.sym n])) noOver o ms
        = sendAll c noOver o ms := by
      intro ms
      induction ms with
      | nil => rfl
      | cons m r ih =>
        simp only [sendAll, ih]
        rfl
    have hcm : callMembers (changeMembers c (fun ms => ms ++ [.sym n]))
        = .ok (ns.map Mem.sym ++ [.sym n]) := by
      subst hcc
      simp only [callMembers, changeMembers, changeMembers.go, membersOf, hmem,
        Bool.false_eq_true, if_false]
      rfl
    simp only [toA, hcm, hsame, this]

/-- C139 fails: with a name added to `members` after `new` was compiled, `new` kills the process. -/
theorem C139_members_baked_fails (n m : String) (v : V) :
    ∃ c, define [.sym n] none = .ok c
      ∧ initObj (changeMembers c (fun ms => ms ++ [.sym m])) (allocateBaked 1) [v] []
        = .error .panic :=
  ⟨⟨[⟨some [.sym n], none⟩], [n]⟩, by simp [define, Mem.nm], rfl⟩

/-- C139 fails: `initialize` sent to a frozen struct changes it. -/
theorem C139_frozen_initialize_fails (v w : V) :
    ∃ c, define [.sym "a"] none = .ok c
      ∧ initObj c ⟨[v], true⟩ [w] [] = .ok ⟨[w], true⟩ :=
  ⟨⟨[⟨some [.sym "a"], none⟩], ["a"]⟩, by simp [define, Mem.nm], rfl⟩

/-! ## Cases -/

/-- Values for the cases below: nil, numbers, and one Hash `{name: 7}`. -/
inductive Val where
  | nil
  | num (i : Int)
  | hash
deriving DecidableEq

instance : Vals Val := ⟨.nil, fun v => match v with | .num i => some i | _ => none,
  fun v => match v with | .hash => some [(.sym "name", .num 7)] | _ => none, fun _ => .hash⟩

/-- `P = Struct.new(:name, :age)` -/
def pCls : Cls := (define [.sym "name", .sym "age"] none).toOption.getD ⟨[], []⟩

/-- the same with `keyword_init: true` -/
def kCls : Cls := (define [.sym "name", .sym "age"] (some true)).toOption.getD ⟨[], []⟩

example : IsStruct ["name", "age"] pCls ∧ keywordInit pCls = false ∧ Clean ["name", "age"] :=
  ⟨by obtain ⟨c, hc, hs, _⟩ := (C139_define ["name", "age"] none).1 (by decide)
      have : pCls = c := by
        have hc' : define [.sym "name", .sym "age"] none = .ok c := hc
        simp [pCls, hc', Except.toOption]
      exact this ▸ hs, by rfl, by decide, by decide, by decide⟩

example : IsStruct ["name", "age"] kCls ∧ keywordInit kCls = true :=
  ⟨by obtain ⟨c, hc, hs, _⟩ := (C139_define ["name", "age"] (some true)).1 (by decide)
      have : kCls = c := by
        have hc' : define [.sym "name", .sym "age"] (some true) = .ok c := hc
        simp [kCls, hc', Except.toOption]
      exact this ▸ hs, by rfl⟩

example : new pCls [Val.num 1] [(.sym "x", .num 2)] = .ok ⟨[.num 1, .hash], false⟩ ∧
    new kCls [Val.hash] [] = .ok ⟨[.num 7, .nil], false⟩ ∧
    aref pCls noOver ⟨[Val.num 1, .num 2], false⟩ (.int (-1)) = .ok (.num 2) ∧
    toA pCls noOver ⟨[Val.num 1, .num 2], false⟩ = .ok [.num 1, .num 2] := ⟨rfl, rfl, rfl, rfl⟩

end Verif.StructCls
