import Verif.Ivar.StepLemmas

/-!
# Properties of instance variables

C36: setting an instance variable never changes any other instance variable, and reading an unset one
gives nil, however the slot table grows.
-/

namespace Verif.Ivar

variable {V : Type}

/-- **C36 (histories).**  Start from nothing and define classes, allocate objects, read, write and
remove variables by name, read and write them through interpreted sites with their caches, run
compiled bodies, create singleton classes, freeze, and copy objects.  As long as every copied object's
variables sit in the slots its real class gives them, nothing ever panics or touches memory outside
the slots, and every report is the one obtained by treating each object as a map from names to values:
a write changes one variable of one object, an unset variable reads as nil.

What is missing for the full property is the condition on copies (`okOp` on `dup` and `clone`); the
theorems `C36_dup_after_singleton_loses` and `C36_dup_after_singleton_renames` show that without it
the property fails. -/
theorem C36_history_partial (nil : V) (ops : List (Op V)) (hok : okRun nil St.init ops) :
    ∃ st, run nil St.init ops = some (st, (specRun nil ASt.init ops).2) := by
  obtain ⟨st, rs, h1, _, h3⟩ := run_refines nil ops St.init inv_init hok
  refine ⟨st, ?_⟩
  have : (abs (St.init : St V)) = ASt.init := rfl
  rw [this] at h3
  rw [h3]
  exact h1

/-- Seven variables on one object (the seventh leaves the inline slots), read back by name, through a
cache and by compiled code. -/
def demo : List (Op Nat) :=
  [.newClass true, .new 0, .new 0] ++ (List.range 7).map (fun i => .set 0 (Fin.ofNat _ (i + 1)) (10 * i)) ++
  [.newSite 7, .load 0 0, .load 0 1, .compile 0 [7, 1], .jit true 0 1 [(7, none), (7, some 5), (7, none)],
   .get 0 7, .dup 1, .get 2 7, .remove 0 7, .get 0 7]

example : (run 0 St.init demo).map (fun p => p.2.drop 10) =
    some [.unit, .val 60, .val 0, .unit, .vals [0, 5] false, .opt (some 60), .unit, .opt (some 5),
      .val 60, .opt none] := by decide +kernel

/-- An object without a singleton class can always be copied. -/
theorem copyOk_plain {st : St V} {o : Obj V} {k : Cls} (hk : st.classes[o.cls]? = some k)
    (hr : k.real = none) : copyOk st o := by
  intro n id hl _
  have : st.realClass o = o.cls := by simp [St.realClass, hk, hr]
  rw [this]; exact hl

/-- An object whose variables were all known to its class when the singleton class was created, and
are all that is set, can be copied too: the singleton's table starts as a copy. -/
example : ∃ st o, run (0 : Nat) St.init [.newClass true, .new 0, .set 0 3 8, .singleton 0] = some (st, [.unit, .unit, .unit, .unit]) ∧
    st.heap[0]? = some o ∧ st.realClass o = 0 ∧ o.cls = 1 ∧ copyOk st o := by
  refine ⟨_, _, rfl, rfl, rfl, rfl, ?_⟩
  intro n id hl _
  exact hl

/-- A history with a write, a singleton class, a copy and a compiled body meets the condition. -/
example : okRun (0 : Nat) St.init
    [.newClass true, .new 0, .set 0 3 8, .singleton 0, .dup 0, .compile 0 [3],
      .jit true 0 1 [(3, some 4), (3, none)], .clone 1] := by
  refine ⟨trivial, fun _ _ h => ?_⟩
  cases h
  refine ⟨⟨_, rfl, rfl⟩, fun _ _ h => ?_⟩
  cases h
  refine ⟨Nat.zero_lt_succ _, fun _ _ h => ?_⟩
  cases h
  refine ⟨Nat.zero_lt_succ _, fun _ _ h => ?_⟩
  cases h
  refine ⟨⟨_, rfl, fun n id hl _ => hl⟩, fun _ _ h => ?_⟩
  cases h
  refine ⟨Nat.zero_lt_succ _, fun _ _ h => ?_⟩
  cases h
  refine ⟨⟨_, _, rfl, rfl, rfl, by decide⟩, fun _ _ h => ?_⟩
  cases h
  exact ⟨⟨_, rfl, fun n id hl _ => hl⟩, fun _ _ h => trivial⟩

/-- **C36 (one write).**  In every reachable state a write by name is read back, and every other
variable of every object keeps its value. -/
theorem C36_write_frame (nil : V) (ops : List (Op V)) (hok : okRun nil St.init ops) {st : St V}
    {rs : List (Res V)} (hrun : run nil St.init ops = some (st, rs)) (i : Nat) (n : Name) (x : V)
    {o : Obj V} (hi : st.heap[i]? = some o) (hfz : o.frozen = false) :
    ∃ st', step nil st (.set i n x) = some (st', .unit) ∧
      step nil st' (.get i n) = some (st', .opt (some x)) ∧
      ∀ j m, j ≠ i ∨ m ≠ n → (step nil st' (.get j m)).map (·.2) = (step nil st (.get j m)).map (·.2) := by
  obtain ⟨st1, rs1, h1, h2, _⟩ := run_refines nil ops St.init inv_init hok
  rw [hrun] at h1
  cases h1
  have hlt := (List.getElem?_eq_some_iff.mp hi).1
  obtain ⟨st', r, s1, s2, s3⟩ := step_refines nil h2 (.set i n x) hlt
  have hspec : specStep nil (abs st) (.set i n x) =
      ({ abs st with objs := (abs st).objs.set i ((absObj st o).upd n (some x)) }, .unit) := by
    unfold specStep
    dsimp only
    rw [abs_get hi]
    dsimp only
    unfold specSet
    rw [if_neg (by simp [absObj, hfz])]
  rw [hspec] at s3
  have hr : r = .unit := (congrArg Prod.snd s3).symm
  have habs : abs st' = { abs st with objs := (abs st).objs.set i ((absObj st o).upd n (some x)) } :=
    (congrArg Prod.fst s3).symm
  subst hr
  have hget : ∀ (s : St V), Inv s → ∀ j m, j < s.heap.length →
      ∃ ob, (abs s).objs[j]? = some ob ∧ step nil s (.get j m) = some (s, .opt (ob.vars m)) := by
    intro s hs j m hj
    have hh : s.heap[j]? = some s.heap[j] := List.getElem?_eq_getElem hj
    refine ⟨_, abs_get hh, ?_⟩
    unfold step
    dsimp only
    rw [hh]
    dsimp only
    rw [getIvar_eq (hs.objs j _ hh)]
    rfl
  have hlen : st'.heap.length = st.heap.length := by
    have := congrArg (fun a => a.objs.length) habs
    simpa [abs] using this
  refine ⟨st', s1, ?_, ?_⟩
  · obtain ⟨ob, g1, g2⟩ := hget st' s2 i n (by omega)
    rw [habs] at g1
    dsimp only at g1
    rw [List.getElem?_set_self (by simpa [abs] using hlt)] at g1
    cases g1
    rw [g2]
    simp [AObj.upd]
  · intro j m hjm
    by_cases hj : j < st.heap.length
    · obtain ⟨ob, g1, g2⟩ := hget st' s2 j m (by omega)
      obtain ⟨ob', g1', g2'⟩ := hget st h2 j m hj
      rw [g2, g2']
      dsimp only [Option.map_some]
      congr 2
      rw [habs] at g1
      dsimp only at g1
      by_cases hij : i = j
      · subst hij
        rw [List.getElem?_set_self (by simpa [abs] using hlt)] at g1
        cases g1
        rw [abs_get hi] at g1'
        cases g1'
        have hm : m ≠ n := by rcases hjm with h | h; exact absurd rfl h; exact h
        simp [AObj.upd, hm]
      · rw [List.getElem?_set_ne hij, g1'] at g1
        cases g1
        rfl
    · have e1 : st'.heap[j]? = none := List.getElem?_eq_none (by omega)
      have e2 : st.heap[j]? = none := List.getElem?_eq_none (by omega)
      unfold step
      dsimp only
      rw [e1, e2]
      rfl

example : ∃ st rs, run (0 : Nat) St.init demo = some (st, rs) ∧
    (st.heap[0]?).map (·.frozen) = some false := by
  exact ⟨_, _, rfl, by decide +kernel⟩

/-- **C36 (listing).**  In every reachable state `instance_variables` lists each visible variable that
is set exactly once, with its value, and nothing else. -/
theorem C36_listing (hidden : Name → Bool) (nil : V) (ops : List (Op V))
    (hok : okRun nil St.init ops) {st : St V} {rs : List (Res V)}
    (hrun : run nil St.init ops = some (st, rs)) {i : Nat} {o : Obj V} (hi : st.heap[i]? = some o) :
    ∃ l, st.getIvars hidden o = some l ∧ (l.map (·.1)).Nodup ∧
      ∀ n v, (n, v) ∈ l ↔ hidden n = false ∧
        step nil st (.get i n) = some (st, .opt (some v)) := by
  obtain ⟨st1, rs1, h1, h2, _⟩ := run_refines nil ops St.init inv_init hok
  rw [hrun] at h1
  cases h1
  have hf := h2.objs i o hi
  have hw := table_wf h2 o.cls
  have hget : ∀ n, step nil st (.get i n) = some (st, .opt (absVars st o n)) := by
    intro n
    unfold step
    dsimp only
    rw [hi]
    dsimp only
    rw [getIvar_eq hf]
  unfold St.getIvars
  -- over any part of the table
  have key : ∀ t : Table, ∃ l, t.foldr
      (fun p acc =>
        match acc, o.getById p.2 with
        | some l, some (some v) => some ((p.1, v) :: l)
        | some l, some none => some l
        | _, _ => none) (some []) = some l ∧ (l.map (·.1)).Sublist (t.map (·.1)) ∧
      ∀ n v, (n, v) ∈ l ↔ ∃ id, (n, id) ∈ t ∧ o.slot id = some v := by
    intro t
    induction t with
    | nil => exact ⟨[], rfl, by simp, by simp⟩
    | cons p t ih =>
      obtain ⟨l, l1, l2, l3⟩ := ih
      rw [List.foldr_cons, l1, Obj.getById_eq hf.wf]
      obtain ⟨pn, pid⟩ := p
      dsimp only
      cases hs : o.slot pid with
      | none =>
        dsimp only
        refine ⟨l, rfl, ?_, ?_⟩
        · rw [List.map_cons]
          exact l2.cons pn
        · intro n v
          rw [l3]
          constructor
          · rintro ⟨id, h1, h2⟩; exact ⟨id, by simp [h1], h2⟩
          · rintro ⟨id, h1, h2⟩
            rcases List.mem_cons.mp h1 with h | h
            · cases h
              rw [hs] at h2
              cases h2
            · exact ⟨id, h, h2⟩
      | some w =>
        dsimp only
        refine ⟨_, rfl, ?_, ?_⟩
        · simpa using l2
        · intro n v
          rw [List.mem_cons, l3]
          constructor
          · rintro (h | ⟨id, h1, h2⟩)
            · cases h
              exact ⟨pid, by simp, hs⟩
            · exact ⟨id, by simp [h1], h2⟩
          · rintro ⟨id, h1, h2⟩
            rcases List.mem_cons.mp h1 with h | h
            · cases h
              rw [hs] at h2
              cases h2
              exact Or.inl rfl
            · exact Or.inr ⟨id, h, h2⟩
  obtain ⟨l, l1, l2, l3⟩ := key ((st.table o.cls).filter (fun p => !hidden p.1))
  refine ⟨l, l1, ?_, ?_⟩
  · refine l2.nodup ?_
    exact (List.filter_sublist.map _).nodup hw.nodup
  · intro n v
    rw [l3, hget]
    have hin : ∀ id, (n, id) ∈ (st.table o.cls).filter (fun p => !hidden p.1) ↔
        hidden n = false ∧ (st.table o.cls).lookup n = some id := by
      intro id
      rw [List.mem_filter]
      constructor
      · rintro ⟨h1, h2⟩
        obtain ⟨k, hk⟩ := List.mem_iff_getElem?.mp h1
        have hid := hw.ids k _ hk
        dsimp only at hid
        subst hid
        exact ⟨by simpa using h2, Table.lookup_of_pos hw hk⟩
      · rintro ⟨h1, h2⟩
        exact ⟨List.mem_iff_getElem?.mpr ⟨id, Table.lookup_some hw h2⟩, by simp [h1]⟩
    constructor
    · rintro ⟨id, h1, h2⟩
      obtain ⟨h3, h4⟩ := (hin id).mp h1
      refine ⟨h3, ?_⟩
      unfold absVars
      rw [h4, ← h2]
    · rintro ⟨h1, h2⟩
      have h3 : absVars st o n = some v := by simpa using h2
      unfold absVars at h3
      cases hl : (st.table o.cls).lookup n with
      | none => rw [hl] at h3; cases h3
      | some id =>
        rw [hl] at h3
        exact ⟨id, (hin id).mpr ⟨h1, hl⟩, h3⟩

example : ∃ st rs o, run (0 : Nat) St.init demo = some (st, rs) ∧ st.heap[0]? = some o ∧
    (st.getIvars (fun n => n = 2) o) = some [(1, 0), (3, 20), (4, 30), (5, 40), (6, 50)] := by
  exact ⟨_, _, _, rfl, rfl, by decide +kernel⟩

/-! ## Where the property fails

A singleton class starts with a copy of its class's name table, and the two tables then grow apart.
`dup` (and `clone`) copy the slots and re-attach the copy to the real class without translating. -/

/-- A variable set after the singleton class was created is lost by `dup`: the copy reads nil. -/
theorem C36_dup_after_singleton_loses :
    (run (0 : Nat) St.init
      [.newClass true, .new 0, .singleton 0, .set 0 1 42, .dup 0, .get 0 1, .get 1 1]).map (·.2) =
      some [.unit, .unit, .unit, .unit, .unit, .opt (some 42), .opt none] ∧
    (specRun (0 : Nat) ASt.init
      [.newClass true, .new 0, .singleton 0, .set 0 1 42, .dup 0, .get 0 1, .get 1 1]).2 =
      [.unit, .unit, .unit, .unit, .unit, .opt (some 42), .opt (some 42)] := by
  constructor
  · decide +kernel
  · rfl

/-- If meanwhile another object of the class gets a variable of another name, the copy has the value
under that name, which was never set on the original. -/
theorem C36_dup_after_singleton_renames :
    (run (0 : Nat) St.init
      [.newClass true, .new 0, .new 0, .singleton 0, .set 0 1 42, .set 1 2 7, .dup 0, .get 0 2,
        .get 2 1, .get 2 2]).map (fun p => p.2.drop 7) =
      some [.opt none, .opt none, .opt (some 42)] := by
  decide +kernel

/-- The same with `clone`; and a later write of a third variable to an unrelated object makes the
variable appear on the copy. -/
theorem C36_clone_after_singleton_renames :
    (run (0 : Nat) St.init
      [.newClass true, .new 0, .new 0, .singleton 0, .set 0 1 42, .set 1 2 7, .clone 0, .get 2 1,
        .get 2 2]).map (fun p => p.2.drop 7) =
      some [.opt none, .opt (some 42)] ∧
    (run (0 : Nat) St.init
      [.newClass true, .new 0, .new 0, .singleton 0, .set 0 1 42, .dup 0, .get 2 3, .set 1 3 7,
        .get 2 3]).map (fun p => p.2.drop 6) =
      some [.opt none, .unit, .opt (some 42)] := by
  constructor <;> decide +kernel

/-- The loss is not an accident of the example: in every state, a variable whose name the real class
does not know is absent from the `dup`. -/
theorem C36_dup_drops_unknown (nil : V) {st st' : St V} {i : Nat} {o : Obj V} {r : Res V}
    (hi : st.heap[i]? = some o) (h : step nil st (.dup i) = some (st', r)) {n : Name}
    (hn : (st.table (st.realClass o)).lookup n = none) :
    step nil st' (.get st.heap.length n) = some (st', .opt none) := by
  unfold step at h
  dsimp only at h
  rw [hi] at h
  dsimp only at h
  unfold St.dup at h
  cases hc : o.copy with
  | none => rw [hc] at h; cases h
  | some c =>
    rw [hc] at h
    simp only [Option.map_some, Option.some.injEq, Prod.mk.injEq] at h
    obtain ⟨rfl, rfl⟩ := h
    unfold step
    dsimp only
    have : (st.heap ++ [({ c with cls := st.realClass o } : Obj V)])[st.heap.length]? =
        some { c with cls := st.realClass o } := by simp
    rw [this]
    dsimp only
    unfold St.getIvar
    dsimp only
    have ht : St.table { st with heap := st.heap ++ [({ c with cls := st.realClass o } : Obj V)] }
        (st.realClass o) = st.table (st.realClass o) := rfl
    rw [ht, hn]

end Verif.Ivar
