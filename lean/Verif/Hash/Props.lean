import Verif.Hash.Sim
import Verif.Rubymap.Props

/-! # C11, C12: the Hash as an ordered map, and its traversals -/

namespace Verif.Hash

open Verif.Rubymap (Table Core Bucket listTable)

variable {Tb : Table} {K V : Type} [DecidableEq K] {env : Env K V}

/-! ## C11 -/

/-- Every history of operations on a Hash of any initial capacity answers what the ordered
list of pairs answers, and the pairs listed at the end are those of the list.  No history
reaches a panic.  Holds for every index table, every digest and every `eql?`
that is an equivalence compatible with the digest. -/
theorem C11_history_refines_list (ct : Contract env) (n : Nat) (ops : List (Op K V))
    (hn : NestedAll env aNew ops) :
    ∃ s' : Sys Tb K V, run env ⟨H.new n, []⟩ ops = some (s', (aRun env aNew ops).2) ∧
      s'.h.content = (aRun env aNew ops).1.pairs ∧
      s'.h.len = (aRun env aNew ops).1.pairs.length := by
  obtain ⟨s', e, r⟩ := run_ok ct ops (new_ok (Tb := Tb) env n) hn
  exact ⟨s', e, r.pairs, by rw [len_ok r.ok, r.pairs]⟩

/-- The states a program can bring a Hash into. -/
def Reach (Tb : Table) (env : Env K V) (s : Sys Tb K V) : Prop :=
  ∃ n ops outs, NestedAll env aNew ops ∧ run env ⟨H.new n, []⟩ ops = some (s, outs)

theorem Reach.rel (ct : Contract env) {s : Sys Tb K V} (h : Reach Tb env s) :
    ∃ a, R env s a := by
  obtain ⟨n, ops, outs, hn, e⟩ := h
  obtain ⟨s', e', r⟩ := run_ok ct ops (new_ok (Tb := Tb) env n) hn
  rw [e] at e'
  cases e'
  exact ⟨_, r⟩

/-- `find?` in a list whose keys are all different modulo `same`. -/
theorem lookup_map (ct : Contract env) {ident : Bool} {l : List (K × V)} {k k' : K} {v : V} :
    lookup env ident k' (l.map (fun p => if same env ident k p.1 then (p.1, v) else p)) =
      if same env ident k k' ∧ present env ident k l then some v else lookup env ident k' l := by
  induction l with
  | nil => simp [lookup, present]
  | cons p l ih =>
    unfold lookup present at *
    simp only [List.map_cons, List.find?_cons, List.any_cons]
    by_cases hp : same env ident k p.1 = true
    · simp only [hp, if_true, Bool.true_or, and_true]
      by_cases hk : same env ident k' p.1 = true
      · have : same env ident k k' = true := same_trans ct hp (same_symm ct hk)
        simp [hk, this]
      · have hk' : same env ident k' p.1 = false := by simpa using hk
        have : same env ident k k' = false := by
          by_contra hc
          exact hk (same_trans ct (same_symm ct (by simpa using hc)) hp)
        simp only [hk', this] at ih ⊢
        simpa using ih
    · have hp' : same env ident k p.1 = false := by simpa using hp
      simp only [hp', Bool.false_or]
      by_cases hk : same env ident k' p.1 = true
      · have : same env ident k k' = false := by
          by_contra hc
          exact hp (same_trans ct (by simpa using hc) hk)
        simp [hk, this]
      · have hk' : same env ident k' p.1 = false := by simpa using hk
        simp only [Bool.false_eq_true, if_false, hk']
        exact ih

theorem lookup_put (ct : Contract env) {ident : Bool} {l : List (K × V)} {k k' : K} {v : V} :
    lookup env ident k' (put env ident k v l) =
      if same env ident k k' then some v else lookup env ident k' l := by
  unfold put
  by_cases hp : present env ident k l = true
  · rw [if_pos hp, lookup_map ct]
    simp [hp]
  · rw [if_neg hp]
    unfold lookup
    rw [List.find?_append]
    by_cases hs : same env ident k k' = true
    · have : l.find? (fun p => same env ident k' p.1) = none := by
        rw [List.find?_eq_none]
        intro p hpm hc
        apply hp
        unfold present
        rw [List.any_eq_true]
        exact ⟨p, hpm, same_trans ct hs hc⟩
      rw [this, if_pos hs]
      simp [same_symm ct hs]
    · have : same env ident k' k = false := by
        by_contra hc
        exact hs (same_symm ct (by simpa using hc))
      simp [hs, this]

theorem lookup_del (ct : Contract env) {ident : Bool} {l : List (K × V)} {k k' : K} :
    lookup env ident k' (del env ident k l) =
      if same env ident k k' then none else lookup env ident k' l := by
  unfold lookup del
  induction l with
  | nil => simp
  | cons p l ih =>
    rw [List.filter_cons]
    by_cases hp : same env ident k p.1 = true
    · simp only [hp, Bool.not_true, Bool.false_eq_true, if_false]
      rw [ih, List.find?_cons]
      by_cases hk : same env ident k k' = true
      · simp [hk]
      · have : same env ident k' p.1 = false := by
          by_contra hc
          exact hk (same_trans ct hp (same_symm ct (by simpa using hc)))
        simp [hk, this]
    · have hp' : same env ident k p.1 = false := by simpa using hp
      simp only [hp', Bool.not_false, if_true, List.find?_cons]
      by_cases hk : same env ident k' p.1 = true
      · have : same env ident k k' = false := by
          by_contra hc
          exact hp (same_trans ct (by simpa using hc) hk)
        simp [hk, this]
      · have hk' : same env ident k' p.1 = false := by simpa using hk
        simp only [hk']
        exact ih

/-- The value last stored under a key since it was last removed, read off a history. -/
def lastStored (env : Env K V) (k : K) : List (Op K V) → Option V
  | [] => none
  | ops => ops.foldl (fun acc op =>
      match op with
      | .put k' v => if env.eqb k' k then some v else acc
      | .del k' => if env.eqb k' k then none else acc
      | .clear => none
      | _ => acc) none

/-- histories of stores, removals, reads, `rehash` and `dup` -/
def plain : Op K V → Bool
  | .put .. | .del _ | .clear | .get _ | .has _ | .size | .toA | .rehash | .dup => true
  | _ => false

/-- Reading a key after a history of stores and removals returns the value last stored
under an equal key since it was last removed. -/
theorem C11_reads_last_stored (ct : Contract env) (n : Nat) (ops : List (Op K V))
    (hp : ∀ op ∈ ops, plain op = true) (k : K) :
    ∃ s' outs, run env (⟨H.new n, []⟩ : Sys Tb K V) ops = some (s', outs) ∧
      s'.h.get env k = some (lastStored env k ops) := by
  have nest : ∀ (ops : List (Op K V)) (a : ASys K V), (∀ op ∈ ops, plain op = true) →
      NestedAll env a ops := by
    intro ops
    induction ops with
    | nil => intro a _; trivial
    | cons op ops ih =>
      intro a h
      refine ⟨?_, ih _ (fun o ho => h o (by simp [ho]))⟩
      have := h op (by simp)
      cases op <;> first | trivial | (simp [plain] at this)
  obtain ⟨s', e, r⟩ := run_ok ct ops (new_ok (Tb := Tb) env n) (nest ops _ hp)
  refine ⟨s', _, e, ?_⟩
  rw [get_ok ct r.ok, r.ident, r.pairs]
  have main : ∀ (ops : List (Op K V)) (a : ASys K V), (∀ op ∈ ops, plain op = true) →
      a.curs = [] → a.ident = false → a.dflt = none →
      (aRun env a ops).1.ident = false ∧ (aRun env a ops).1.dflt = none ∧
      lookup env false k (aRun env a ops).1.pairs =
        ops.foldl (fun acc op =>
          match op with
          | .put k' v => if env.eqb k' k then some v else acc
          | .del k' => if env.eqb k' k then none else acc
          | .clear => none
          | _ => acc) (lookup env false k a.pairs) := by
    intro ops
    induction ops with
    | nil => intro a _ _ h1 h2; exact ⟨h1, h2, rfl⟩
    | cons op ops ih =>
      intro a h hc hi hd
      have ih := fun a' => ih a' (fun o ho => h o (by simp [ho]))
      have hpl := h op (by simp)
      simp only [aRun, List.foldl_cons]
      cases op with
      | put k' v =>
        have := ih { a with pairs := put env a.ident k' v a.pairs } hc hi hd
        simp only [aStep, hc, ne_eq, not_true, false_and, if_false]
        rw [hc] at this
        refine ⟨this.1, this.2.1, ?_⟩
        rw [this.2.2]
        simp only [hi, lookup_put ct, same, Bool.false_eq_true, if_false]
      | del k' =>
        have := ih { a with pairs := del env a.ident k' a.pairs } hc hi hd
        simp only [aStep]
        refine ⟨this.1, this.2.1, ?_⟩
        rw [this.2.2]
        simp only [hi, lookup_del ct, same, Bool.false_eq_true, if_false]
      | clear =>
        have := ih { a with pairs := [] } hc hi hd
        simp only [aStep, hc, ne_eq, not_true, if_false]
        rw [hc] at this
        exact this
      | get _ => exact ih a hc hi hd
      | has _ => exact ih a hc hi hd
      | size => exact ih a hc hi hd
      | toA => exact ih a hc hi hd
      | rehash =>
        simp only [aStep, hc, ne_eq, not_true, if_false]
        exact ih a hc hi hd
      | dup => exact ih { a with curs := [] } rfl hi hd
      | _ => simp [plain] at hpl
  obtain ⟨h1, h2, h3⟩ := main ops aNew hp rfl rfl rfl
  rw [h1, h3]
  cases ops with
  | nil => rfl
  | cons op ops => simp [lastStored, lookup, aNew]

/-- No two listed keys are the same key, and the size is the number of listed pairs. -/
theorem C11_keys_distinct_and_counted (ct : Contract env) {s : Sys Tb K V}
    (h : Reach Tb env s) :
    s.h.content.Pairwise (fun p q => same env s.h.ident p.1 q.1 = false) ∧
      s.h.len = s.h.content.length := by
  obtain ⟨a, r⟩ := h.rel ct
  exact ⟨r.ok.distinct, len_ok r.ok⟩

/-- A store under a present key keeps the list of keys; a store under an absent key appends
it. -/
theorem C11_order_is_first_insertion (ct : Contract env) {s : Sys Tb K V} (h : Reach Tb env s)
    (hc : s.curs = []) (k : K) (v : V) :
    ∃ s', step env s (.put k v) = some (s', .done) ∧
      s'.h.content.map (·.1) =
        if (s.h.content.map (·.1)).any (fun x => same env s.h.ident k x)
        then s.h.content.map (·.1) else s.h.content.map (·.1) ++ [k] := by
  obtain ⟨a, r⟩ := h.rel ct
  obtain ⟨s', e, r'⟩ := step_ok ct r (.put k v) trivial
  have hac : a.curs = [] := by
    have := r.len
    rw [hc] at this
    exact List.length_eq_zero_iff.1 this.symm
  simp only [aStep, hac, ne_eq, not_true, false_and, if_false] at e r'
  refine ⟨s', e, ?_⟩
  rw [r'.pairs, r.pairs, r.ident, List.any_map]
  simp only [put, present]
  show List.map _ (if (a.pairs.any fun p => same env a.ident k p.1) = true then _ else _) =
    if (a.pairs.any fun p => same env a.ident k p.1) = true then _ else _
  split
  · rw [List.map_map]
    apply List.map_congr_left
    intro p _
    simp only [Function.comp]
    split <;> rfl
  · simp

/-! ## C12 -/

/-- Where the traversal at position `p` (0 is the innermost) stands after a history; `none`
once it has ended. -/
def trackPos : Nat → List (Op K V) → Option Nat
  | p, [] => some p
  | p, .iterBegin :: ops => trackPos (p + 1) ops
  | p, .iterEnd j :: ops =>
    if j < p then trackPos (p - 1) ops else if j = p then none else trackPos p ops
  | _, .dup :: _ => none
  | p, _ :: ops => trackPos p ops

/-- The pairs the traversal at position `p` handed to its block during a history. -/
def yielded : Nat → List (Op K V) → List (Out K V) → List (K × V)
  | p, .iterBegin :: ops, _ :: outs => yielded (p + 1) ops outs
  | p, .iterEnd j :: ops, _ :: outs =>
    if j < p then yielded (p - 1) ops outs else if j = p then [] else yielded p ops outs
  | p, .iterNext j :: ops, o :: outs =>
    match o with
    | .pair (some q) => if j = p then q :: yielded p ops outs else yielded p ops outs
    | _ => yielded p ops outs
  | _, .dup :: _, _ => []
  | p, _ :: ops, _ :: outs => yielded p ops outs
  | _, _, _ => []

/-- Invariant of the traversals of the specification. -/
def CurInv (pairs : List (K × V)) (c : ACur K) : Prop :=
  c.start.Nodup ∧ (c.seen ++ c.todo).Sublist c.start ∧ ∀ k ∈ pairs.map (·.1), k ∈ c.seen ++ c.todo

def AInv (env : Env K V) (a : ASys K V) : Prop :=
  Distinct env a.ident a.pairs ∧ ∀ c ∈ a.curs, CurInv a.pairs c

theorem CurInv.mono {ps ps' : List (K × V)} {c : ACur K} (h : CurInv ps c)
    (hs : ∀ k ∈ ps'.map (·.1), k ∈ ps.map (·.1)) : CurInv ps' c :=
  ⟨h.1, h.2.1, fun k hk => h.2.2 k (hs k hk)⟩

theorem takeWhile_holds {α : Type} {q : α → Bool} {l : List α} {x : α} (h : x ∈ l.takeWhile q) :
    q x = true := by
  induction l with
  | nil => cases h
  | cons y l ih =>
    rw [List.takeWhile_cons] at h
    split at h
    · rename_i hy
      rcases List.mem_cons.1 h with rfl | h
      · exact hy
      · exact ih h
    · cases h

theorem CurInv.next {ps : List (K × V)} {c : ACur K} (h : CurInv ps c) {k : K} {rest : List K}
    (e : c.todo.dropWhile (fun k => !still ps k) = k :: rest) :
    CurInv ps ⟨c.start, c.seen ++ [k], rest, some k⟩ := by
  have hsplit := List.takeWhile_append_dropWhile (p := fun k => !still ps k) (l := c.todo)
  rw [e] at hsplit
  refine ⟨h.1, ?_, ?_⟩
  · refine List.Sublist.trans ?_ h.2.1
    rw [← hsplit]
    simp only [List.append_assoc, List.singleton_append]
    exact (List.Sublist.refl _).append (List.sublist_append_right _ _)
  · intro x hx
    have := h.2.2 x hx
    rw [← hsplit] at this
    simp only [List.mem_append] at this
    simp only [List.append_assoc, List.singleton_append, List.mem_append]
    rcases this with h1 | h1 | h1
    · exact Or.inl h1
    · exfalso
      have hst := takeWhile_holds h1
      simp only [still, Bool.not_eq_true', decide_eq_false_iff_not] at hst
      exact hst hx
    · exact Or.inr h1

theorem CurInv.finish {ps : List (K × V)} {c : ACur K} (h : CurInv ps c)
    (e : c.todo.dropWhile (fun k => !still ps k) = []) :
    CurInv ps ⟨c.start, c.seen, [], none⟩ := by
  refine ⟨h.1, ?_, ?_⟩
  · refine List.Sublist.trans ?_ h.2.1
    simp
  · intro x hx
    have := h.2.2 x hx
    simp only [List.append_nil]
    rcases List.mem_append.1 this with h1 | h1
    · exact h1
    · exfalso
      have hsplit := List.takeWhile_append_dropWhile (p := fun k => !still ps k) (l := c.todo)
      rw [e, List.append_nil] at hsplit
      rw [← hsplit] at h1
      have hall := takeWhile_holds h1
      simp only [still, Bool.not_eq_true', decide_eq_false_iff_not] at hall
      exact hall hx

theorem put_keys_sub {ident : Bool} {l : List (K × V)} {k : K} {v : V}
    (hp : present env ident k l = true) :
    (put env ident k v l).map (·.1) = l.map (·.1) := by
  unfold put
  rw [if_pos hp, List.map_map]
  apply List.map_congr_left
  intro p _
  simp only [Function.comp]
  split <;> rfl

theorem aStep_inv (ct : Contract env) {a : ASys K V} (h : AInv env a)
    (hd : ∀ op, Distinct env (aStep env a op).1.ident (aStep env a op).1.pairs)
    (op : Op K V) : AInv env (aStep env a op).1 := by
  refine ⟨hd op, ?_⟩
  have hc := h.2
  cases op with
  | get k => exact hc
  | has k => exact hc
  | size => exact hc
  | toA => exact hc
  | put k v =>
    simp only [aStep]
    split
    · exact hc
    · rename_i hcond
      intro c hcm
      have hpres : present env a.ident k a.pairs = true := by
        by_contra hne
        refine hcond ⟨?_, by simpa using hne⟩
        intro e
        simp only [e] at hcm
        cases hcm
      refine (hc c hcm).mono ?_
      simp only [put_keys_sub hpres]
      exact fun _ hk => hk
  | del k =>
    intro c hcm
    refine (hc c hcm).mono ?_
    intro x hx
    obtain ⟨p, hp, rfl⟩ := List.mem_map.1 hx
    exact List.mem_map.2 ⟨p, (List.mem_filter.1 hp).1, rfl⟩
  | shift =>
    intro c hcm
    refine (hc c hcm).mono ?_
    intro x hx
    obtain ⟨p, hp, rfl⟩ := List.mem_map.1 hx
    exact List.mem_map.2 ⟨p, List.mem_of_mem_tail hp, rfl⟩
  | clear =>
    simp only [aStep]
    split
    · exact hc
    · rename_i hnil
      intro c hcm
      simp only [ne_eq, not_not] at hnil
      simp only [hnil] at hcm
      cases hcm
  | setDefault d => exact hc
  | compareByIdentity =>
    simp only [aStep]
    split
    · exact hc
    · exact hc
  | resetMode b =>
    simp only [aStep]
    split
    · exact hc
    · rename_i hnil
      intro c hcm
      simp only [ne_eq, not_not] at hnil
      simp only [hnil] at hcm
      cases hcm
  | rehash =>
    simp only [aStep]
    split
    · exact hc
    · exact hc
  | dup => intro c hcm; cases hcm
  | iterBegin =>
    intro c hcm
    rcases List.mem_cons.1 hcm with rfl | hcm
    · refine ⟨?_, by simp, by intro k hk; simpa [aStep] using hk⟩
      rw [List.Nodup, List.pairwise_map]
      refine h.1.imp ?_
      intro p q hpq e
      rw [e, same_refl ct] at hpq
      cases hpq
    · exact hc c hcm
  | iterNext j =>
    simp only [aStep]
    cases hj : a.curs[j]? with
    | none => exact hc
    | some c =>
      have hcj := hc c (List.mem_of_getElem? hj)
      simp only []
      cases e : c.todo.dropWhile (fun k => !still a.pairs k) with
      | nil =>
        intro d hdm
        rcases List.mem_or_eq_of_mem_set hdm with hdm | rfl
        · exact hc d hdm
        · exact hcj.finish e
      | cons k rest =>
        intro d hdm
        rcases List.mem_or_eq_of_mem_set hdm with hdm | rfl
        · exact hc d hdm
        · exact hcj.next e
  | iterSet j v =>
    simp only [aStep]
    split
    · intro c hcm
      refine (hc c hcm).mono ?_
      intro x hx
      simp only [List.map_map] at hx
      obtain ⟨p, hp, rfl⟩ := List.mem_map.1 hx
      refine List.mem_map.2 ⟨p, hp, ?_⟩
      simp only [Function.comp]
      split <;> rfl
    · exact hc
  | iterEnd j =>
    simp only [aStep]
    split
    · exact hc
    · intro c hcm
      exact hc c (List.mem_of_mem_eraseIdx hcm)

/-- following one traversal through a step -/
theorem aStep_cursor {a : ASys K V} {p : Nat} {c : ACur K} (hp : a.curs[p]? = some c)
    (op : Op K V) (ops : List (Op K V)) (outs : List (Out K V)) {p' : Nat}
    (ht : trackPos p (op :: ops) = some p') :
    ∃ q c', trackPos q ops = some p' ∧ (aStep env a op).1.curs[q]? = some c' ∧
      c'.start = c.start ∧
      ∃ ys, yielded p (op :: ops) ((aStep env a op).2 :: outs) = ys ++ yielded q ops outs ∧
        c'.seen = c.seen ++ ys.map (·.1) := by
  cases op with
  | get k => exact ⟨p, c, ht, hp, rfl, [], rfl, by simp⟩
  | has k => exact ⟨p, c, ht, hp, rfl, [], rfl, by simp⟩
  | size => exact ⟨p, c, ht, hp, rfl, [], rfl, by simp⟩
  | toA => exact ⟨p, c, ht, hp, rfl, [], rfl, by simp⟩
  | put k v =>
    refine ⟨p, c, ht, ?_, rfl, [], rfl, by simp⟩
    simp only [aStep]; split <;> exact hp
  | del k => exact ⟨p, c, ht, hp, rfl, [], rfl, by simp⟩
  | shift => exact ⟨p, c, ht, hp, rfl, [], rfl, by simp⟩
  | clear =>
    refine ⟨p, c, ht, ?_, rfl, [], rfl, by simp⟩
    simp only [aStep]; split <;> exact hp
  | setDefault d => exact ⟨p, c, ht, hp, rfl, [], rfl, by simp⟩
  | compareByIdentity =>
    refine ⟨p, c, ht, ?_, rfl, [], rfl, by simp⟩
    simp only [aStep]; split <;> exact hp
  | resetMode b =>
    refine ⟨p, c, ht, ?_, rfl, [], rfl, by simp⟩
    simp only [aStep]; split <;> exact hp
  | rehash =>
    refine ⟨p, c, ht, ?_, rfl, [], rfl, by simp⟩
    simp only [aStep]; split <;> exact hp
  | dup => cases ht
  | iterBegin => exact ⟨p + 1, c, ht, hp, rfl, [], rfl, by simp⟩
  | iterNext j =>
    simp only [aStep]
    cases hj : a.curs[j]? with
    | none => exact ⟨p, c, ht, hp, rfl, [], rfl, by simp⟩
    | some d =>
      simp only []
      have hjl := (List.getElem?_eq_some_iff.1 hj).1
      cases e : d.todo.dropWhile (fun k => !still a.pairs k) with
      | nil =>
        by_cases hjp : j = p
        · subst hjp
          rw [hp] at hj; cases hj
          exact ⟨j, ⟨c.start, c.seen, [], none⟩, ht, by simp [hjl], rfl, [], rfl, by simp⟩
        · exact ⟨p, c, ht, by simp [List.getElem?_set, hjp, hp], rfl, [], rfl, by simp⟩
      | cons k rest =>
        have hst : still a.pairs k = true := by
          have := List.head_dropWhile_not (fun k => !still a.pairs k) (l := d.todo)
            (by rw [e]; simp)
          simpa [e] using this
        have hmem : ∃ q, a.pairs.find? (fun p => decide (p.1 = k)) = some q ∧ q.1 = k := by
          simp only [still, decide_eq_true_eq] at hst
          obtain ⟨q, hq, hqk⟩ := List.mem_map.1 hst
          have : (a.pairs.find? (fun p => decide (p.1 = k))).isSome := by
            rw [List.find?_isSome]; exact ⟨q, hq, by simpa using hqk⟩
          obtain ⟨q', hq'⟩ := Option.isSome_iff_exists.1 this
          exact ⟨q', hq', by simpa using List.find?_some hq'⟩
        obtain ⟨q, hq, rfl⟩ := hmem
        simp only [hq]
        by_cases hjp : j = p
        · subst hjp
          rw [hp] at hj; cases hj
          refine ⟨j, ⟨c.start, c.seen ++ [q.1], rest, some q.1⟩, ht, by simp [hjl], rfl, [q], ?_, by simp⟩
          simp [yielded]
        · refine ⟨p, c, ht, by simp [List.getElem?_set, hjp, hp], rfl, [], ?_, by simp⟩
          simp [yielded, hjp]
  | iterSet j v =>
    refine ⟨p, c, ht, ?_, rfl, [], rfl, by simp⟩
    simp only [aStep]; split <;> exact hp
  | iterEnd j =>
    simp only [aStep]
    rw [trackPos] at ht
    rw [yielded]
    have hpl := (List.getElem?_eq_some_iff.1 hp).1
    by_cases hjp : j < p
    · rw [if_pos hjp] at ht
      rw [if_pos hjp, List.getElem?_eq_getElem (by omega : j < a.curs.length)]
      refine ⟨p - 1, c, ht, ?_, rfl, [], rfl, by simp⟩
      simp only [List.getElem?_eraseIdx]
      rw [if_neg (by omega), show p - 1 + 1 = p by omega]
      exact hp
    · rw [if_neg hjp] at ht ⊢
      by_cases hjp' : j = p
      · rw [if_pos hjp'] at ht; cases ht
      · rw [if_neg hjp'] at ht ⊢
        refine ⟨p, c, ht, ?_, rfl, [], rfl, by simp⟩
        split
        · exact hp
        · simp only [List.getElem?_eraseIdx]
          rw [if_pos (by omega)]
          exact hp

/-- along a history that the code executes -/
theorem run_cursor (ct : Contract env) : ∀ (ops : List (Op K V)) {s : Sys Tb K V} {a : ASys K V}
    (_ : R env s a) (_ : AInv env a) (_ : NestedAll env a ops) {p p' : Nat} {c : ACur K}
    (_ : a.curs[p]? = some c) (_ : trackPos p ops = some p'),
    AInv env (aRun env a ops).1 ∧ ∃ c', (aRun env a ops).1.curs[p']? = some c' ∧
      c'.start = c.start ∧
      c'.seen = c.seen ++ (yielded p ops (aRun env a ops).2).map (·.1)
  | [], s, a, r, h, _, p, p', c, hp, ht => by
    rw [trackPos] at ht
    cases ht
    exact ⟨h, c, hp, rfl, by simp [aRun, yielded]⟩
  | op :: ops, s, a, r, h, hn, p, p', c, hp, ht => by
    obtain ⟨q, c1, ht1, hc1, hs1, ys, hy, hs⟩ :=
      aStep_cursor (env := env) hp op ops (aRun env (aStep env a op).1 ops).2 ht
    obtain ⟨s1, _, r1⟩ := step_ok ct r op hn.1
    have hinv : AInv env (aStep env a op).1 := by
      refine ⟨?_, ?_⟩
      · have := r1.ok.distinct
        rwa [r1.pairs, r1.ident] at this
      · refine (aStep_inv ct h ?_ op).2
        intro op'
        by_cases hop : Nested a op'
        · obtain ⟨s2, _, r2⟩ := step_ok ct r op' hop
          have := r2.ok.distinct
          rwa [r2.pairs, r2.ident] at this
        · cases op' with
          | iterEnd j =>
            simp only [aStep]
            split <;> exact h.1
          | _ => exact absurd trivial hop
    obtain ⟨hi, c2, hc2, hs2, hseen⟩ := run_cursor ct ops r1 hinv hn.2 hc1 ht1
    refine ⟨hi, c2, hc2, by rw [hs2, hs1], ?_⟩
    simp only [aRun]
    rw [hseen, hs, hy]
    simp

theorem aNew_inv : AInv env (aNew : ASys K V) := by
  refine ⟨List.Pairwise.nil, ?_⟩
  intro c hc
  cases hc

/-- In every state a program reaches the invariant of the traversals holds. -/
theorem run_ainv (ct : Contract env) : ∀ (ops : List (Op K V)) {s : Sys Tb K V} {a : ASys K V}
    (_ : R env s a) (_ : AInv env a) (_ : NestedAll env a ops), AInv env (aRun env a ops).1
  | [], _, _, _, h, _ => h
  | op :: ops, s, a, r, h, hn => by
    obtain ⟨s1, _, r1⟩ := step_ok ct r op hn.1
    refine run_ainv ct ops r1 (aStep_inv ct h ?_ op) hn.2
    intro op'
    by_cases hop : Nested a op'
    · obtain ⟨s2, _, r2⟩ := step_ok ct r op' hop
      have := r2.ok.distinct
      rwa [r2.pairs, r2.ident] at this
    · cases op' with
      | iterEnd j =>
        simp only [aStep]
        split <;> exact h.1
      | _ => exact absurd trivial hop

theorem aRun_append (ops1 ops2 : List (Op K V)) (a : ASys K V) :
    aRun env a (ops1 ++ ops2) =
      ((aRun env (aRun env a ops1).1 ops2).1,
        (aRun env a ops1).2 ++ (aRun env (aRun env a ops1).1 ops2).2) := by
  induction ops1 generalizing a with
  | nil => rfl
  | cons op ops ih => simp only [List.cons_append, aRun, ih]

theorem NestedAll.append {ops1 ops2 : List (Op K V)} {a : ASys K V}
    (h : NestedAll env a (ops1 ++ ops2)) :
    NestedAll env a ops1 ∧ NestedAll env (aRun env a ops1).1 ops2 := by
  induction ops1 generalizing a with
  | nil => exact ⟨trivial, h⟩
  | cons op ops ih => exact ⟨⟨h.1, (ih h.2).1⟩, (ih h.2).2⟩

/-- A traversal hands its block no key twice, hands out keys in the order they had when it
began, only keys that were there then, and when it ends it has handed out every key that the
Hash then holds.  `pre` is any history, after which the traversal begins; `mid` is what
happens while it runs: stores, deletions, nested traversals, anything. -/
theorem C12_no_skip_no_repeat (ct : Contract env) (n : Nat) (pre mid : List (Op K V)) (p : Nat)
    (hn : NestedAll env aNew (pre ++ .iterBegin :: (mid ++ [.iterNext p])))
    (ht : trackPos 0 mid = some p) :
    ∃ (s0 s1 s2 : Sys Tb K V) (o0 o1 : List (Out K V)) (o2 : Out K V),
      run env ⟨H.new n, []⟩ pre = some (s0, o0) ∧
      (step env s0 .iterBegin).bind (fun q => run env q.1 mid) = some (s1, o1) ∧
      step env s1 (.iterNext p) = some (s2, o2) ∧
      ((yielded 0 mid o1).map (·.1)).Nodup ∧
      ((yielded 0 mid o1).map (·.1)).Sublist (s0.h.content.map (·.1)) ∧
      (o2 = .pair none → ∀ k ∈ s2.h.content.map (·.1), k ∈ (yielded 0 mid o1).map (·.1)) := by
  obtain ⟨n1, n2⟩ := hn.append
  obtain ⟨s0, e0, r0⟩ := run_ok ct pre (new_ok (Tb := Tb) env n) n1
  have i0 := run_ainv ct pre (new_ok (Tb := Tb) env n) aNew_inv n1
  generalize (aRun env aNew pre).1 = a0 at *
  obtain ⟨sb, eb, rb⟩ := step_ok ct r0 .iterBegin trivial
  obtain ⟨n3, n4⟩ := NestedAll.append n2.2
  have ib : AInv env (aStep env a0 .iterBegin).1 :=
    run_ainv ct [.iterBegin] r0 i0 ⟨trivial, trivial⟩
  obtain ⟨s1, e1, r1⟩ := run_ok ct mid rb n3
  obtain ⟨i1, c1, hc1, hst, hseen⟩ := run_cursor ct mid rb ib n3
    (p := 0) (c := ⟨a0.pairs.map (·.1), [], a0.pairs.map (·.1), none⟩) rfl ht
  obtain ⟨s2, e2, r2⟩ := step_ok ct r1 (.iterNext p) n4.1
  simp only [List.nil_append] at hseen
  have hci := i1.2 c1 (List.mem_of_getElem? hc1)
  have hsub : c1.seen.Sublist c1.start := (List.sublist_append_left _ _).trans hci.2.1
  refine ⟨s0, s1, s2, _, (aRun env (aStep env a0 .iterBegin).1 mid).2, _, e0, ?_, e2, ?_, ?_, ?_⟩
  · rw [eb]; exact e1
  · rw [← hseen]; exact hci.1.sublist hsub
  · rw [← hseen, r0.pairs]
    rw [hst] at hsub
    exact hsub
  · rw [← hseen, r2.pairs]
    generalize (aRun env (aStep env a0 .iterBegin).1 mid).1 = a1 at *
    simp only [aStep, hc1]
    cases e : c1.todo.dropWhile (fun k => !still a1.pairs k) with
    | nil =>
      intro _ k hk
      have := (hci.finish e).2.2 k hk
      simpa using this
    | cons k rest =>
      simp only []
      intro hnone
      exfalso
      have hst : still a1.pairs k = true := by
        have := List.head_dropWhile_not (fun k => !still a1.pairs k) (l := c1.todo)
          (by rw [e]; simp)
        simpa [e] using this
      simp only [still, decide_eq_true_eq] at hst
      obtain ⟨q, hq, hqk⟩ := List.mem_map.1 hst
      simp only [Out.pair.injEq, List.find?_eq_none] at hnone
      exact hnone q hq (by simpa using hqk)

/-- Every pair handed to a block is a pair of the Hash at that moment. -/
theorem C12_yields_current_pair (ct : Contract env) {s : Sys Tb K V} (h : Reach Tb env s)
    (j : Nat) : ∃ s' o, step env s (.iterNext j) = some (s', o) ∧ s'.h.content = s.h.content ∧
      ∀ q, o = .pair (some q) → q ∈ s.h.content := by
  obtain ⟨a, r⟩ := h.rel ct
  obtain ⟨s', e, r'⟩ := step_ok ct r (.iterNext j) trivial
  refine ⟨s', _, e, ?_, ?_⟩
  · rw [r'.pairs, r.pairs]
    simp only [aStep]
    split
    · rfl
    · split <;> rfl
  · intro q hq
    rw [r.pairs]
    simp only [aStep] at hq
    split at hq
    · cases hq
    · split at hq
      · cases hq
      · simp only [Out.pair.injEq] at hq
        exact List.mem_of_find?_eq_some hq

/-- While a traversal runs, storing under a new key raises and changes nothing; storing
under a present key is allowed; `clear`, `rehash` and `compare_by_identity` raise. -/
theorem C12_new_key_raises (ct : Contract env) {s : Sys Tb K V} (h : Reach Tb env s)
    (hc : s.curs ≠ []) (k : K) (v : V) :
    (present env s.h.ident k s.h.content = false →
      step env s (.put k v) = some (s, .raised .add)) ∧
    (present env s.h.ident k s.h.content = true →
      ∃ s', step env s (.put k v) = some (s', .done) ∧
        s'.h.content.map (·.1) = s.h.content.map (·.1)) ∧
    step env s .clear = some (s, .raised .modify) ∧
    step env s .rehash = some (s, .raised .modify) ∧
    step env s .compareByIdentity = some (s, .raised .modify) := by
  obtain ⟨a, r⟩ := h.rel ct
  have hac : a.curs ≠ [] := by
    intro e
    have := r.len
    rw [e] at this
    exact hc (List.length_eq_zero_iff.1 this)
  have ha := r.active.2 hac
  have key : ∀ h' : H Tb K V, h' = s.h → ({ s with h := h' } : Sys Tb K V) = s := by
    rintro _ rfl; rfl
  refine ⟨?_, ?_, ?_, ?_, ?_⟩
  · intro hp
    rcases insert_ok ct r.ok k v with ⟨_, _, e⟩ | ⟨hp', _⟩
    · simp only [step, e]; rfl
    · rw [hp' ha] at hp; cases hp
  · intro hp
    obtain ⟨s', e, r'⟩ := step_ok ct r (.put k v) trivial
    rw [r.ident, r.pairs] at hp
    simp only [aStep, hp, Bool.true_eq_false, and_false, if_false] at e r'
    refine ⟨s', e, ?_⟩
    rw [r'.pairs, r.pairs]
    exact put_keys_sub hp
  · rcases clear_ok' ct r.ok with ⟨_, e⟩ | ⟨ha', _⟩
    · simp only [step, e]; rfl
    · rw [ha] at ha'; cases ha'
  · rcases rehash_ok ct r.ok with ⟨_, e⟩ | ⟨ha', _⟩
    · simp only [step, e]; rfl
    · rw [ha] at ha'; cases ha'
  · rcases compareByIdentity_ok ct r.ok with ⟨_, e⟩ | ⟨ha', _⟩
    · simp only [step, e]; rfl
    · rw [ha] at ha'; cases ha'

/-! ## Concrete histories -/

/-- Keys are integers; odd ones are heap objects, equal when they agree modulo 20. -/
def demoEnv : Env Int String where
  packed a := a % 2 == 0
  eqb a b := if a % 2 == 0 || b % 2 == 0 then a == b else a % 20 == b % 20
  hash a := if a % 2 == 0 then a.toNat else (a % 20).toNat
  idHash a := a.toNat
  nilV := "nil"

theorem demoContract : Contract demoEnv where
  refl a := by simp [demoEnv]
  symm a b h := by
    simp only [demoEnv] at *
    split at h <;> split <;> simp_all
  trans a b c h1 h2 := by
    simp only [demoEnv] at *
    split at h1 <;> split at h2 <;> split <;> simp_all
  hash a b h := by
    simp only [demoEnv] at *
    split at h
    · simp at h; rw [h]
    · rename_i hc
      simp at hc h
      simp [hc.1, hc.2, h]
  packed a b hp h := by
    simp only [demoEnv] at *
    simp [hp] at h
    exact h

instance {a : ASys K V} {op : Op K V} : Decidable (Nested a op) := by
  cases op <;> (unfold Nested; infer_instance)

instance decNestedAll : ∀ (a : ASys K V) (ops : List (Op K V)), Decidable (NestedAll env a ops)
  | _, [] => .isTrue trivial
  | a, op :: ops =>
    have := decNestedAll (aStep env a op).1 ops
    inferInstanceAs (Decidable (Nested a op ∧ _))

/-- Inline, then boxed, then indexed; deletion and stores during two nested traversals. -/
def demoOps : List (Op Int String) :=
  [.put 1 "a", .put 2 "b", .put 21 "c", .iterBegin, .iterNext 0, .del 1, .put 7 "x", .iterEnd 0] ++
  (List.range 12).map (fun n => Op.put (n + 30 : Int) "v")

/-- what happens while the traversal runs -/
def demoMid : List (Op Int String) :=
  [.iterNext 0, .iterNext 0, .del 30, .iterBegin, .iterNext 0, .iterNext 1, .iterSet 1 "w",
   .del 33, .put 98 "no", .put 35 "yes", .iterEnd 0, .shift] ++
  List.replicate 10 (.iterNext 0)

example : NestedAll demoEnv aNew (demoOps ++ .iterBegin :: (demoMid ++ [.iterNext 0])) := by
  decide +kernel

example : trackPos 0 demoMid = some 0 := by decide +kernel

/-- The traversal of the example ends, after handing out 11 keys. -/
example : ((run (Tb := listTable) demoEnv ⟨H.new 0, []⟩ (demoOps ++ [.iterBegin])).bind fun q =>
    (run demoEnv q.1 demoMid).map fun r =>
      ((yielded 0 demoMid r.2).map (·.1), r.1.h.content.map (·.1))) =
    some ([2, 30, 31, 32, 34, 35, 36, 37, 38, 39, 40, 41],
      [31, 32, 34, 35, 36, 37, 38, 39, 40, 41]) := by decide +kernel

/-- Reachable states with a running traversal exist. -/
example : ∃ s, Reach listTable demoEnv s ∧ s.curs ≠ [] ∧
    present demoEnv s.h.ident 98 s.h.content = false ∧
    present demoEnv s.h.ident 35 s.h.content = true := by
  have hn : NestedAll demoEnv aNew (demoOps ++ [.iterBegin]) := by decide +kernel
  obtain ⟨s, e, hc, _⟩ := C11_history_refines_list (Tb := listTable) demoContract 0 _ hn
  refine ⟨s, ⟨0, _, _, hn, e⟩, ?_⟩
  have : (run (Tb := listTable) demoEnv ⟨H.new 0, []⟩ (demoOps ++ [.iterBegin])).map
      (fun q => (q.1.curs.isEmpty, present demoEnv q.1.h.ident 98 q.1.h.content,
        present demoEnv q.1.h.ident 35 q.1.h.content)) = some (false, false, true) := by
    decide +kernel
  rw [e] at this
  simp only [Option.map_some, Option.some.injEq, Prod.mk.injEq] at this
  refine ⟨?_, this.2.1, this.2.2⟩
  intro hc
  rw [hc] at this
  exact absurd this.1 (by simp)

/-- The assumption `Nested` cannot be dropped: with four traversals of a Hash of at most
three entries, started by four enumerators and ended in the order they were started, the
last one no longer protects the Hash.  A new key is then accepted in the middle of that
traversal, and the traversal visits a key that was not there when it began. -/
theorem C12_unnested_traversal_is_not_protected :
    (run (Tb := listTable) demoEnv ⟨H.new 0, []⟩
      [.put 2 "a", .iterBegin, .iterBegin, .iterBegin, .iterBegin, .iterNext 0,
       .iterEnd 3, .iterEnd 2, .iterEnd 1, .put 4 "b", .iterNext 0]).map
      (fun q => (q.1.curs.length, q.2)) =
    some (1, [.done, .done, .done, .done, .done, .pair (some (2, "a")), .done, .done, .done,
      .done, .pair (some (4, "b"))]) := by decide +kernel

end Verif.Hash
