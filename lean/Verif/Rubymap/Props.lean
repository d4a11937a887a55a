import Verif.Rubymap.Refine

/-!
# C13 — The hash index always points at the right entry
# C38 — Exceptions from key comparison propagate

`Table` stands for the raw hash table with any probing order, growth policy and collision
behaviour; a *constant* hash function is allowed everywhere.
-/

namespace Verif.Rubymap

variable {Tb : Table} {K V σ ε : Type}

/-- After any history of operations on a fresh map, run with a key comparison that is an
equivalence compatible with the hash: no operation panicked, every answer was the one the
plain list of pairs gives, the map enumerates exactly that list, and looking up any key
finds the position of the pair with an equal key - or nothing when the list has none. -/
theorem C13_history_refines_list (dead : K → Bool) (dk : K) (dv : V) (hdk : dead dk = true)
    (eq : KeyEq σ ε K) (eqb : K → K → Bool) (hf : K → Nat) (law : Lawful eq eqb hf)
    (n : Nat) (s : σ) (ops : List (Op K V)) (hv : ValidAll dead dk dv eqb [] ops) :
    ∃ (c : Core Tb K V) (s' : σ),
      run dead dk dv eq (fun _ => hf) (Core.withCapacity n) s ops =
        some (c, s', (specRun dead dk dv eqb [] ops).2) ∧
      contents c = (specRun dead dk dv eqb [] ops).1 ∧
      ∀ k t, (c.getIndexOf eq (hf k) k t).2 = .ok (find dead eqb k (contents c)) := by
  have h0 : contents (Core.withCapacity n : Core Tb K V) = [] := by
    unfold Core.withCapacity contents; split <;> rfl
  have hk0 : Keys dead eqb hf (Core.withCapacity n : Core Tb K V).entries := by
    have : (Core.withCapacity n : Core Tb K V).entries = [] := by
      unfold Core.withCapacity; split <;> rfl
    rw [this]
    exact ⟨by simp, by simp⟩
  have := run_ok (Tb := Tb) hdk law (hf := fun _ => hf) (fun _ _ => rfl) ops (Core.withCapacity n) s
    (withCapacity_ok n) hk0 (by rw [h0]; exact hv)
  rw [h0] at this
  obtain ⟨c, s', h1, h2, h3, h4⟩ := this
  refine ⟨c, s', h1, h2, fun k t => ?_⟩
  rw [(getIndexOf_ok h3 eq (hf k) k t).lawful eqb hf law h4 rfl]
  congr 1
  exact (find_pairs k c.entries).symm

/-- In particular every live pair is found at its own position by its own key, and two
positions never hold equal keys. -/
theorem C13_entry_found_at_its_place (dead : K → Bool) (dk : K) (dv : V) (hdk : dead dk = true)
    (eq : KeyEq σ ε K) (eqb : K → K → Bool) (hf : K → Nat) (law : Lawful eq eqb hf)
    (n : Nat) (s : σ) (ops : List (Op K V)) (hv : ValidAll dead dk dv eqb [] ops) :
    ∃ (c : Core Tb K V) (s' : σ) (outs : List (Out K V)),
      run dead dk dv eq (fun _ => hf) (Core.withCapacity n) s ops = some (c, s', outs) ∧
      ∀ i p, (contents c)[i]? = some p → dead p.1 = false →
        (∀ t, (c.getIndexOf eq (hf p.1) p.1 t).2 = .ok (some i)) ∧
        ∀ j q, (contents c)[j]? = some q → dead q.1 = false → eqb p.1 q.1 = true → i = j := by
  have h0 : contents (Core.withCapacity n : Core Tb K V) = [] := by
    unfold Core.withCapacity contents; split <;> rfl
  have hk0 : Keys dead eqb hf (Core.withCapacity n : Core Tb K V).entries := by
    have : (Core.withCapacity n : Core Tb K V).entries = [] := by
      unfold Core.withCapacity; split <;> rfl
    rw [this]
    exact ⟨by simp, by simp⟩
  have := run_ok (Tb := Tb) hdk law (hf := fun _ => hf) (fun _ _ => rfl) ops (Core.withCapacity n) s
    (withCapacity_ok n) hk0 (by rw [h0]; exact hv)
  rw [h0] at this
  obtain ⟨c, s', h1, h2, h3, h4⟩ := this
  refine ⟨c, s', _, h1, fun i p hp hd => ?_⟩
  have hp : (pairs c.entries)[i]? = some p := hp
  rw [pairs_get] at hp
  obtain ⟨b, hb, rfl⟩ := Option.map_eq_some_iff.1 hp
  have uq : ∀ j q, (contents c)[j]? = some q → dead q.1 = false → eqb b.key q.1 = true → i = j := by
    intro j q hq hdq he
    have hq : (pairs c.entries)[j]? = some q := hq
    rw [pairs_get] at hq
    obtain ⟨a, ha, rfl⟩ := Option.map_eq_some_iff.1 hq
    exact h4.unique law hb ha hd hdq (law.refl _) he
  refine ⟨fun t => ?_, uq⟩
  rw [(getIndexOf_ok h3 eq (hf b.key) b.key t).lawful eqb hf law h4 rfl]
  congr 1
  cases hpos : posOf dead eqb b.key c.entries with
  | none =>
    have := posOf_none hpos b (List.mem_of_getElem? hb) hd
    rw [law.refl] at this; cases this
  | some j =>
    obtain ⟨a, ha, hda, he⟩ := posOf_some hpos
    rw [h4.unique law hb ha hd hda (law.refl _) he]

theorem reach_idx {dead : K → Bool} {dk : K} {dv : V} (hdk : dead dk = true) {c : Core Tb K V}
    (hr : Reach Tb dead dk dv c) : Idx dead c := by
  induction hr with
  | start n => exact withCapacity_ok n
  | step eq hf s _ hv ih => exact (exec_ok (eq := eq) (dk := dk) (dv := dv) hdk ih _ hv s).idx

/-- Even when `hash` and `eql?` are arbitrary user code - inconsistent, changing over time
or raising - no operation ever panics, and the raw table holds exactly one reference to
every live entry, filed under that entry's stored hash, and nothing else. -/
theorem C13_index_survives_any_comparison (dead : K → Bool) (dk : K) (dv : V)
    (hdk : dead dk = true) {c : Core Tb K V} (hr : Reach Tb dead dk dv c) :
    (∀ (eq : KeyEq σ ε K) (hf : σ → K → Nat) (s : σ) (op : Op K V),
      Valid dead (contents c) op → (exec dead dk dv eq hf c s op).2.2 ≠ .panic) ∧
    (c.linear = false →
      (Tb.items c.indices).Perm
        ((c.entries.zipIdx.filter (fun x => !dead x.1.key)).map (fun x => (x.1.hash, x.2)))) ∧
    (c.linear = true → Tb.items c.indices = [] ∧ ∀ b ∈ c.entries, dead b.key = false) := by
  have hi := reach_idx hdk hr
  refine ⟨fun eq hf s op hv => (exec_ok hdk hi op hv s).noPanic, fun hl => ?_, fun hl => ?_⟩
  · have r := hi.repLive hl
    rw [List.perm_ext_iff_of_nodup r.1]
    · rintro ⟨a, i⟩
      rw [r.2, List.mem_map]
      constructor
      · intro h
        obtain ⟨b, hb, hd, rfl⟩ := lmap_some h
        exact ⟨(b, i), List.mem_filter.2 ⟨List.mem_zipIdx_iff_getElem?.2 hb, by simp [hd]⟩, rfl⟩
      · rintro ⟨⟨b, j⟩, hb, e⟩
        simp only [Prod.mk.injEq] at e
        obtain ⟨rfl, rfl⟩ := e
        obtain ⟨h1, h2⟩ := List.mem_filter.1 hb
        have h2 : dead b.key = false := by simpa using h2
        unfold lmap
        rw [List.mem_zipIdx_iff_getElem?.1 h1]
        simp [h2]
    · apply List.Nodup.of_map Prod.snd
      rw [List.map_map]
      have : (Prod.snd ∘ fun x : Bucket K V × Nat => (x.1.hash, x.2)) = Prod.snd := rfl
      rw [this]
      have : ((c.entries.zipIdx.filter (fun x => !dead x.1.key)).map Prod.snd).Sublist
          (c.entries.zipIdx.map Prod.snd) := List.filter_sublist.map _
      refine this.nodup ?_
      rw [List.zipIdx_map_snd]
      exact List.nodup_range'
  · obtain ⟨r, hc⟩ := hi.repLinear hl
    refine ⟨?_, hc⟩
    have := (rep_nil (K := K) (V := V) r).2
    exact List.length_eq_zero_iff.1 this

/-! ## C38 -/

/-- An operation that ends with the exception of a key comparison leaves the pairs as they
were, in every reachable state and for arbitrary user code. -/
theorem C38_raise_leaves_map_unchanged (dead : K → Bool) (dk : K) (dv : V)
    (hdk : dead dk = true) {c : Core Tb K V} (hr : Reach Tb dead dk dv c)
    (eq : KeyEq σ ε K) (hf : σ → K → Nat) (s : σ) (op : Op K V)
    (hv : Valid dead (contents c) op) (e : ε)
    (h : (exec dead dk dv eq hf c s op).2.2 = .raise e) :
    contents (exec dead dk dv eq hf c s op).1 = contents c := by
  have hi := reach_idx hdk hr
  unfold contents
  rw [(exec_ok hdk hi op hv s).raised e h]

/-- **Partial**: in the small (at most eight entries, unindexed) representation an exception
of the comparison with an entry of the same hash does propagate out of a lookup and out of a
store, as long as no earlier entry of the same hash compared equal.  Missing: the indexed
representation, where `C38_large_map_swallows_exception` shows the opposite. -/
theorem C38_small_map_propagates_partial {c : Core Tb K V} (hl : c.linear = true)
    (eq : KeyEq σ ε K) (h : Nat) (k : K) (v : V) (s : σ) (e : ε)
    (pre post : List (Bucket K V)) (b : Bucket K V) (hes : c.entries = pre ++ b :: post)
    (hpre : ∀ x ∈ pre, x.hash ≠ h) (hb : b.hash = h) (he : (eq s k b.key).2 = .error e) :
    (c.getIndexOf eq h k s).2 = .raise e ∧ (c.insertFull eq h k v s).2.2 = .raise e ∧
    (c.insertFull eq h k v s).1.entries = c.entries := by
  have key : ∀ (pre : List (Bucket K V)) (i : Nat), (∀ x ∈ pre, x.hash ≠ h) →
      linearFind eq h k (pre ++ b :: post) i s = ((eq s k b.key).1, .error e) := by
    intro pre
    induction pre with
    | nil =>
      intro i _
      rw [List.nil_append, linearFind, if_pos hb]
      rcases hx : eq s k b.key with ⟨s', r⟩
      rw [hx] at he
      simp only at he
      subst he
      rfl
    | cons x xs ih =>
      intro i hx
      rw [List.cons_append, linearFind, if_neg (hx x (by simp))]
      exact ih (i + 1) (fun y hy => hx y (by simp [hy]))
  have := key pre 0 hpre
  rw [← hes] at this
  unfold Core.getIndexOf Core.insertFull
  rw [if_pos hl, if_pos hl, this]
  exact ⟨rfl, rfl, rfl⟩

/-! ## A concrete table -/

/-- A list-backed table whose probe visits every pair with the same hash modulo 4. -/
def listTable : Table where
  T := List (Nat × Nat) × Nat
  empty := ([], 0)
  items t := t.1
  cap t := max t.1.length t.2
  probe t h := t.1.filter (fun x => x.1 % 4 == h % 4)
  insert t h i := ((h, i) :: t.1, t.2)
  erase t x := (t.1.erase x, t.2)
  setIdx t x j := ((x.1, j) :: t.1.erase x, t.2)
  mapIdx t f := (t.1.filterMap (fun x => (f x.2).map (fun j => (x.1, j))), t.2)
  clear t := ([], max t.1.length t.2)
  reserve t n f := (t.1.map (fun x => (f x.2, x.2)), max t.2 (t.1.length + n))
  items_empty := rfl
  probe_sub t h x hx := (List.mem_filter.1 hx).1
  probe_all t h x hx e := List.mem_filter.2 ⟨hx, by simp [e]⟩
  items_insert t h i := List.Perm.refl _
  items_erase t x _ := List.Perm.refl _
  items_setIdx t x j _ := List.Perm.refl _
  items_mapIdx t f := List.Perm.refl _
  items_clear t := rfl
  items_reserve t n f := Or.inr (List.Perm.refl _)
  len_le_cap t := by simp
  cap_reserve t n f := by simp
  cap_clear t := by simp
  cap_insert t h i := by simp; omega

/-- Integer keys, hashed to their value modulo 3; the comparison counts its calls. -/
def demoEq : KeyEq Nat String Int := fun s a b => (s + 1, .ok (a == b))

/-- the hash of `demoEq`'s keys -/
def demoHash (k : Int) : Nat := (k % 3).toNat

theorem demoLawful : Lawful demoEq (fun a b => a == b) demoHash where
  pure _ _ _ := rfl
  refl a := by simp
  symm a b h := by simp only [beq_iff_eq] at *; exact h.symm
  trans a b c h1 h2 := by simp at *; omega
  hash a b h := by simp at h; rw [h]

/-- A history that passes the threshold of eight entries, deletes by every route, moves,
sorts, tombstones and compacts. -/
def demoOps : List (Op Int String) :=
  (List.range 12).map (fun n => Op.insert (n : Int) "v") ++
  [.insert 3 "w", .shiftRemove 2, .swapRemove 5, .move 0 7, .move 8 1, .reverse, .pop,
   .tombstone 7, .tombstoneAt 0, .get 3, .insert 100 "x", .compact, .replace 100 "y",
   .drain 1 3, .shiftInsert 2 50 "z", .truncate 5, .retain (fun k v => if k = 9 then none else some v)]

instance {dead : K → Bool} {l : List (K × V)} {op : Op K V} : Decidable (Valid dead l op) := by
  cases op <;> (unfold Valid; infer_instance)

instance {dead : K → Bool} {eqb : K → K → Bool} {l : List (K × V)} {op : Op K V} :
    Decidable (Fresh dead eqb l op) := by
  cases op <;> (unfold Fresh; infer_instance)

instance decValidAll {dead : K → Bool} {dk : K} {dv : V} {eqb : K → K → Bool} :
    ∀ (l : List (K × V)) (ops : List (Op K V)), Decidable (ValidAll dead dk dv eqb l ops)
  | _, [] => .isTrue trivial
  | l, op :: ops =>
    have := decValidAll (dead := dead) (dk := dk) (dv := dv) (eqb := eqb)
      (spec dead dk dv eqb l op).1 ops
    inferInstanceAs (Decidable (Valid dead l op ∧ Fresh dead eqb l op ∧ _))

/-- The hypotheses of the C13 theorems hold for a concrete history... -/
example : ValidAll (fun k : Int => k == -1) (-1) "dead" (fun a b => a == b) [] demoOps := by
  decide +kernel

/-- ... and it is a non-trivial one. -/
example : ((run (Tb := listTable) (fun k : Int => k == -1) (-1) "dead" demoEq (fun _ => demoHash)
    (Core.withCapacity 0) 0 demoOps).map (fun r => (contents r.1, r.1.linear))) =
    some ([(0, "v"), (11, "v"), (50, "z"), (4, "v"), (3, "w")], false) := by
  decide +kernel

/-- A comparison that raises. -/
def raisingEq : KeyEq Unit String Int := fun s _ _ => (s, .error "eql? raised")

/-- The **defect** behind C38: in a map of more than eight entries the exception raised by
`eql?` disappears.  Looking up a key answers "absent", and storing under it appends a second
entry. -/
theorem C38_large_map_swallows_exception :
    ∃ c : Core listTable Int String, Reach listTable (fun k : Int => k == -1) (-1) "" c ∧
      (0, "v") ∈ contents c ∧
      (c.getIndexOf raisingEq (demoHash 0) 0 ()).2 = .ok none ∧
      (c.insertFull raisingEq (demoHash 0) 0 "again" ()).2.2 = .ok (9, none) ∧
      ((contents (c.insertFull raisingEq (demoHash 0) 0 "again" ()).1).filter
        (fun p => p.1 == 0)).length = 2 := by
  have st : ∀ {c : Core listTable Int String} (n : Int),
      Reach listTable (fun k : Int => k == -1) (-1) "" c → (n == -1) = false →
      Reach listTable (fun k : Int => k == -1) (-1) ""
        (exec (fun k : Int => k == -1) (-1) "" demoEq (fun _ => demoHash) c 0 (.insert n "v")).1 :=
    fun n h hn => .step demoEq (fun _ => demoHash) 0 h hn
  refine ⟨_, st 8 (st 7 (st 6 (st 5 (st 4 (st 3 (st 2 (st 1 (st 0 (.start 0) rfl) rfl) rfl) rfl)
    rfl) rfl) rfl) rfl) rfl, ?_⟩
  decide +kernel

/-- Non-vacuity of `C38_small_map_propagates_partial`. -/
example : ((⟨([], 0), true, [⟨1, 4, "a"⟩, ⟨2, 5, "b"⟩]⟩ : Core listTable Int String).insertFull
    raisingEq 2 5 "c" ()).2.2 = .raise "eql? raised" := by decide +kernel

end Verif.Rubymap
