import Verif.Glob.Model

/-!
# C152: what Dir.glob returns
-/

namespace Verif.Glob

variable {N P : Type}

/-- `n` is reached from a directory through subdirectories that are no links and, without
`FNM_DOTMATCH`, do not begin with a dot; `mid` are their names. -/
inductive Descend (c : Cfg N P) : Node N → List N → Node N → Prop where
  | here (n : Node N) : Descend c n [] n
  | step {l : Bool} {es : List (N × Node N)} {s : N} {d n : Node N} {mid : List N} :
      (s, d) ∈ es → d.isPlainDir = true → (c.hidden s = false ∨ c.dotmatch = true) →
      Descend c d mid n → Descend c (.dir l es) (s :: mid) n

/-- The paths a pattern stands for.  `lit`: all before is literal; `star`: a `**` came before. -/
def Spec (c : Cfg N P) : List (Comp P) → (lit star : Prop) → Node N → List N → Prop
  | [], _, _, node, path => path = [] ∧ (c.trailing = true → node.isDir = true)
  | .name p :: cs, lit, star, node, path =>
    ∃ l es seg rest, node = .dir l es ∧ path = seg :: rest ∧ c.mtch p seg = true ∧
      ((∃ n, (seg, n) ∈ es ∧ Spec c cs (lit ∧ c.hasMeta p = false) star n rest) ∨
       (seg = c.dot ∧ lit ∧ (c.dotmatch = true ∨ (c.startsDot p = true ∧ ¬ star)) ∧
          Spec c cs (lit ∧ c.hasMeta p = false) star node rest))
  | .globstar :: cs, lit, _, node, path =>
    ∃ mid n rest, path = mid ++ rest ∧ Descend c node mid n ∧ Spec c cs (lit ∧ mid = []) True n rest
  | .current :: cs, lit, star, node, path =>
    ∃ rest, path = c.dot :: rest ∧ Spec c cs lit star node rest
  | .parent :: _, _, _, _, _ => False

/-- Following a path from a directory as the system does: "." only in a directory. -/
inductive Resolves (c : Cfg N P) : Node N → List N → Prop where
  | here (n : Node N) : Resolves c n []
  | entry {l : Bool} {es : List (N × Node N)} {s : N} {n : Node N} {rest : List N} :
      (s, n) ∈ es → Resolves c n rest → Resolves c (.dir l es) (s :: rest)
  | dot {l : Bool} {es : List (N × Node N)} {rest : List N} :
      Resolves c (.dir l es) rest → Resolves c (.dir l es) (c.dot :: rest)

/-- Entries of a directory have different names, none is ".". -/
inductive WF (c : Cfg N P) : Node N → Prop where
  | file : WF c .file
  | dir {l : Bool} {es : List (N × Node N)} :
      (es.map (·.1)).Nodup → c.dot ∉ es.map (·.1) → (∀ e ∈ es, WF c e.2) → WF c (.dir l es)

/-! ### Equations -/

theorem traverse_globstar_file (c : Cfg N P) (cs up r) :
    traverse c (.globstar :: cs) .file up r = traverse c cs .file up { r with globstar := true } := by
  rw [traverse]; simp

theorem attach_flatMap {α β : Type} (es : List α) (f : α → List β) :
    (es.attach.flatMap fun x => f x.1) = es.flatMap f := by
  conv => rhs; rw [← List.attach_map_subtype_val es, List.flatMap_map]

theorem traverse_globstar_dir (c : Cfg N P) (cs l es up r) :
    traverse c (.globstar :: cs) (.dir l es) up r =
      traverse c cs (.dir l es) up { r with globstar := true } ++
      es.flatMap fun e =>
        if e.2.isPlainDir && (!c.hidden e.1 || c.dotmatch) then
          (traverse c (.globstar :: cs) e.2 (.dir l es :: up) ⟨true, true⟩).map (e.1 :: ·)
        else [] := by
  rw [traverse]
  congr 1
  rw [← attach_flatMap es]

theorem sizeOf_entry {l : Bool} {es : List (N × Node N)} {e : N × Node N} (h : e ∈ es) :
    sizeOf e.2 < sizeOf (Node.dir l es) := by
  have h1 := List.sizeOf_lt_of_mem h
  have h2 : sizeOf e.2 < sizeOf e := by cases e; simp
  simp
  omega

theorem Spec_congr (c : Cfg N P) : ∀ cs {a a' b b' : Prop} {node path}, (a ↔ a') → (b ↔ b') →
    (Spec c cs a b node path ↔ Spec c cs a' b' node path) := by
  intro cs a a' b b' node path h1 h2
  rw [propext h1, propext h2]

theorem mem_globstar (c : Cfg N P) (cs : List (Comp P))
    (ih : ∀ node up r path, path ∈ traverse c cs node up r ↔
      Spec c cs (r.wildcard = false) (r.globstar = true) node path) :
    ∀ k node up r path, sizeOf node < k → (path ∈ traverse c (.globstar :: cs) node up r ↔
      Spec c (.globstar :: cs) (r.wildcard = false) (r.globstar = true) node path) := by
  intro k
  induction k with
  | zero => intro node up r path h; omega
  | succ k ihk =>
    intro node up r path hk
    cases node with
    | file =>
      rw [traverse_globstar_file, ih]
      simp only [Spec]
      constructor
      · intro h
        exact ⟨[], .file, path, rfl, .here _, (Spec_congr c cs (by simp) (by simp)).1 h⟩
      · rintro ⟨mid, n, rest, rfl, hd, h⟩
        cases hd
        exact (Spec_congr c cs (by simp) (by simp)).1 h
    | dir l es =>
      rw [traverse_globstar_dir, List.mem_append, ih]
      simp only [Spec]
      constructor
      · rintro (h | h)
        · exact ⟨[], .dir l es, path, rfl, .here _, (Spec_congr c cs (by simp) (by simp)).1 h⟩
        · obtain ⟨e, he, h⟩ := List.mem_flatMap.1 h
          split at h
          · rename_i hc
            simp only [Bool.and_eq_true, Bool.or_eq_true, Bool.not_eq_true'] at hc
            obtain ⟨q, hq, rfl⟩ := List.mem_map.1 h
            have hlt := sizeOf_entry (l := l) he
            rw [ihk _ _ _ _ (by omega)] at hq
            obtain ⟨mid, n, rest, rfl, hd, h⟩ := hq
            exact ⟨e.1 :: mid, n, rest, rfl, .step he hc.1 hc.2 hd,
              (Spec_congr c cs (by simp) Iff.rfl).1 h⟩
          · simp at h
      · rintro ⟨mid, n, rest, rfl, hd, h⟩
        cases hd with
        | here => exact .inl ((Spec_congr c cs (by simp) (by simp)).1 h)
        | @step _ _ s d _ mid' he hp hv hd =>
          right
          refine List.mem_flatMap.2 ⟨(s, d), he, ?_⟩
          have hc : (d.isPlainDir && (!c.hidden s || c.dotmatch)) = true := by
            simp only [Bool.and_eq_true, Bool.or_eq_true, Bool.not_eq_true']
            exact ⟨hp, hv⟩
          simp only [hc, if_true]
          refine List.mem_map.2 ⟨mid' ++ rest, ?_, rfl⟩
          have hlt : sizeOf d < _ := sizeOf_entry (l := l) he
          rw [ihk _ _ _ _ (by omega)]
          exact ⟨mid', n, rest, rfl, hd, (Spec_congr c cs (by simp) Iff.rfl).1 h⟩

theorem mem_traverse (c : Cfg N P) : ∀ (cs : List (Comp P)), Comp.parent ∉ cs → ∀ node up r path,
    path ∈ traverse c cs node up r ↔
      Spec c cs (r.wildcard = false) (r.globstar = true) node path := by
  intro cs
  induction cs with
  | nil =>
    intro _ node up r path
    rw [traverse]
    simp only [Spec]
    cases c.trailing <;> cases node.isDir <;> simp
  | cons d cs ih =>
    intro hp
    simp only [List.mem_cons, not_or] at hp
    have ih' := ih hp.2
    cases d with
    | parent => exact absurd rfl hp.1
    | current =>
      intro node up r path
      rw [traverse]
      simp only [Spec, List.mem_map, ih']
      constructor
      · rintro ⟨q, h, rfl⟩; exact ⟨q, rfl, h⟩
      · rintro ⟨q, rfl, h⟩; exact ⟨q, h, rfl⟩
    | globstar =>
      intro node up r path
      exact mem_globstar c cs ih' _ node up r path (Nat.lt_succ_self _)
    | name p =>
      intro node up r path
      cases node with
      | file => rw [traverse]; simp [Spec]
      | dir l es =>
        rw [traverse]
        have hw : ((r.wildcard || c.hasMeta p) = false) ↔ (r.wildcard = false ∧ c.hasMeta p = false) := by
          simp
        simp only [Spec, List.mem_append, List.mem_flatMap]
        constructor
        · rintro (⟨e, he, h⟩ | h)
          · split at h
            · rename_i hm
              obtain ⟨q, hq, rfl⟩ := List.mem_map.1 h
              rw [ih'] at hq
              exact ⟨l, es, e.1, q, rfl, rfl, hm, .inl ⟨e.2, he, (Spec_congr c cs hw Iff.rfl).1 hq⟩⟩
            · simp at h
          · split at h
            · rename_i ha
              obtain ⟨q, hq, rfl⟩ := List.mem_map.1 h
              rw [ih'] at hq
              simp only [allowDot, Bool.and_eq_true, Bool.or_eq_true, Bool.not_eq_true'] at ha
              refine ⟨l, es, c.dot, q, rfl, rfl, ha.2, .inr ⟨rfl, ha.1.1, ?_,
                (Spec_congr c cs hw Iff.rfl).1 hq⟩⟩
              rcases ha.1.2 with h | h
              · exact .inl h
              · exact .inr ⟨h.1, by simp [h.2]⟩
            · simp at h
        · rintro ⟨l', es', seg, rest, heq, rfl, hm, h⟩
          cases heq
          rcases h with ⟨n, he, h⟩ | ⟨rfl, hl, hd, h⟩
          · left
            refine ⟨(seg, n), he, ?_⟩
            simp only [hm, if_true]
            exact List.mem_map.2 ⟨rest, (ih' _ _ _ _).2 ((Spec_congr c cs hw Iff.rfl).2 h), rfl⟩
          · right
            have ha : allowDot c r p = true := by
              simp only [allowDot, Bool.and_eq_true, Bool.or_eq_true, Bool.not_eq_true']
              refine ⟨⟨hl, ?_⟩, hm⟩
              rcases hd with h | h
              · exact .inl h
              · exact .inr ⟨h.1, by simpa using h.2⟩
            rw [if_pos ha]
            exact List.mem_map.2 ⟨rest, (ih' _ _ _ _).2 ((Spec_congr c cs hw Iff.rfl).2 h), rfl⟩

/-! ### Properties -/

/-- The results are exactly the paths the pattern stands for, without `..` in it. -/
theorem C152_results_partial (c : Cfg N P) (star : P) (cs : List (Comp P)) (hp : Comp.parent ∉ cs)
    (hs : c.trailing = true ∨ cs.getLast? ≠ some .globstar)
    (node : Node N) (up : List (Node N)) (path : List N) :
    path ∈ glob c star cs node up ↔ Spec c cs True False node path := by
  have hc : components star c.trailing cs = cs := by
    unfold components
    split
    · rfl
    · split
      · rename_i h1 _ h2
        rcases hs with h | h
        · exact absurd h h1
        · exact absurd h2 h
      · rfl
  rw [glob, hc, mem_traverse c cs hp]
  exact Spec_congr c cs (by simp) (by simp)

/-- A trailing `**` is `*`: this level only. -/
theorem C152_trailing_globstar (c : Cfg N P) (star : P) (cs : List (Comp P)) (ht : c.trailing = false)
    (node : Node N) (up : List (Node N)) :
    glob c star (cs ++ [.globstar]) node up = glob c star (cs ++ [.name star]) node up := by
  simp [glob, components, ht]

/-- What `**/` followed by one name finds: the entries that match, at any depth, through directories
that are no links and not hidden. -/
theorem C152_globstar (c : Cfg N P) (star p : P) (ht : c.trailing = false) (hd : c.dotmatch = false)
    (node : Node N) (up : List (Node N)) (path : List N) :
    path ∈ glob c star [.globstar, .name p] node up ↔
      ∃ mid l es seg n, path = mid ++ [seg] ∧ Descend c node mid (.dir l es) ∧ (seg, n) ∈ es ∧
        c.mtch p seg = true := by
  rw [C152_results_partial c star _ (by simp) (by simp)]
  simp only [Spec]
  constructor
  · rintro ⟨mid, n, rest, rfl, hde, l, es, seg, rest', rfl, rfl, hm, h⟩
    rcases h with ⟨n, he, rfl, _⟩ | ⟨rfl, _, h, _⟩
    · exact ⟨mid, l, es, seg, n, rfl, hde, he, hm⟩
    · simp [hd] at h
  · rintro ⟨mid, l, es, seg, n, rfl, hde, he, hm⟩
    exact ⟨mid, _, [seg], rfl, hde, l, es, seg, [], rfl, rfl, hm, .inl ⟨n, he, rfl, by simp [ht]⟩⟩

/-- A hidden or linked directory is not entered by `**`. -/
theorem C152_globstar_not_entered (c : Cfg N P) {node : Node N} {mid : List N} {n : Node N}
    (h : Descend c node mid n) (hd : c.dotmatch = false) : ∀ s ∈ mid, c.hidden s = false := by
  induction h with
  | here => simp
  | step _ _ hv _ ih =>
    intro s hs
    rcases List.mem_cons.1 hs with rfl | hs
    · rcases hv with h | h
      · exact h
      · simp [hd] at h
    · exact ih s hs

theorem descend_resolves (c : Cfg N P) {node : Node N} {mid : List N} {n : Node N}
    (h : Descend c node mid n) {rest : List N} (hr : Resolves c n rest) :
    Resolves c node (mid ++ rest) := by
  induction h with
  | here => exact hr
  | step he _ _ _ ih => exact .entry he (ih hr)

theorem spec_resolves (c : Cfg N P) : ∀ (cs : List (Comp P)), Comp.current ∉ cs → ∀ lit star node path,
    Spec c cs lit star node path → Resolves c node path := by
  intro cs
  induction cs with
  | nil => rintro _ lit star node path ⟨rfl, _⟩; exact .here _
  | cons d cs ih =>
    intro hc
    simp only [List.mem_cons, not_or] at hc
    intro lit star node path h
    cases d with
    | parent => exact h.elim
    | current => exact absurd rfl hc.1
    | globstar =>
      obtain ⟨mid, n, rest, rfl, hd, h⟩ := h
      exact descend_resolves c hd (ih hc.2 _ _ _ _ h)
    | name p =>
      obtain ⟨l, es, seg, rest, rfl, rfl, _, h⟩ := h
      rcases h with ⟨n, he, h⟩ | ⟨rfl, _, _, h⟩
      · exact .entry he (ih hc.2 _ _ _ _ h)
      · exact .dot (ih hc.2 _ _ _ _ h)

/-- Every result is a path that exists, for patterns without `.` and `..` as segments. -/
theorem C152_exists_partial (c : Cfg N P) (star : P) (cs : List (Comp P)) (hp : Comp.parent ∉ cs)
    (hc : Comp.current ∉ cs) (node : Node N) (up : List (Node N)) (path : List N)
    (h : path ∈ glob c star cs node up) : Resolves c node path := by
  rw [glob] at h
  have hmem : ∀ d, d ∈ components star c.trailing cs → d ∈ cs ∨ d = .name star := by
    intro d hd
    unfold components at hd
    split at hd
    · exact .inl hd
    · split at hd
      · rcases List.mem_append.1 hd with h | h
        · exact .inl (List.dropLast_subset _ h)
        · exact .inr (by simpa using h)
      · exact .inl hd
  have hp' : Comp.parent ∉ components star c.trailing cs := by
    intro h; rcases hmem _ h with h | h
    · exact hp h
    · simp at h
  have hc' : Comp.current ∉ components star c.trailing cs := by
    intro h; rcases hmem _ h with h | h
    · exact hc h
    · simp at h
  rw [mem_traverse c _ hp'] at h
  exact spec_resolves c _ hc' _ _ _ _ h

/-- A pattern of names without wildcards gives its own path, if it exists, and nothing else. -/
theorem C152_literal (c : Cfg N N) (star : N) (hm : ∀ p n, c.mtch p n = true ↔ p = n)
    (ht : c.trailing = false) : ∀ (names : List N), c.dot ∉ names → ∀ (node : Node N) (up : List (Node N))
      (path : List N), path ∈ glob c star (names.map .name) node up ↔
        path = names ∧ Resolves c node names := by
  intro names hdot node up path
  have hl : (names.map (Comp.name (P := N))).getLast? ≠ some .globstar := by
    rw [List.getLast?_map]
    cases names.getLast? <;> simp
  rw [C152_results_partial c star _ (by simp) (.inr hl)]
  have key : ∀ (names : List N), c.dot ∉ names → ∀ lit star (node : Node N) path,
      Spec c (names.map .name) lit star node path ↔ path = names ∧ Resolves c node names := by
    intro names
    induction names with
    | nil =>
      intro _ lit star node path
      simp only [List.map_nil, Spec, ht]
      constructor
      · rintro ⟨rfl, _⟩; exact ⟨rfl, .here _⟩
      · rintro ⟨rfl, _⟩; exact ⟨rfl, by simp⟩
    | cons p names ih =>
      intro hd lit star node path
      simp only [List.mem_cons, not_or] at hd
      simp only [List.map_cons, Spec]
      constructor
      · rintro ⟨l, es, seg, rest, rfl, rfl, h, h2⟩
        obtain rfl := (hm _ _).1 h
        rcases h2 with ⟨n, he, h⟩ | ⟨h, _⟩
        · obtain ⟨rfl, hr⟩ := (ih hd.2 _ _ _ _).1 h
          exact ⟨rfl, .entry he hr⟩
        · exact absurd h.symm hd.1
      · rintro ⟨rfl, h⟩
        cases h with
        | @entry l es s n rest he hr =>
          exact ⟨l, es, p, names, rfl, rfl, (hm _ _).2 rfl, .inl ⟨n, he, (ih hd.2 _ _ _ _).2 ⟨rfl, hr⟩⟩⟩
        | dot _ => exact absurd rfl hd.1
  exact key names hdot _ _ _ _

/-! ### No path twice -/

/-- How many segments a pattern without `**` asks for. -/
def width (cs : List (Comp P)) : Nat := (cs.filter fun | .globstar => false | _ => true).length

def stars (cs : List (Comp P)) : Nat := (cs.filter fun | .globstar => true | _ => false).length

theorem length_traverse (c : Cfg N P) : ∀ (cs : List (Comp P)), stars cs = 0 → ∀ node up r path,
    path ∈ traverse c cs node up r → path.length = cs.length := by
  intro cs
  induction cs with
  | nil =>
    intro _ node up r path h
    rw [traverse] at h
    split at h
    · simp at h
    · simp at h; simp [h]
  | cons d cs ih =>
    intro hs node up r path h
    cases d with
    | globstar => simp [stars] at hs
    | parent =>
      have hs' : stars cs = 0 := by simpa [stars] using hs
      cases up <;> rw [traverse] at h <;>
      · obtain ⟨q, hq, rfl⟩ := List.mem_map.1 h
        simp [ih hs' _ _ _ _ hq]
    | current =>
      have hs' : stars cs = 0 := by simpa [stars] using hs
      rw [traverse] at h
      obtain ⟨q, hq, rfl⟩ := List.mem_map.1 h
      simp [ih hs' _ _ _ _ hq]
    | name p =>
      have hs' : stars cs = 0 := by simpa [stars] using hs
      cases node with
      | file => rw [traverse] at h; simp at h
      | dir l es =>
        rw [traverse] at h
        rcases List.mem_append.1 h with h | h
        · obtain ⟨e, _, h⟩ := List.mem_flatMap.1 h
          split at h
          · obtain ⟨q, hq, rfl⟩ := List.mem_map.1 h
            simp [ih hs' _ _ _ _ hq]
          · simp at h
        · split at h
          · obtain ⟨q, hq, rfl⟩ := List.mem_map.1 h
            simp [ih hs' _ _ _ _ hq]
          · simp at h

theorem length_globstar (c : Cfg N P) (cs : List (Comp P)) (hs : stars cs = 0) :
    ∀ k node up r path, sizeOf node < k → path ∈ traverse c (.globstar :: cs) node up r →
      cs.length ≤ path.length := by
  intro k
  induction k with
  | zero => intro node up r path h; omega
  | succ k ihk =>
    intro node up r path hk h
    cases node with
    | file =>
      rw [traverse_globstar_file] at h
      exact Nat.le_of_eq (length_traverse c cs hs _ _ _ _ h).symm
    | dir l es =>
      rw [traverse_globstar_dir] at h
      rcases List.mem_append.1 h with h | h
      · exact Nat.le_of_eq (length_traverse c cs hs _ _ _ _ h).symm
      · obtain ⟨e, he, h⟩ := List.mem_flatMap.1 h
        split at h
        · obtain ⟨q, hq, rfl⟩ := List.mem_map.1 h
          have hlt := sizeOf_entry (l := l) he
          have := ihk _ _ _ _ (by omega) hq
          simp; omega
        · simp at h

theorem nodup_map_cons {a : N} {xs : List (List N)} (h : xs.Nodup) : (xs.map (a :: ·)).Nodup := by
  induction xs with
  | nil => simp
  | cons x xs ih =>
    rw [List.nodup_cons] at h
    rw [List.map_cons, List.nodup_cons]
    refine ⟨?_, ih h.2⟩
    simp only [List.mem_map, not_exists, not_and]
    intro y hy heq
    simp at heq
    exact h.1 (heq ▸ hy)

theorem nodup_entries {es : List (N × Node N)} (f : N × Node N → List (List N))
    (hn : (es.map (·.1)).Nodup) (hf : ∀ e ∈ es, (f e).Nodup)
    (hh : ∀ e ∈ es, ∀ q ∈ f e, ∃ t, q = e.1 :: t) : (es.flatMap f).Nodup := by
  induction es with
  | nil => simp
  | cons e es ih =>
    rw [List.map_cons, List.nodup_cons] at hn
    rw [List.flatMap_cons, List.nodup_append]
    refine ⟨hf e (by simp), ih hn.2 (fun e' h => hf e' (by simp [h])) (fun e' h => hh e' (by simp [h])), ?_⟩
    intro a ha b hb hab
    subst hab
    obtain ⟨t, rfl⟩ := hh e (by simp) _ ha
    obtain ⟨e', he', hb⟩ := List.mem_flatMap.1 hb
    obtain ⟨t', h⟩ := hh e' (by simp [he']) _ hb
    simp at h
    exact hn.1 (List.mem_map.2 ⟨e', he', h.1.symm⟩)

theorem nodup_traverse (c : Cfg N P) : ∀ (cs : List (Comp P)), stars cs ≤ 1 → ∀ k node up r,
    sizeOf node < k → WF c node → (∀ u ∈ up, WF c u) → (traverse c cs node up r).Nodup := by
  intro cs
  induction cs with
  | nil =>
    intro _ k node up r _ _ _
    rw [traverse]
    split <;> simp
  | cons d cs ih =>
    intro hs k
    cases d with
    | parent =>
      have hs' : stars cs ≤ 1 := by simpa [stars] using hs
      intro node up r _ hw hu
      cases up with
      | nil =>
        rw [traverse]
        exact nodup_map_cons (ih hs' _ _ _ _ (Nat.lt_succ_self _) hw (by simp))
      | cons n up =>
        rw [traverse]
        exact nodup_map_cons (ih hs' _ _ _ _ (Nat.lt_succ_self _) (hu n (by simp))
          (fun u h => hu u (by simp [h])))
    | current =>
      have hs' : stars cs ≤ 1 := by simpa [stars] using hs
      intro node up r _ hw hu
      rw [traverse]
      exact nodup_map_cons (ih hs' _ _ _ _ (Nat.lt_succ_self _) hw hu)
    | name p =>
      have hs' : stars cs ≤ 1 := by simpa [stars] using hs
      intro node up r _ hw hu
      cases node with
      | file => rw [traverse]; simp
      | dir l es =>
        rw [traverse]
        have hw0 := hw
        cases hw with
        | dir hn hd he =>
          have hu' : ∀ u ∈ (Node.dir l es :: up), WF c u := by
            intro u h
            rcases List.mem_cons.1 h with rfl | h
            · exact hw0
            · exact hu u h
          rw [List.nodup_append]
          refine ⟨nodup_entries _ hn ?_ ?_, ?_, ?_⟩
          · intro e h
            split
            · exact nodup_map_cons (ih hs' _ _ _ _ (Nat.lt_succ_self _) (he e h) hu')
            · simp
          · intro e h q hq
            split at hq
            · obtain ⟨t, _, rfl⟩ := List.mem_map.1 hq
              exact ⟨t, rfl⟩
            · simp at hq
          · split
            · exact nodup_map_cons (ih hs' _ _ _ _ (Nat.lt_succ_self _) hw0 hu')
            · simp
          · intro a ha b hb hab
            subst hab
            obtain ⟨e, hem, ha⟩ := List.mem_flatMap.1 ha
            split at ha
            · obtain ⟨t, _, rfl⟩ := List.mem_map.1 ha
              split at hb
              · obtain ⟨t', _, h⟩ := List.mem_map.1 hb
                simp at h
                exact hd (List.mem_map.2 ⟨e, hem, h.1.symm⟩)
              · simp at hb
            · simp at ha
    | globstar =>
      have hs' : stars cs = 0 := by
        simp [stars] at hs ⊢
        exact hs
      induction k with
      | zero => intro node up r h; omega
      | succ k ihk =>
        intro node up r hk hw hu
        cases node with
        | file =>
          rw [traverse_globstar_file]
          exact ih (by omega) _ _ _ _ (Nat.lt_succ_self _) hw hu
        | dir l es =>
          have hw0 := hw
          cases hw with
          | dir hn hd he =>
            have hu' : ∀ u ∈ (Node.dir l es :: up), WF c u := by
              intro u h
              rcases List.mem_cons.1 h with rfl | h
              · exact hw0
              · exact hu u h
            rw [traverse_globstar_dir, List.nodup_append]
            refine ⟨ih (by omega) _ _ _ _ (Nat.lt_succ_self _) hw0 hu, nodup_entries _ hn ?_ ?_, ?_⟩
            · intro e h
              split
              · have hlt := sizeOf_entry (l := l) h
                exact nodup_map_cons (ihk _ _ _ (by omega) (he e h) hu')
              · simp
            · intro e h q hq
              split at hq
              · obtain ⟨t, _, rfl⟩ := List.mem_map.1 hq
                exact ⟨t, rfl⟩
              · simp at hq
            · intro a ha b hb hab
              subst hab
              have h1 := length_traverse c cs hs' _ _ _ _ ha
              obtain ⟨e, hem, hb⟩ := List.mem_flatMap.1 hb
              split at hb
              · obtain ⟨t, ht, rfl⟩ := List.mem_map.1 hb
                have h2 := length_globstar c cs hs' _ _ _ _ _ (Nat.lt_succ_self _) ht
                simp at h1
                omega
              · simp at hb

/-- No path is returned twice by a pattern with at most one `**`. -/
theorem C152_once_partial (c : Cfg N P) (star : P) (cs : List (Comp P)) (hs : stars cs ≤ 1)
    (node : Node N) (up : List (Node N)) (hw : WF c node) (hu : ∀ u ∈ up, WF c u) :
    (glob c star cs node up).Nodup := by
  refine nodup_traverse c _ ?_ _ node up _ (Nat.lt_succ_self _) hw hu
  have hle : stars (components star c.trailing cs) ≤ stars cs := by
    unfold components
    split
    · exact Nat.le_refl _
    · split
      · have h1 : (cs.dropLast.filter fun | .globstar => true | _ => false).length ≤
            (cs.filter fun (d : Comp P) => match d with | .globstar => true | _ => false).length :=
          ((List.dropLast_sublist cs).filter _).length_le
        simpa [stars, List.filter_append] using h1
      · exact Nat.le_refl _
  omega

/-- A trailing slash: only directories. -/
theorem C152_trailing_slash (c : Cfg N P) (star p : P) (ht : c.trailing = true) (hdm : c.mtch p c.dot = false)
    (l : Bool) (es : List (N × Node N)) (up : List (Node N)) (path : List N) :
    path ∈ glob c star [.name p] (.dir l es) up ↔
      ∃ s n, path = [s] ∧ (s, n) ∈ es ∧ c.mtch p s = true ∧ n.isDir = true := by
  rw [C152_results_partial c star _ (by simp) (.inl ht)]
  simp only [Spec]
  constructor
  · rintro ⟨l', es', seg, rest, heq, rfl, hm, h⟩
    cases heq
    rcases h with ⟨n, he, rfl, hd⟩ | ⟨rfl, _⟩
    · exact ⟨seg, n, rfl, he, hm, hd ht⟩
    · simp [hdm] at hm
  · rintro ⟨s, n, rfl, he, hm, hd⟩
    exact ⟨l, es, s, [], rfl, rfl, hm, .inl ⟨n, he, rfl, fun _ => hd⟩⟩

/-! ### Counterexamples and cases -/

/-- names are strings, patterns too; `*` matches what does not begin with a dot -/
def strCfg : Cfg String String where
  mtch p n := p == n || (p == "*" && !(n == "." || n == ".h"))
  hidden n := n == "." || n == ".h"
  startsDot p := p == "." || p == ".h"
  hasMeta p := p == "*"
  dotmatch := false
  trailing := false
  dot := "."
  dotdot := ".."

theorem resolves_cons (c : Cfg N P) {l : Bool} {es : List (N × Node N)} {s : N} {rest : List N}
    (h : Resolves c (.dir l es) (s :: rest)) :
    (∃ n, (s, n) ∈ es ∧ Resolves c n rest) ∨ (s = c.dot ∧ Resolves c (.dir l es) rest) := by
  generalize hp : s :: rest = path at h
  generalize hn : Node.dir l es = node at h
  cases h with
  | here => simp at hp
  | entry he hr =>
    simp at hp hn
    obtain ⟨rfl, rfl⟩ := hp
    obtain ⟨rfl, rfl⟩ := hn
    exact .inl ⟨_, he, hr⟩
  | dot hr =>
    simp at hp hn
    obtain ⟨rfl, rfl⟩ := hp
    obtain ⟨rfl, rfl⟩ := hn
    exact .inr ⟨rfl, hr⟩

/-- With two `**` a path is returned more than once: CRuby returns it once. -/
theorem C152_once_fails : ∃ node : Node String, WF strCfg node ∧
    ¬ (glob strCfg "*" [.globstar, .name "b", .globstar, .name "c"] node []).Nodup ∧
    ¬ (glob strCfg "*" [.globstar, .globstar, .name "c"] node []).Nodup := by
  refine ⟨.dir false [("b", .dir false [("b", .dir false [("c", .file)])])], ?_, ?_, ?_⟩
  · refine .dir (by simp) (by simp [strCfg]) ?_
    simp only [List.mem_singleton, forall_eq]
    refine .dir (by simp) (by simp [strCfg]) ?_
    simp only [List.mem_singleton, forall_eq]
    refine .dir (by simp) (by simp [strCfg]) ?_
    simp only [List.mem_singleton, forall_eq]
    exact .file
  · simp [glob, components, traverse, strCfg, Node.isPlainDir, allowDot]
  · simp [glob, components, traverse, strCfg, Node.isPlainDir, allowDot]

/-- A file followed by `/.` is returned although there is no such path; likewise `file/../other`. -/
theorem C152_exists_fails : ∃ node : Node String, WF strCfg node ∧
    ["f", "."] ∈ glob strCfg "*" [.name "f", .current] node [] ∧ ¬ Resolves strCfg node ["f", "."] ∧
    ["f", "..", "g"] ∈ glob strCfg "*" [.name "f", .parent, .name "g"] node [] := by
  refine ⟨.dir false [("f", .file), ("g", .file)], ?_, ?_, ?_, ?_⟩
  · refine .dir (by simp) (by simp [strCfg]) ?_
    intro e he
    simp at he
    rcases he with rfl | rfl <;> exact .file
  · simp [glob, components, traverse, strCfg, allowDot]
  · intro h
    rcases resolves_cons _ h with ⟨n, he, hr⟩ | ⟨h, _⟩
    · simp at he
      subst he
      cases hr
    · simp [strCfg] at h
  · simp [glob, components, traverse, strCfg, allowDot]

/-- `**/c` over `{a/{c}, .h/{c}, c}`: not in the hidden directory. -/
example : glob strCfg "*" [.globstar, .name "c"]
    (.dir false [("a", .dir false [("c", .file)]), (".h", .dir false [("c", .file)]),
      ("l", .dir true [("c", .file)]), ("c", .file)]) [] = [["c"], ["a", "c"]] := by
  simp [glob, components, traverse, strCfg, Node.isPlainDir, allowDot]

/-- `l/c`: a link is followed by its name. -/
example : glob strCfg "*" [.name "l", .name "c"]
    (.dir false [("l", .dir true [("c", .file)])]) [] = [["l", "c"]] := by
  simp [glob, components, traverse, strCfg, allowDot]

example : Descend strCfg (.dir false [("a", .dir false [("c", .file)])]) ["a"] (.dir false [("c", .file)]) :=
  .step (by simp) rfl (.inl (by simp [strCfg])) (.here _)

/-- `*/` over `{a/, f}` -/
example : glob { strCfg with trailing := true } "*" [.name "*"]
    (.dir false [("a", .dir false []), ("f", .file)]) [] = [["a"]] := by
  simp [glob, components, traverse, strCfg, Node.isDir, allowDot]

end Verif.Glob
