import Verif.Spawn.Path
/-!
# The program that is started (C168)
-/

namespace Verif.Spawn.Path

/-- The file can be started, by itself or by a shell. -/
def Usable (ex : Str → Outcome) (f : Str) : Prop := ex f = .runs ∨ ex f = .noexec

theorem walk_found (ex : Str → Outcome) (n : Nat) (pre post : List Str) (f : Str)
    (hn : n = 1 → pre = []) (hp : ∀ x ∈ pre, ¬ Usable ex x) (hf : Usable ex f) :
    walk ex n (pre ++ f :: post) = if ex f = .runs then .ran f else .ranBySh f := by
  induction pre with
  | nil => rcases hf with h | h <;> simp [walk, h]
  | cons c cs ih =>
    have h1 : n ≠ 1 := fun e => by cases hn e
    have hc := hp c List.mem_cons_self
    have := ih (fun e => absurd e h1) fun x hx => hp x (List.mem_cons_of_mem _ hx)
    simp only [List.cons_append, walk]
    cases he : ex c with
    | runs => exact absurd (.inl he) hc
    | noexec => exact absurd (.inr he) hc
    | noent => exact this
    | other e => simp only [if_neg h1]; exact this

theorem walk_none (ex : Str → Outcome) (n : Nat) (l : List Str) (hp : ∀ x ∈ l, ¬ Usable ex x) :
    walk ex n l = .noent ∨ ∃ e, n = 1 ∧ walk ex n l = .failed e := by
  induction l with
  | nil => exact .inl rfl
  | cons c cs ih =>
    have hc := hp c List.mem_cons_self
    have := ih fun x hx => hp x (List.mem_cons_of_mem _ hx)
    simp only [walk]
    cases he : ex c with
    | runs => exact absurd (.inl he) hc
    | noexec => exact absurd (.inr he) hc
    | noent => exact this
    | other e =>
      by_cases h1 : n = 1
      · simp only [if_pos h1]; exact .inr ⟨e, h1, rfl⟩
      · simp only [if_neg h1]; exact this

/-- C168.  The first candidate that can be started is started. -/
theorem C168_first (ex : Str → Outcome) (path prog : Str) (pre post : List Str) (f : Str)
    (h : candidates path prog = pre ++ f :: post) (hp : ∀ x ∈ pre, ¬ Usable ex x)
    (hf : Usable ex f) :
    start ex path prog = if ex f = .runs then .ran f else .ranBySh f := by
  rw [start, h]
  refine walk_found ex _ pre post f ?_ hp hf
  intro e
  rw [List.length_append, List.length_cons] at e
  exact List.length_eq_zero_iff.1 (by omega)

/-- C168.  There is an error exactly if none can be started. -/
theorem C168_error (ex : Str → Outcome) (path prog : Str) :
    (start ex path prog = .noent ∨ ∃ e, start ex path prog = .failed e) ↔
      ∀ x ∈ candidates path prog, ¬ Usable ex x := by
  constructor
  · intro h x hx hu
    -- the first usable one
    have : ∀ l : List Str, x ∈ l → ∃ pre f post, l = pre ++ f :: post ∧
        (∀ y ∈ pre, ¬ Usable ex y) ∧ Usable ex f := by
      intro l
      induction l with
      | nil => intro h; cases h
      | cons c cs ih =>
        intro hm
        cases hc : ex c with
        | runs => exact ⟨[], c, cs, rfl, by simp, .inl hc⟩
        | noexec => exact ⟨[], c, cs, rfl, by simp, .inr hc⟩
        | noent =>
          have hcu : ¬ Usable ex c := by rintro (q | q) <;> rw [hc] at q <;> cases q
          rcases List.mem_cons.1 hm with rfl | hm
          · exact absurd hu hcu
          · obtain ⟨pre, f, post, e, a, b⟩ := ih hm
            refine ⟨c :: pre, f, post, by rw [e]; rfl, ?_, b⟩
            intro y hy
            rcases List.mem_cons.1 hy with rfl | hy
            · exact hcu
            · exact a y hy
        | other k =>
          have hcu : ¬ Usable ex c := by rintro (q | q) <;> rw [hc] at q <;> cases q
          rcases List.mem_cons.1 hm with rfl | hm
          · exact absurd hu hcu
          · obtain ⟨pre, f, post, e, a, b⟩ := ih hm
            refine ⟨c :: pre, f, post, by rw [e]; rfl, ?_, b⟩
            intro y hy
            rcases List.mem_cons.1 hy with rfl | hy
            · exact hcu
            · exact a y hy
    obtain ⟨pre, f, post, e, a, b⟩ := this _ hx
    rw [C168_first ex path prog pre post f e a b] at h
    split at h <;> rcases h with h | ⟨k, h⟩ <;> cases h
  · intro h
    rcases walk_none ex (candidates path prog).length _ h with q | ⟨e, -, q⟩
    · exact .inl q
    · exact .inr ⟨e, q⟩

/-- C168.  A name with a slash is the file itself, and its error is reported. -/
theorem C168_slash (ex : Str → Outcome) (path prog : Str) (h : '/' ∈ prog) :
    start ex path prog = match ex prog with
      | .runs => .ran prog
      | .noexec => .ranBySh prog
      | .noent => .noent
      | .other e => .failed e := by
  have hne : prog ≠ [] := by rintro rfl; cases h
  have : candidates path prog = [prog] := by
    simp [candidates, hne, h]
  rw [start, this]
  cases he : ex prog <;> simp [walk, he]

/-- Joining with colons. -/
def joinColon : List Str → Str
  | [] => []
  | [d] => d
  | d :: ds => d ++ ':' :: joinColon ds

theorem split_join (ds : List Str) (hne : ds ≠ []) (h : ∀ d ∈ ds, ':' ∉ d) :
    splitColon (joinColon ds) = ds := by
  have word : ∀ (d : Str), ':' ∉ d → splitColon d = [d] := by
    intro d
    induction d with
    | nil => intro _; rfl
    | cons c cs ih =>
      intro hd
      simp only [List.mem_cons, not_or] at hd
      simp [splitColon, Ne.symm hd.1, ih hd.2]
  have pre : ∀ (d rest : Str), ':' ∉ d → splitColon (d ++ ':' :: rest) = d :: splitColon rest := by
    intro d rest
    induction d with
    | nil => intro _; simp [splitColon]
    | cons c cs ih =>
      intro hd
      simp only [List.mem_cons, not_or] at hd
      simp [splitColon, Ne.symm hd.1, ih hd.2]
  induction ds with
  | nil => exact absurd rfl hne
  | cons d ds ih =>
    cases ds with
    | nil => exact word d (h d List.mem_cons_self)
    | cons e es =>
      rw [joinColon, pre d _ (h d List.mem_cons_self),
        ih (by simp) fun x hx => h x (List.mem_cons_of_mem _ hx)]
      simp

/-- C168.  Other names are looked for in the directories of PATH, in their order, if
none of those is empty.  Missing: empty ones, which stand for the current directory. -/
theorem C168_dirs_partial (ds : List Str) (prog : Str) (hne : ds ≠ [])
    (h : ∀ d ∈ ds, ':' ∉ d ∧ d ≠ []) (hp : prog ≠ []) (hs : '/' ∉ prog) :
    candidates (joinColon ds) prog = ds.map fun d => d ++ '/' :: prog := by
  have hf : (ds.filter fun d => !d.isEmpty) = ds := by
    rw [List.filter_eq_self]
    intro d hd
    simpa using (h d hd).2
  simp only [candidates, split_join ds hne fun d hd => (h d hd).1, hf]
  simp [hp, hs]

/-- With an empty entry the program in the current directory is not found. -/
theorem C168_current_fails :
    start (fun f => if f = "p".toList ∨ f = "./p".toList ∨ f = "/p".toList then .runs else .noent)
      (joinColon [[], "/bin".toList]) "p".toList = .noent := by
  decide +kernel

example : start (fun f => if f = "/b/p".toList ∨ f = "/c/p".toList then .runs else .other 13)
    "/a:/b:/c".toList "p".toList = .ran "/b/p".toList := by decide +kernel

end Verif.Spawn.Path
