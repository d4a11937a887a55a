import Verif.DirObj.Model
/-!
# Dir objects (C164)
-/

namespace Verif.DirObj

theorem D.eta {e : D} (h : e.closed = false) :
    (⟨e.entries, e.pos, false, e.fdClosed⟩ : D) = e := by
  obtain ⟨a, b, c, f⟩ := e
  simp only at h
  subst h
  rfl

/-- C164.  The names never change, and the descriptor is closed once if the Dir
was closed, however often and in whatever order its methods are called. -/
theorem C164_close_once (entries : List String) (ops : List Op) :
    (run (.new entries) ops).2.entries = entries ∧
    (run (.new entries) ops).2.fdClosed = (if Op.close ∈ ops then 1 else 0) ∧
    ((run (.new entries) ops).2.closed = true ↔ Op.close ∈ ops) := by
  suffices h : ∀ (ops : List Op) (d : D), (d.closed = true → d.fdClosed = 1) →
      (d.closed = false → d.fdClosed = 0) →
      (run d ops).2.entries = d.entries ∧
      (run d ops).2.fdClosed = (if d.closed = true ∨ Op.close ∈ ops then 1 else 0) ∧
      ((run d ops).2.closed = true ↔ d.closed = true ∨ Op.close ∈ ops) by
    simpa [D.new] using h ops (.new entries) (by simp [D.new]) (by simp [D.new])
  intro ops
  induction ops with
  | nil =>
    intro d h1 h2
    cases hc : d.closed <;> simp [run, hc, h1, h2]
  | cons o os ih =>
    intro d h1 h2
    have key : (step d o).2.entries = d.entries ∧
        ((step d o).2.closed = true ↔ d.closed = true ∨ o = .close) ∧
        ((step d o).2.closed = true → (step d o).2.fdClosed = 1) ∧
        ((step d o).2.closed = false → (step d o).2.fdClosed = 0) := by
      cases hc : d.closed with
      | true =>
        have := h1 hc
        cases o <;> simp [step, read, each, children, rewind, tell, seek, close, hc, this]
      | false =>
        have := h2 hc
        cases o with
        | each k =>
          cases k with
          | none => simp [step, each, hc, this]
          | some k => by_cases hk : k < d.entries.length <;> simp [step, each, hc, this, hk]
        | read =>
          by_cases hp : d.pos ≥ d.entries.length <;> simp [step, read, hc, this, hp]
        | _ => simp [step, children, rewind, tell, seek, close, hc, this]
    obtain ⟨a, b, c, e⟩ := key
    obtain ⟨i1, i2, i3⟩ := ih _ c e
    simp only [run]
    refine ⟨i1.trans a, ?_, ?_⟩
    · rw [i2]
      simp only [b, List.mem_cons, or_assoc, eq_comm (a := o)]
    · rw [i3, b]
      simp only [List.mem_cons, or_assoc, eq_comm (a := o)]

/-- C164.  `Dir.open` with a block closes the descriptor, once, whatever the block
does. -/
theorem C164_open_block (entries : List String) (ops : List Op) :
    (openBlock entries ops).closed = true ∧ (openBlock entries ops).fdClosed = 1 := by
  obtain ⟨-, h2, h3⟩ := C164_close_once entries ops
  simp only [openBlock, close]
  by_cases hc : Op.close ∈ ops
  · simp [h3.2 hc, h2, hc]
  · have : (run (.new entries) ops).2.closed = false := by
      cases q : (run (.new entries) ops).2.closed with
      | false => rfl
      | true => exact absurd (h3.1 q) hc
    simp [this, h2, hc]

/-- C164.  A closed Dir raises and stays as it is; `close` does nothing. -/
theorem C164_closed (d : D) (h : d.closed = true) (o : Op) :
    (step d o).2 = d ∧ (step d o).1 = if o = .close then .nil else .closedError := by
  cases o <;> simp [step, read, each, children, rewind, tell, seek, close, h]

/-- The results of `n` calls of `read`. -/
def reads (n : Nat) (d : D) : List Res := (run d (List.replicate n .read)).1

/-- What a `read` at place `i` gives. -/
def expected (l : List String) (i : Nat) : Res :=
  match l[i]? with
  | some e => .name e
  | none => .nil

theorem reads_spec (l : List String) : ∀ (n p f : Nat),
    reads n ⟨l, p, false, f⟩ = (List.range' p n).map (expected l) := by
  intro n
  induction n with
  | zero => intro p f; rfl
  | succ n ih =>
    intro p f
    by_cases hp : p < l.length
    · have e : step ⟨l, p, false, f⟩ .read = (expected l p, ⟨l, ((p + 1 : Nat) : Int), false, f⟩) := by
        have h1 : ¬ ((p : Int) ≥ l.length) := by omega
        simp only [step, read, Bool.false_eq_true, if_false, h1, at', expected]
        rw [if_pos (by omega)]
        simp [hp]
      have := ih (p + 1) f
      simp only [reads, List.replicate_succ, run, e] at this ⊢
      rw [this]; rfl
    · have nilAll : ∀ m f', (run ⟨l, p, false, f'⟩ (List.replicate m .read)).1 =
          List.replicate m .nil := by
        intro m f'
        have e : step ⟨l, p, false, f'⟩ .read = (.nil, ⟨l, p, false, f'⟩) := by
          have h1 : (p : Int) ≥ l.length := by omega
          simp [step, read, h1]
        induction m with
        | zero => rfl
        | succ m ihm => simp only [List.replicate_succ, run, e, ihm]
      rw [reads, nilAll]
      symm
      rw [List.eq_replicate_iff]
      refine ⟨by simp, ?_⟩
      intro b hb
      obtain ⟨i, hi, rfl⟩ := List.mem_map.1 hb
      have : l.length ≤ i := by
        have := (List.mem_range'_1.1 hi).1; omega
      simp [expected, List.getElem?_eq_none this]

/-- C164.  `read` gives every name once, in order, and then nil for ever. -/
theorem C164_read (l : List String) (n : Nat) :
    reads (l.length + n) (.new l) = l.map .name ++ List.replicate n .nil := by
  have h := reads_spec l (l.length + n) 0 0
  simp only [D.new]
  rw [show ((0 : Nat) : Int) = 0 from rfl] at h
  rw [h]
  apply List.ext_getElem?
  intro i
  by_cases hi : i < l.length
  · have h1 : i < l.length + n := by omega
    simp [hi, h1, expected, List.getElem?_append_left]
  · by_cases h1 : i < l.length + n
    · rw [List.getElem?_append_right (by simp; omega)]
      simp only [List.getElem?_map, List.getElem?_range' h1, Option.map_some, List.length_map]
      rw [List.getElem?_replicate_of_lt (by omega)]
      have : l[0 + 1 * i]? = none := List.getElem?_eq_none (by omega)
      simp only [expected, this]
    · rw [List.getElem?_eq_none (by simp; omega), List.getElem?_eq_none (by simp; omega)]

/-- C164.  Going back to a place that `tell` gave restores the Dir, whatever was
done in between: all that follows gives the same results. -/
theorem C164_seek (d : D) (h : d.closed = false) (ops later : List Op) (hc : Op.close ∉ ops)
    {p : Int} (hp : (tell d).1 = .int p) :
    (run (seek p (run d ops).2).2 later).1 = (run d later).1 := by
  have hp' : p = d.pos := by
    have : Res.int d.pos = .int p := by simpa [tell, h] using hp
    injection this with q; exact q.symm
  suffices hs : ∀ (ops : List Op) (e : D), Op.close ∉ ops → e.closed = false →
      (run e ops).2 = { e with pos := (run e ops).2.pos } by
    have q := hs ops d hc h
    have : (seek p (run d ops).2).2 = d := by
      rw [q]; simp [seek, h, hp', D.eta h]
    rw [this]
  intro ops
  induction ops with
  | nil => intro e _ _; rfl
  | cons o os ih =>
    intro e hc he
    have hc' : Op.close ∉ os := fun q => hc (List.mem_cons_of_mem _ q)
    have key : (step e o).2 = { e with pos := (step e o).2.pos } := by
      cases o with
      | close => exact absurd List.mem_cons_self hc
      | each k =>
        cases k with
        | none => simp [step, each, he]
        | some k => by_cases hk : k < e.entries.length <;> simp [step, each, he, hk, D.eta he]
      | read => by_cases hp : e.pos ≥ e.entries.length <;> simp [step, read, he, hp, D.eta he]
      | _ => simp [step, children, rewind, tell, seek, he, D.eta he]
    have he' : (step e o).2.closed = false := by rw [key]; exact he
    have q := ih _ hc' he'
    simp only [run]
    rw [q]
    generalize (run (step e o).2 os).2.pos = z
    rw [key]

/-- C164.  `each` gives all names from every place, and a `read` after it nil;
`children` those without `.` and `..`, and moves nothing. -/
theorem C164_each (d : D) (h : d.closed = false) :
    (each none d).1 = .names d.entries ∧ (read (each none d).2).1 = .nil ∧
    (∃ l, (children d).1 = .names l ∧ (∀ x, x ∈ l ↔ x ∈ d.entries ∧ x ≠ "." ∧ x ≠ "..") ∧
      l.Sublist d.entries) ∧ (children d).2 = d ∧
    reads d.entries.length (rewind d).2 = d.entries.map .name := by
  refine ⟨by simp [each, h], by simp [each, read, h], 
    ⟨d.entries.filter fun e => !(e == "." || e == ".."), by simp [children, h], ?_, ?_⟩,
    by simp [children, h], ?_⟩
  · exact fun x => by simp
  · exact List.filter_sublist
  · have q := reads_spec d.entries d.entries.length 0 d.fdClosed
    have r := reads_spec d.entries d.entries.length 0 0
    have t := C164_read d.entries 0
    have e : (rewind d).2 = ⟨d.entries, ((0 : Nat) : Int), false, d.fdClosed⟩ := by
      obtain ⟨a, b, c, f⟩ := d
      simp only at h
      subst h
      rfl
    rw [e, q, ← r]
    simpa [D.new] using t

/-- The names that `each` did not get to are not those that `read` gives next:
after a `break` the place is the one from before, so the names the block had are
given again. -/
theorem C164_break_fails :
    ¬ ∀ (l : List String) (k n : Nat), k < l.length →
      (run (.new l) (.each (some k) :: List.replicate n .read)).1 =
        .names (l.take (k + 1)) :: reads n ⟨l, k + 1, false, 0⟩ := by
  intro h
  exact absurd (h ["a", "b"] 0 1 (by decide)) (by decide)

/-- What holds for a `break`. -/
theorem C164_break_partial (d : D) (h : d.closed = false) (k : Nat) (hk : k < d.entries.length) :
    (each (some k) d).1 = .names (d.entries.take (k + 1)) ∧
      (run (each (some k) d).2 [.each none]).1 = [.names d.entries] := by
  simp [each, h, hk, run, step]

example : (run (.new [".", "..", "a"])
    [.read, .tell, .read, .read, .read, .seek 1, .read, .children, .close, .read, .close]).1 =
    [.name ".", .int 1, .name "..", .name "a", .nil, .self, .name "..", .names ["a"], .nil,
      .closedError, .nil] := by decide

end Verif.DirObj
