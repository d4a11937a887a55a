import Verif.Exit.Finalizer
/-!
# Finalizers belong to their objects (C162)
-/

namespace Verif.Exit.Fin

/-- The finalizers that should be there, by object: a callable is recorded once
per object, `undefine_finalizer` drops those of that object only, and a copy
gets those of its original. -/
def wantStep (w : World) (reg : List (Nat × Nat)) (op : Op) : List (Nat × Nat) :=
  if op.valid w then
    match op with
    | .define o c => if (o, c) ∈ reg then reg else reg ++ [(o, c)]
    | .undefine o => reg.filter fun e => e.1 != o
    | .clone o _ => reg ++ (reg.filter fun e => e.1 == o).map fun e => (w.n, e.2)
    | _ => reg
  else reg

/-- … after a program. -/
def wanted (w : World) (reg : List (Nat × Nat)) : List Op → List (Nat × Nat)
  | [] => reg
  | op :: ops => wanted (step w op) (wantStep w reg op) ops

/-- New objects are never put at an address that is in the table. -/
def NoReuse (w : World) : List Op → Prop
  | [] => True
  | op :: ops => (match op with
      | .alloc a | .clone _ a => ∀ e ∈ w.fin, e.1 ≠ a
      | _ => True) ∧ NoReuse (step w op) ops

/-- Objects that are alive or have finalizers. -/
def Held (w : World) (reg : List (Nat × Nat)) (o : Nat) : Prop :=
  w.live o = true ∨ ∃ c, (o, c) ∈ reg

structure Inv (w : World) (reg : List (Nat × Nat)) : Prop where
  eq : w.fin = reg.map fun e => (w.addr e.1, e.2)
  lt : ∀ o, Held w reg o → o < w.n
  inj : ∀ x y, Held w reg x → Held w reg y → w.addr x = w.addr y → x = y
  nodup : reg.Nodup

theorem Inv.init : Inv .init [] where
  eq := rfl
  lt o h := by simp [Held, World.init] at h
  inj x y h := by simp [Held, World.init] at h
  nodup := .nil

theorem held_mem {w : World} {reg : List (Nat × Nat)} {e : Nat × Nat} (h : e ∈ reg) :
    Held w reg e.1 := .inr ⟨e.2, h⟩

theorem new_addr {w : World} {a o : Nat} (h : o < w.n) : (w.new a).addr o = w.addr o := by
  have : o ≠ w.n := by omega
  simp [World.new, this]

theorem held_new {w : World} {reg : List (Nat × Nat)} {a o : Nat} (h : Held (w.new a) reg o) :
    o = w.n ∨ Held w reg o := by
  by_cases q : o = w.n
  · exact .inl q
  · rcases h with h | h
    · exact .inr (.inl (by simpa [World.new, q] using h))
    · exact .inr (.inr h)

theorem Inv.new {w : World} {reg : List (Nat × Nat)} (i : Inv w reg) {a : Nat}
    (hv : w.vacant a = true) (h : ∀ e ∈ w.fin, e.1 ≠ a) : Inv (w.new a) reg := by
  have away : ∀ o, Held w reg o → w.addr o ≠ a := by
    rintro o ho q
    rcases ho with hl | ⟨c, hc⟩
    · have := i.lt o (.inl hl)
      simp only [World.vacant, List.all_eq_true, List.mem_range, Bool.or_eq_true,
        Bool.not_eq_true', bne_iff_ne] at hv
      rcases hv o this with r | r
      · rw [r] at hl; cases hl
      · exact r q
    · exact h (w.addr o, c) (by rw [i.eq]; exact List.mem_map_of_mem hc) q
  have hnew : (w.new a).addr w.n = a := by simp [World.new]
  refine ⟨?_, ?_, ?_, i.nodup⟩
  · show w.fin = _
    rw [i.eq]
    refine List.map_congr_left fun e he => ?_
    rw [new_addr (i.lt _ (held_mem he))]
  · intro o ho
    show o < w.n + 1
    rcases held_new ho with r | r
    · omega
    · have := i.lt o r; omega
  · intro x y hx hy q
    rcases held_new hx with r | r <;> rcases held_new hy with r' | r'
    · omega
    · rw [r, hnew, new_addr (i.lt y r')] at q
      exact absurd q.symm (away y r')
    · rw [r', hnew, new_addr (i.lt x r)] at q
      exact absurd q (away x r)
    · rw [new_addr (i.lt x r), new_addr (i.lt y r')] at q
      exact i.inj x y r r' q

theorem Inv.ext {w : World} {reg : List (Nat × Nat)} (i : Inv w reg) {o : Nat}
    (ho : w.live o = true) (l : List Nat) (hd : (reg ++ l.map (o, ·)).Nodup) :
    Inv { w with fin := w.fin ++ l.map (w.addr o, ·) } (reg ++ l.map (o, ·)) := by
  have hh : ∀ x, Held { w with fin := w.fin ++ l.map (w.addr o, ·) } (reg ++ l.map (o, ·)) x →
      Held w reg x := by
    rintro x (h | ⟨c, h⟩)
    · exact .inl h
    · rcases List.mem_append.1 h with h | h
      · exact .inr ⟨c, h⟩
      · obtain ⟨d, -, e⟩ := List.mem_map.1 h
        cases e; exact .inl ho
  exact ⟨by simp [i.eq], fun x hx => i.lt x (hh x hx),
    fun x y hx hy => i.inj x y (hh x hx) (hh y hy), hd⟩

theorem addr_beq {w : World} {reg : List (Nat × Nat)} (i : Inv w reg) {o : Nat}
    (ho : w.live o = true) {e : Nat × Nat} (he : e ∈ reg) :
    (w.addr e.1 == w.addr o) = (e.1 == o) := by
  by_cases q : e.1 = o
  · simp [q]
  · have : w.addr e.1 ≠ w.addr o := fun r => q (i.inj _ _ (held_mem he) (.inl ho) r)
    rw [beq_eq_false_iff_ne.2 this, beq_eq_false_iff_ne.2 q]

theorem Inv.step {w : World} {reg : List (Nat × Nat)} (i : Inv w reg) (op : Op)
    (h : match op with
      | .alloc a | .clone _ a => ∀ e ∈ w.fin, e.1 ≠ a
      | _ => True) : Inv (step w op) (wantStep w reg op) := by
  rcases Bool.eq_false_or_eq_true (op.valid w) with hv | hv
  rotate_left
  · simpa [Fin.step, wantStep, hv] using i
  cases op with
  | alloc a =>
    simp only [Fin.step, wantStep, hv, if_true]
    exact i.new hv h
  | free o =>
    simp only [Fin.step, wantStep, hv, if_true]
    have hh : ∀ x, Held { w with live := fun x => if x = o then false else w.live x } reg x →
        Held w reg x := by
      rintro x (hx | hx)
      · left
        revert hx
        show (if x = o then false else w.live x) = true → _
        split <;> simp
      · exact .inr hx
    exact ⟨i.eq, fun x hx => i.lt x (hh x hx), fun x y hx hy => i.inj x y (hh x hx) (hh y hy), i.nodup⟩
  | define o c =>
    have ho : w.live o = true := hv
    have hany : w.fin.any (fun e => e.1 == w.addr o && e.2 == c) = true ↔ (o, c) ∈ reg := by
      rw [i.eq, List.any_map, List.any_eq_true]
      constructor
      · rintro ⟨e, he, q⟩
        simp only [Function.comp, Bool.and_eq_true, addr_beq i ho he, beq_iff_eq] at q
        rw [← q.1, ← q.2]; exact he
      · intro m
        exact ⟨_, m, by simp⟩
    simp only [Fin.step, wantStep, hv, if_true]
    by_cases m : (o, c) ∈ reg
    · rw [if_pos (hany.2 m), if_pos m]; exact i
    · rw [if_neg (fun q => m (hany.1 q)), if_neg m]
      refine i.ext ho [c] (List.nodup_append.2 ⟨i.nodup, by simp, ?_⟩)
      intro a ha b hb q
      have : b = (o, c) := by simpa using hb
      exact m (this ▸ q ▸ ha)
  | undefine o =>
    have ho : w.live o = true := hv
    simp only [Fin.step, wantStep, hv, if_true]
    have hh : ∀ x, Held { w with fin := w.fin.filter fun e => e.1 != w.addr o }
        (reg.filter fun e => e.1 != o) x → Held w reg x := by
      rintro x (hx | ⟨c, hx⟩)
      · exact .inl hx
      · exact .inr ⟨c, (List.mem_filter.1 hx).1⟩
    refine ⟨?_, fun x hx => i.lt x (hh x hx), fun x y hx hy => i.inj x y (hh x hx) (hh y hy),
      i.nodup.filter _⟩
    show w.fin.filter _ = _
    rw [i.eq, List.filter_map]
    congr 1
    refine List.filter_congr fun e he => ?_
    show (!(w.addr e.1 == w.addr o)) = !(e.1 == o)
    rw [addr_beq i ho he]
  | clone o a =>
    have hv' := hv
    simp only [Op.valid, Bool.and_eq_true] at hv'
    have ho := hv'.1
    simp only [Fin.step, wantStep, hv, if_true]
    have hnew := i.new hv'.2 h
    have hl : (w.new a).live w.n = true := by simp [World.new]
    have ha : (w.new a).addr w.n = a := by simp [World.new]
    have hf : (w.fin.filter fun e => e.1 == w.addr o).map (fun e => (a, e.2)) =
        ((reg.filter fun e => e.1 == o).map (·.2)).map ((w.new a).addr w.n, ·) := by
      rw [ha, i.eq, List.filter_map, List.map_map, List.map_map]
      have : reg.filter ((fun e => e.1 == w.addr o) ∘ fun e => (w.addr e.1, e.2)) =
          reg.filter fun e => e.1 == o := List.filter_congr fun e he => addr_beq i ho he
      rw [this]
      rfl
    have hg : (reg.filter fun e => e.1 == o).map (fun e => (w.n, e.2)) =
        ((reg.filter fun e => e.1 == o).map (·.2)).map (w.n, ·) := by
      rw [List.map_map]; rfl
    rw [hf, hg]
    refine hnew.ext hl _ (List.nodup_append.2 ⟨i.nodup, ?_, ?_⟩)
    · rw [← hg]
      have hn := i.nodup.filter (fun e => e.1 == o)
      refine List.pairwise_map.2 (hn.imp_of_mem fun {x y} hx hy hne q => hne ?_)
      have h1 : x.1 = o := by simpa using (List.mem_filter.1 hx).2
      have h2 : y.1 = o := by simpa using (List.mem_filter.1 hy).2
      have h3 : x.2 = y.2 := congrArg (·.2) q
      exact Prod.ext (h1.trans h2.symm) h3
    · intro x hx y hy q
      obtain ⟨d, -, e⟩ := List.mem_map.1 hy
      have := i.lt x.1 (held_mem hx)
      rw [q, ← e] at this
      exact absurd this (Nat.lt_irrefl _)

theorem Inv.run {w : World} {reg : List (Nat × Nat)} (i : Inv w reg) (ops : List Op)
    (h : NoReuse w ops) : Inv (run w ops) (wanted w reg ops) := by
  induction ops generalizing w reg with
  | nil => exact i
  | cons op ops ih => exact ih (i.step op h.1) h.2

theorem atExit_eq (fin : List (Nat × Nat)) : ∀ f, fin.length ≤ f → atExit f fin = fin.reverse := by
  intro f
  induction f generalizing fin with
  | zero => intro h; simp [List.length_eq_zero_iff.1 (Nat.le_zero.1 h), atExit]
  | succ f ih =>
    intro h
    rcases List.eq_nil_or_concat fin with rfl | ⟨l, e, rfl⟩
    · rfl
    · have : l.length ≤ f := by simpa using h
      simp [atExit, ih l this]

/-- C162 (partial: see the counterexamples below).  If no new object is put at
the address of an object that has finalizers, the finalizers called at the end
are exactly those that were defined and not undefined, each once, the last
defined first, each with the id of its own object. -/
theorem C162_calls_partial (ops : List Op) (h : NoReuse .init ops) :
    (∀ f, (run .init ops).fin.length ≤ f → atExit f (run .init ops).fin =
      ((wanted .init [] ops).map fun e => ((run .init ops).addr e.1, e.2)).reverse) ∧
    (wanted .init [] ops).Nodup ∧
    ∀ e ∈ wanted .init [] ops, ∀ o, (run .init ops).live o = true →
      (run .init ops).addr e.1 = (run .init ops).addr o → e.1 = o := by
  have i := Inv.init.run ops h
  refine ⟨fun f hf => ?_, i.nodup, fun e he o ho q => i.inj _ _ (held_mem he) (.inl ho) q⟩
  rw [atExit_eq _ f hf, i.eq]

/-- C162.  Whatever happened before, an object has the finalizer just defined
and has none after `undefine_finalizer`. -/
theorem C162_define (w : World) {o c : Nat} (h : w.live o = true) :
    (w.addr o, c) ∈ (step w (.define o c)).fin ∧
    ∀ e ∈ (step w (.undefine o)).fin, e.1 ≠ w.addr o := by
  constructor
  · simp only [step, Op.valid, h, if_true]
    split
    · rename_i q
      obtain ⟨e, he, r⟩ := List.any_eq_true.1 q
      simp only [Bool.and_eq_true, beq_iff_eq] at r
      rw [← r.1, ← r.2]; exact he
    · simp
  · intro e he
    simp only [step, Op.valid, h, if_true] at he
    simpa using (List.mem_filter.1 he).2

/-- C162 fails: an object with a finalizer is freed and another one gets its
address.  `undefine_finalizer` on the new one drops the finalizer of the old one, which is never called. -/
theorem C162_lost_fails :
    (run .init [.alloc 7, .define 0 5, .free 0, .alloc 7, .undefine 1]).fin = [] ∧
    wanted .init [] [.alloc 7, .define 0 5, .free 0, .alloc 7, .undefine 1] = [(0, 5)] := by decide

/-- C162 fails: two objects are given the same finalizer; it is called once. -/
theorem C162_shared_fails :
    (run .init [.alloc 7, .define 0 5, .free 0, .alloc 7, .define 1 5]).fin = [(7, 5)] ∧
    wanted .init [] [.alloc 7, .define 0 5, .free 0, .alloc 7, .define 1 5] = [(0, 5), (1, 5)] := by
  decide

/-- C162 fails: a copy of an object without finalizers gets the one of an
object that is gone. -/
theorem C162_inherited_fails :
    (run .init [.alloc 7, .define 0 5, .free 0, .alloc 7, .clone 1 8]).fin = [(7, 5), (8, 5)] ∧
    wanted .init [] [.alloc 7, .define 0 5, .free 0, .alloc 7, .clone 1 8] = [(0, 5)] := by decide

/-- Two objects, a repeated and a dropped finalizer, a copy, and an object that
is freed. -/
example : atExit 9 (run .init [.alloc 7, .alloc 8, .define 0 5, .define 0 6, .define 0 5,
    .define 1 5, .clone 0 9, .undefine 0, .free 0]).fin = [(9, 6), (9, 5), (8, 5)] ∧
    NoReuse .init [.alloc 7, .alloc 8, .define 0 5, .define 0 6, .define 0 5,
      .define 1 5, .clone 0 9, .undefine 0, .free 0] := by
  refine ⟨by decide, ?_⟩
  simp only [NoReuse]
  decide

end Verif.Exit.Fin
