import Verif.Share.Steps
/-
C119: strings that share a buffer behave as if each had its own copy.

The reference is a table of strings, each with its own bytes, in which nothing is shared and nothing
is ever freed while it is held.
-/
namespace Verif.Share

/-- What the program should see of a string. -/
abbrev Str := List Nat × Nat × Bool

/-- The strings the program holds, each a copy of its own. -/
abbrev Copies := Nat → Option Str

/-- The name of the string a step gave. -/
def Res.name : Res → Nat
  | .str o => o
  | _ => 0

/-- What each operation means, without sharing; `id` is the name the implementation gave to the
result. -/
def expect (s : Copies) (id : Nat) : Op → Copies × Res
  | .new bs enc _ => (put s id (some (bs, enc, false)), .str id)
  | .freeze o =>
    match s o with
    | some (bs, e, _) => (put s o (some (bs, e, true)), .done)
    | none => (s, .done)
  | .write o f _ | .raw o f _ =>
    match s o with
    | some (bs, e, fr) => if fr then (s, .frozenError) else (put s o (some (f bs, e, false)), .done)
    | none => (s, .dangling)
  | .force o e =>
    match s o with
    | some (bs, _, fr) => if fr then (s, .frozenError) else (put s o (some (bs, e, false)), .done)
    | none => (s, .dangling)
  | .sub o st len =>
    match s o with
    | some (bs, e, _) =>
      if st + len ≤ bs.length then (put s id (some ((bs.drop st).take len, e, false)), .str id)
      else (s, .nil)
    | none => (s, .dangling)
  | .snap o =>
    match s o with
    | some (bs, e, _) => (put s id (some (bs, e, true)), .str id)
    | none => (s, .dangling)
  | .dup o | .lit o =>
    match s o with
    | some (bs, e, _) => (put s id (some (bs, e, false)), .str id)
    | none => (s, .dangling)
  | .replace o src =>
    match s o, s src with
    | some (_, _, fr), some (bs, e, _) =>
      if fr then (s, .frozenError) else (put s o (some (bs, e, false)), .done)
    | _, _ => (s, .dangling)
  | .gc _ held => (fun o => if o ∈ held then s o else none, .done)
  | .promote _ => (s, .done)
  | .rearm _ => (s, .done)

/-- The strings an operation uses are held. -/
def holds (s : Copies) : Op → Prop
  | .new _ _ _ | .gc _ _ | .promote _ | .rearm _ => True
  | .freeze o | .write o _ _ | .raw o _ _ | .force o _ | .sub o _ _ | .snap o | .dup o | .lit o =>
    s o ≠ none
  | .replace o src => s o ≠ none ∧ s src ≠ none

/-- What is left out of the theorem, each refuted below: writing without the frozen check to a frozen
string; replacing the contents of an old string, not in the remembered set, by a view of a young
root; a snapshot of a view whose encoding was changed. -/
def excluded (m : Mem) : Op → Prop
  | .raw o _ _ => ∃ x, m.objs o = some x ∧ x.frozen = true
  | .replace o src => ∃ x y, m.objs o = some x ∧ m.objs src = some y ∧ x.old = true ∧ x.armed = true ∧
      m.youngRoot y = true
  | .snap o => ∃ x r R, m.objs o = some x ∧ x.content.root? = some r ∧ m.objs r = some R ∧
      x.frozen = false ∧ R.enc ≠ x.enc
  | _ => False

/-- Every string held looks as it should. -/
def Agree (m : Mem) (s : Copies) : Prop := ∀ o v, s o = some v → m.sees o = some v

/-- The implementation and the copies side by side. -/
def follow (m : Mem) (s : Copies) : List Op → Mem × Copies
  | [] => (m, s)
  | op :: ops => follow (step m op).1 (expect s (step m op).2.name op).1 ops

/-- Every operation of the program uses strings it holds, and none is excluded. -/
def Legal (m : Mem) (s : Copies) : List Op → Prop
  | [] => True
  | op :: ops => holds s op ∧ ¬ excluded m op ∧
      Legal (step m op).1 (expect s (step m op).2.name op).1 ops

/-- Every operation gives what it should give: the same error or value, and a fresh string where a
fresh string is due. -/
def Answers (m : Mem) (s : Copies) : List Op → Prop
  | [] => True
  | op :: ops => (step m op).2 = (expect s (step m op).2.name op).2 ∧
      ((∃ o, op = .snap o) ∨ ∀ o, (step m op).2 = .str o → s o = none) ∧
      Answers (step m op).1 (expect s (step m op).2.name op).1 ops

theorem agree_put {m m' : Mem} {s : Copies} (ag : Agree m s) (hs : Still m m') {id : Nat} {v : Str}
    (hv : m'.sees id = some v) : Agree m' (put s id (some v)) := by
  intro o w hw
  by_cases e : o = id
  · subst e; rw [put_same] at hw; cases hw; exact hv
  · rw [put_other _ _ e] at hw
    have := ag o w hw
    obtain ⟨x, _, hx, _⟩ := objs_of_sees this
    rw [hs o (by rw [hx]; simp)]; exact this

theorem agree_change {m m' : Mem} {s : Copies} (ag : Agree m s) {o : Nat} {v : Str}
    (hs : ∀ o', o' ≠ o → m'.sees o' = m.sees o') (hv : m'.sees o = some v) :
    Agree m' (put s o (some v)) := by
  intro o' w hw
  by_cases e : o' = o
  · subst e; rw [put_same] at hw; cases hw; exact hv
  · rw [put_other _ _ e] at hw
    rw [hs o' e]; exact ag o' w hw

theorem agree_same {m m' : Mem} {s : Copies} (ag : Agree m s)
    (hs : ∀ o', m'.sees o' = m.sees o') : Agree m' s := by
  intro o' w hw
  rw [hs]; exact ag o' w hw

theorem aged_root {m : Mem} (i : Inv m) {o : Nat} {x : Obj} (ho : m.objs o = some x) :
    ∀ r, x.content.root? = some r → x.old = true → x.armed = true → m.isOld r = true := by
  intro r hr h1 h2
  cases hc : x.content with
  | inl _ => rw [hc] at hr; cases hr
  | heap _ => rw [hc] at hr; cases hr
  | view r' b off len =>
    rw [hc] at hr; cases hr
    exact i.aged _ _ _ _ _ _ ho hc h1 h2

theorem fresh_spec {m : Mem} {s : Copies} (ag : Agree m s) {id : Nat} (h : m.objs id = none) : s id = none := by
  cases hs : s id with
  | none => rfl
  | some v =>
    obtain ⟨x, _, hx, _⟩ := objs_of_sees (ag id v hs)
    rw [h] at hx; cases hx

theorem held_obj {m : Mem} {s : Copies} (ag : Agree m s) {o : Nat} (h : s o ≠ none) :
    ∃ x bs, m.objs o = some x ∧ m.slice x.content = some bs ∧ s o = some (bs, x.enc, x.frozen) := by
  cases hs : s o with
  | none => exact absurd hs h
  | some v =>
    obtain ⟨x, bs, hx, hb, e⟩ := objs_of_sees (ag o v hs)
    exact ⟨x, bs, hx, hb, by rw [e]⟩

theorem step_ok {m : Mem} {s : Copies} (i : Inv m) (ag : Agree m s) (op : Op) (hh : holds s op)
    (hx : ¬ excluded m op) :
    Inv (step m op).1 ∧ Agree (step m op).1 (expect s (step m op).2.name op).1 ∧
      (step m op).2 = (expect s (step m op).2.name op).2 ∧
      ((∃ o, op = .snap o) ∨ ∀ o, (step m op).2 = .str o → s o = none) := by
  cases op with
  | new bs enc sp =>
    have M := made_own i bs sp enc false
    have hno : (m.own bs sp).1.no = m.no := own_no _ _ _
    refine ⟨M.inv, ?_, rfl, Or.inr ?_⟩
    · simp only [step, expect, Res.name, Mem.alloc, hno]
      have := agree_put ag M.still M.looks
      simpa only [Mem.alloc, hno] using this
    · intro o h
      simp only [step, Mem.alloc, hno, Res.str.injEq] at h
      rw [← h]; exact fresh_spec ag M.fresh
  | freeze o =>
    obtain ⟨x, bs, ho, hb, hs⟩ := held_obj ag hh
    have e : m.setFrozen o = m.set o { x with frozen := true } := by unfold Mem.setFrozen; simp only [ho]
    simp only [step, expect, hs, e]
    refine ⟨inv_flags i ho rfl (fun _ => rfl) (fun h => h) (fun r hr h1 h2 => aged_root i ho r hr h1 h2), ?_, trivial, Or.inr (fun o h => by cases h)⟩
    exact agree_change ag (fun o' e' => sees_set_other e') (by rw [sees_set_same, hb]; rfl)
  | write o f mv =>
    obtain ⟨x, bs, ho, hb, hs⟩ := held_obj ag hh
    by_cases hf : x.frozen = true
    · simp only [step, expect, ho, hs, if_pos hf]
      exact ⟨i, ag, trivial, Or.inr (fun o h => by cases h)⟩
    · have hf' : x.frozen = false := by cases h : x.frozen <;> simp_all
      simp only [step, expect, ho, hs, if_neg hf, hb]
      obtain ⟨i', h1, h2⟩ := write_ok i ho hf' (f bs) mv
      rw [hf'] at h1
      exact ⟨i', agree_change ag h2 h1, trivial, Or.inr (fun o h => by cases h)⟩
  | raw o f mv =>
    obtain ⟨x, bs, ho, hb, hs⟩ := held_obj ag hh
    have hf' : x.frozen = false := by
      cases h : x.frozen with
      | false => rfl
      | true => exact absurd ⟨x, ho, h⟩ hx
    have hf : ¬ x.frozen = true := by rw [hf']; simp
    simp only [step, expect, ho, hs, if_neg hf, hb]
    obtain ⟨i', h1, h2⟩ := write_ok i ho hf' (f bs) mv
    rw [hf'] at h1
    exact ⟨i', agree_change ag h2 h1, trivial, Or.inr (fun o h => by cases h)⟩
  | force o enc =>
    obtain ⟨x, bs, ho, hb, hs⟩ := held_obj ag hh
    by_cases hf : x.frozen = true
    · simp only [step, expect, ho, hs, if_pos hf]
      exact ⟨i, ag, trivial, Or.inr (fun o h => by cases h)⟩
    · have hf' : x.frozen = false := by cases h : x.frozen <;> simp_all
      simp only [step, expect, ho, hs, if_neg hf]
      refine ⟨inv_flags i ho rfl (fun h => h) (fun h => h) (fun r hr h1 h2 => aged_root i ho r hr h1 h2), ?_, trivial, Or.inr (fun o h => by cases h)⟩
      refine agree_change ag (fun o' e' => sees_set_other e') ?_
      rw [sees_set_same]
      simp only [hb, Option.map_some, hf']
  | sub o st len =>
    obtain ⟨x, bs, ho, hb, hs⟩ := held_obj ag hh
    by_cases hl : st + len ≤ bs.length
    · simp only [step, expect, ho, hs, hb, if_pos hl, Res.name]
      have M := made_sub i ho hb hl
      refine ⟨M.inv, agree_put ag M.still M.looks, trivial, Or.inr ?_⟩
      intro o' h
      simp only [Res.str.injEq] at h
      rw [← h]; exact fresh_spec ag M.fresh
    · simp only [step, expect, ho, hs, hb, if_neg hl]
      exact ⟨i, ag, trivial, Or.inr (fun o h => by cases h)⟩
  | snap o =>
    obtain ⟨x, bs, ho, hb, hs⟩ := held_obj ag hh
    simp only [step, expect, ho, hs, hb, Res.name]
    obtain ⟨i', st, e, h1, h2⟩ := snap_ok i ho hb
    have he : e = x.enc := h2 (by
      intro r R hr hR hf
      by_cases h : R.enc = x.enc
      · exact h
      · exact absurd ⟨x, r, R, ho, hr, hR, hf, h⟩ hx)
    rw [he] at h1
    exact ⟨i', agree_put ag st h1, trivial, Or.inl ⟨o, rfl⟩⟩
  | dup o =>
    obtain ⟨x, bs, ho, hb, hs⟩ := held_obj ag hh
    simp only [step, expect, ho, hs, hb, Res.name]
    have M := made_clone i ho hb x.enc false
    refine ⟨M.inv, agree_put ag M.still M.looks, trivial, Or.inr ?_⟩
    intro o' h
    simp only [Res.str.injEq] at h
    rw [← h]; exact fresh_spec ag M.fresh
  | lit o =>
    obtain ⟨x, bs, ho, hb, hs⟩ := held_obj ag hh
    by_cases hsh : x.content.sharable = true
    · have S := shared i ho hsh hb
      obtain ⟨x', ho', he, _⟩ := S.self
      have hb' : (m.share o x).1.slice x'.content = some bs := by
        have := S.still o (by rw [ho]; simp)
        rw [sees_of_objs ho hb] at this
        obtain ⟨y, b, hy, hyb, e⟩ := objs_of_sees this
        rw [ho'] at hy; cases hy
        simp only [Prod.mk.injEq] at e
        rw [hyb, e.1]
      simp only [step, expect, ho, hs, hb, if_pos hsh, ho', Res.name]
      have M := made_clone S.inv ho' hb' x'.enc false
      rw [he] at M ⊢
      refine ⟨M.inv, agree_put ag (still_trans i S.still M.still) M.looks, trivial, Or.inr ?_⟩
      intro o' h
      simp only [Res.str.injEq] at h
      rw [← h]
      refine fresh_spec ag ?_
      cases hz : m.objs ((((m.share o x).1.clone x' bs).1.alloc ((m.share o x).1.clone x' bs).2 x.enc false).2) with
      | none => rfl
      | some z =>
        have := S.still _ (by rw [hz]; simp)
        obtain ⟨b', hb''⟩ := reads i hz
        rw [sees_of_objs hz hb''] at this
        obtain ⟨_, _, h', _⟩ := objs_of_sees this
        rw [M.fresh] at h'; cases h'
    · simp only [step, expect, ho, hs, hb, if_neg hsh, Res.name]
      have M := made_clone i ho hb x.enc false
      refine ⟨M.inv, agree_put ag M.still M.looks, trivial, Or.inr ?_⟩
      intro o' h
      simp only [Res.str.injEq] at h
      rw [← h]; exact fresh_spec ag M.fresh
  | replace o src =>
    obtain ⟨x, bs0, ho, hb0, hs⟩ := held_obj ag hh.1
    obtain ⟨y, bs, hy, hb, hsy⟩ := held_obj ag hh.2
    by_cases hf : x.frozen = true
    · simp only [step, expect, ho, hy, hs, hsy, if_pos hf]
      exact ⟨i, ag, trivial, Or.inr (fun o h => by cases h)⟩
    · have hf' : x.frozen = false := by cases h : x.frozen <;> simp_all
      simp only [step, expect, ho, hy, hs, hsy, if_neg hf, hb]
      obtain ⟨i', h1, h2⟩ := assign_ok i ho hf' hy hb (by
        intro r hr h1 h2
        cases hold : m.isOld r with
        | true => rfl
        | false =>
          refine absurd ⟨x, y, ho, hy, h1, h2, ?_⟩ hx
          unfold Mem.youngRoot
          rw [hr]; simp [hold])
      rw [hf'] at h1
      exact ⟨i', agree_change ag h2 h1, trivial, Or.inr (fun o h => by cases h)⟩
  | gc major held =>
    obtain ⟨i', h⟩ := gc_ok i major held
    refine ⟨i', ?_, rfl, Or.inr (fun o h => by cases h)⟩
    intro o v hv
    simp only [expect] at hv
    by_cases hm : o ∈ held
    · rw [if_pos hm] at hv
      show (m.gc major held).sees o = some v
      rw [h o hm]; exact ag o v hv
    · rw [if_neg hm] at hv; cases hv
  | promote o =>
    cases ho : m.objs o with
    | none =>
      simp only [step, ho, expect]
      exact ⟨i, ag, trivial, Or.inr (fun o h => by cases h)⟩
    | some x =>
      by_cases hold : x.old = true
      · simp only [step, ho, expect, if_pos hold]
        exact ⟨i, ag, trivial, Or.inr (fun o h => by cases h)⟩
      · simp only [step, ho, expect, if_neg hold]
        refine ⟨inv_flags i ho rfl (fun h => h) (fun _ => rfl) ?_, ?_, trivial, Or.inr (fun o h => by cases h)⟩
        · intro r hr _ h2
          simp only [Mem.youngRoot] at h2
          simp only at hr
          rw [hr] at h2
          simpa using h2
        · refine agree_same ag ?_
          intro o'
          by_cases e : o' = o
          · subst e; rw [sees_set_same]; simp only [Mem.sees, ho]
          · rw [sees_set_other e]
  | rearm o =>
    cases ho : m.objs o with
    | none =>
      simp only [step, ho, expect]
      exact ⟨i, ag, trivial, Or.inr (fun o h => by cases h)⟩
    | some x =>
      by_cases hold : (x.old && !m.youngRoot x) = true
      · simp only [step, ho, expect, if_pos hold]
        refine ⟨inv_flags i ho rfl (fun h => h) (fun h => h) ?_, ?_, trivial, Or.inr (fun o h => by cases h)⟩
        · intro r hr _ _
          simp only at hr
          simp only [Mem.youngRoot, hr, Bool.and_eq_true, Bool.not_not] at hold
          exact hold.2
        · refine agree_same ag ?_
          intro o'
          by_cases e : o' = o
          · subst e; rw [sees_set_same]; simp only [Mem.sees, ho]
          · rw [sees_set_other e]
      · simp only [step, ho, expect, if_neg hold]
        exact ⟨i, ag, trivial, Or.inr (fun o h => by cases h)⟩

theorem run_ok (ops : List Op) {m : Mem} {s : Copies} (i : Inv m) (ag : Agree m s) (h : Legal m s ops) :
    Agree (follow m s ops).1 (follow m s ops).2 ∧ Answers m s ops := by
  induction ops generalizing m s with
  | nil => exact ⟨ag, trivial⟩
  | cons op ops ih =>
    obtain ⟨h1, h2, h3⟩ := h
    obtain ⟨i', ag', r, fr⟩ := step_ok i ag op h1 h2
    obtain ⟨a, b⟩ := ih i' ag' h3
    exact ⟨a, r, fr, b⟩

/-- C119: whatever a program does with strings - slicing, taking snapshots, evaluating literals,
copying, writing, freezing, replacing - and whenever collections happen, every string it holds looks
as if each operation had copied the bytes, and every operation answers as it would then.

Partial: leaves out what `excluded` lists. -/
theorem C119_like_separate_copies_partial (ops : List Op)
    (h : Legal Mem.empty (fun _ => none) ops) :
    (∀ o v, (follow Mem.empty (fun _ => none) ops).2 o = some v →
      (follow Mem.empty (fun _ => none) ops).1.sees o = some v) ∧
    Answers Mem.empty (fun _ => none) ops :=
  run_ok ops inv_empty (fun _ _ h => by cases h) h

/-- C119: in particular, no string that is held ever refers to freed memory. -/
theorem C119_never_dangles_partial (ops : List Op) (h : Legal Mem.empty (fun _ => none) ops)
    (o : Nat) (hh : (follow Mem.empty (fun _ => none) ops).2 o ≠ none) :
    (follow Mem.empty (fun _ => none) ops).1.bytes o ≠ none := by
  cases hv : (follow Mem.empty (fun _ => none) ops).2 o with
  | none => exact absurd hv hh
  | some v =>
    have := (C119_like_separate_copies_partial ops h).1 o v hv
    obtain ⟨x, bs, hx, hb, _⟩ := objs_of_sees this
    simp only [Mem.bytes, hx, hb]
    simp

/-- Forty bytes. -/
def forty : List Nat := List.range 40

/-- A program: a long string, two parts of it, a write to the whole, a write to a part, and
collections. -/
def sample : List Op :=
  [.new forty 0 false, .sub 0 0 35, .write 0 (fun bs => bs ++ [1]) true, .sub 2 1 34,
   .write 2 (fun bs => bs.reverse) false, .promote 0, .gc false [0, 2, 3], .snap 3, .gc true [0, 2, 3, 4]]

instance (s : Copies) (op : Op) : Decidable (holds s op) := by
  cases op <;> simp only [holds] <;> infer_instance

/-- The theorem applies to it; the strings are the whole, `s[0, 35]` written to, `s[1, 34]`. -/
example : Legal Mem.empty (fun _ => none) sample ∧
    (follow Mem.empty (fun _ => none) sample).2 0 = some (forty ++ [1], 0, false) ∧
    (follow Mem.empty (fun _ => none) sample).2 2 = some ((forty.take 35).reverse, 0, false) ∧
    (follow Mem.empty (fun _ => none) sample).2 3 = some ((forty.drop 1).take 34, 0, false) := by
  refine ⟨?_, by decide, by decide, by decide⟩
  simp only [Legal, sample, excluded, not_false_eq_true, and_true, true_and]
  refine ⟨by decide, by decide, by decide, by decide, by decide, by decide, by decide, by decide, ?_, by decide⟩
  rintro ⟨x, r, R, h1, h2, h3, h4, h5⟩
  have e1 : (follow Mem.empty (fun _ => none) (sample.take 7)).1.objs 3 =
    some ⟨.view 1 0 1 34, 0, false, false, false⟩ := by decide
  have e2 : (follow Mem.empty (fun _ => none) (sample.take 7)).1.objs 1 =
    some ⟨.heap 0, 0, true, false, false⟩ := by decide
  have g1 := e1.symm.trans h1
  cases g1
  cases h2
  have g3 := e2.symm.trans h3
  cases g3
  exact h5 rfl

/-- C119 does not hold for methods that write to a string without asking whether it is frozen
(`unicode_normalize!`, builtins/string.rs:8136-8163; `IO#pread`, `IO#sysread`, `IO#read_nonblock`,
builtins/io.rs; `Encoding::Converter#primitive_convert`; `BasicSocket#recv`): a frozen string is its
own root, so that writing to it changes the parts taken from it, ... -/
theorem C119_unchecked_write_fails :
    let ops : List Op := [.new forty 0 false, .freeze 0, .sub 0 0 40, .raw 0 (fun bs => bs.map (· + 1)) false]
    (follow Mem.empty (fun _ => none) ops).2 1 = some (forty, 0, false) ∧
    (follow Mem.empty (fun _ => none) ops).1.sees 1 = some (forty.map (· + 1), 0, false) := by
  decide

/-- ... or, when the buffer moves, leaves them referring to freed memory. -/
theorem C119_unchecked_write_dangles_fails :
    let ops : List Op := [.new forty 0 false, .freeze 0, .sub 0 0 40, .raw 0 (fun bs => bs ++ bs) true]
    (follow Mem.empty (fun _ => none) ops).2 1 = some (forty, 0, false) ∧
    (follow Mem.empty (fun _ => none) ops).1.bytes 1 = none := by
  decide

/-- C119 does not hold for `String#replace` and `initialize` (builtins/string.rs:7330-7366): an old
string that is given a view of a young root is not remembered, and the next minor collection frees
the root while the string still refers to it.  (Here the program holds nothing but the replaced
string.) -/
theorem C119_replace_dangles_fails :
    let ops : List Op := [.new [] 0 false, .promote 0, .new forty 0 false, .sub 1 0 40, .replace 0 3, .gc false [0]]
    (follow Mem.empty (fun _ => none) ops).2 0 = some (forty, 0, false) ∧
    (follow Mem.empty (fun _ => none) ops).1.bytes 0 = none := by
  decide

/-- C119 does not hold for the encoding of a snapshot, which is the string that `scan` and the block
forms of `sub` and `gsub` take the matches from: after `s[0, 40]` made `s` a view and
`s.force_encoding(...)` changed its encoding, the snapshot is the root, whose encoding is the old
one. -/
theorem C119_snapshot_encoding_fails :
    let ops : List Op := [.new forty 0 false, .sub 0 0 40, .force 0 1, .snap 0]
    (follow Mem.empty (fun _ => none) ops).2 1 = some (forty, 1, true) ∧
    (follow Mem.empty (fun _ => none) ops).1.sees 1 = some (forty, 0, true) := by
  decide

end Verif.Share
