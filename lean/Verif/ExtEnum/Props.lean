import Verif.ExtEnum.Model

/-!
# C155: an Enumerator used as an external iterator is a cursor
-/

namespace Verif.ExtEnum

variable {V E Q : Type}

/-! ### Specification -/

/-- How an iteration ends: `each` returns, or raises. -/
inductive Fin (V E : Type) where
  | ret (v : V)
  | exc (e : E)

def Fin.out : Fin V E → Out V E Q
  | .ret v => .returns v
  | .exc e => .raises e

/-- From `q` on the producer yields `xs` and ends with `fin`, whatever it is fed. -/
def Follows (go : Q → V → Out V E Q) (fin : Fin V E) : Q → List (List V) → Prop
  | q, [] => ∀ v, go q v = fin.out
  | q, x :: xs => ∀ v, ∃ q', go q v = .yields x q' ∧ Follows go fin q' xs

/-- A cursor over what the iteration yields: the place, how many yields have been waited for (one more than
the place after a peek), the value that was fed, whether the end was seen, and what the yields returned. -/
structure C (V : Type) where
  pos : Nat := 0
  pulled : Nat := 0
  parked : Option V := none
  ended : Bool := false
  log : List V := []

/-- Going on in the iteration: the pending yield, if there is one, returns what was fed. -/
def resumed (nil : V) (c : C V) : C V :=
  if c.pulled = 0 then c else { c with parked := none, log := c.log ++ [c.parked.getD nil] }

/-- What is at the place: the values, or the end. -/
def specLook (xs : List (List V)) (fin : Fin V E) (nil : V) (c : C V) : C V × Except (Seen V E) (List V) :=
  match xs[c.pos]? with
  | some x =>
    if c.pos < c.pulled then (c, .ok x)
    else ({ resumed nil c with pulled := c.pulled + 1 }, .ok x)
  | none => match fin with
    | .ret r => (if c.ended then c else { resumed nil c with ended := true, parked := none }, .error (.stop (some r)))
    | .exc e => ({ resumed nil c with pos := 0, pulled := 0 }, .error (.raised e))

def specPeel : List V → Seen V E
  | [] => .nil
  | [v] => .val v
  | vs => .arr vs

def specStep (xs : List (List V)) (fin : Fin V E) (nil : V) (c : C V) : Op V → C V × Seen V E
  | .next => match specLook xs fin nil c with
    | (c, .ok x) => ({ c with pos := c.pos + 1 }, specPeel x)
    | (c, .error e) => (c, e)
  | .nextValues => match specLook xs fin nil c with
    | (c, .ok x) => ({ c with pos := c.pos + 1 }, .arr x)
    | (c, .error e) => (c, e)
  | .peek => match specLook xs fin nil c with
    | (c, .ok x) => (c, specPeel x)
    | (c, .error e) => (c, e)
  | .peekValues => match specLook xs fin nil c with
    | (c, .ok x) => (c, .arr x)
    | (c, .error e) => (c, e)
  | .rewind => ({ log := c.log }, .self)
  | .feed v => match c.parked with
    | some _ => (c, .type)
    | none => ({ c with parked := some v }, .nil)
  | .change _ _ => (c, .nil)

def specRun (xs : List (List V)) (fin : Fin V E) (nil : V) : C V → List (Op V) → C V × List (Seen V E)
  | c, [] => (c, [])
  | c, o :: os =>
    let r := specStep xs fin nil c o
    let rs := specRun xs fin nil r.1 os
    (rs.1, r.2 :: rs.2)

/-! ### The relation -/

structure Rel (p : Prod V E Q) (xs : List (List V)) (fin : Fin V E) (s : S V Q) (c : C V) : Prop where
  feed : s.feed = c.parked
  log : s.log = c.log
  le : c.pulled ≤ xs.length
  stop : if c.ended then (∃ r, fin = .ret r ∧ s.stop = some r) ∧ c.pos = xs.length ∧ c.pulled = xs.length
    else s.stop = none ∧
      if c.pulled = 0 then s.internal = none ∨ s.internal = some .created
      else ∃ q, s.internal = some (.suspended q) ∧ Follows p.go fin q (xs.drop c.pulled)
  look : (c.pos = c.pulled ∧ s.buffer = none) ∨
    (c.pulled = c.pos + 1 ∧ ∃ l, s.buffer = some l ∧ s.heap[l]? = xs[c.pos]?)
  empty : xs = [] → c.parked = none

theorem follows_drop {go : Q → V → Out V E Q} {fin : Fin V E} {q : Q} {xs : List (List V)} {k : Nat}
    {x : List V} (hx : xs[k]? = some x) (h : Follows go fin q (xs.drop k)) (v : V) :
    ∃ q', go q v = .yields x q' ∧ Follows go fin q' (xs.drop (k + 1)) := by
  have hk : k < xs.length := by
    rcases Nat.lt_or_ge k xs.length with h | h
    · exact h
    · rw [List.getElem?_eq_none h] at hx; cases hx
  rw [List.drop_eq_getElem_cons hk] at h
  rw [List.getElem?_eq_getElem hk] at hx
  obtain ⟨q', e1, e2⟩ := h v
  refine ⟨q', ?_, e2⟩
  rw [e1]
  simp only [Option.some.injEq] at hx
  rw [hx]

/-- Waiting for the next yield, when nothing has been looked at in advance. -/
theorem yieldNext_rel {p : Prod V E Q} {xs : List (List V)} {fin : Fin V E} {nil : V} {s : S V Q} {c : C V}
    (hp : Follows p.go fin p.start xs) (h : Rel p xs fin s c) (hpos : c.pos = c.pulled)
    (hb : s.buffer = none) :
    (∃ x s' l, xs[c.pos]? = some x ∧ yieldNext p nil s = (s', .ok l) ∧ s'.heap[l]? = some x ∧
      s'.buffer = none ∧ s'.feed = (resumed nil c).parked ∧ s'.log = (resumed nil c).log ∧
      c.ended = false ∧ s'.stop = none ∧ c.pulled + 1 ≤ xs.length ∧
      ∃ q, s'.internal = some (.suspended q) ∧ Follows p.go fin q (xs.drop (c.pulled + 1))) ∨
    (xs[c.pos]? = none ∧ ∃ s' e c' e', yieldNext p nil s = (s', .error e) ∧
      specLook xs fin nil c = (c', .error e') ∧ Rel p xs fin s' c' ∧
      see s' (.error e : Except (Err V E) (Res V)) = e') := by
  obtain ⟨h1, h2, h3, h4, h5, h6⟩ := h
  cases hx : xs[c.pos]? with
  | some x =>
    refine .inl ?_
    have hlt : c.pos < xs.length := by
      rcases Nat.lt_or_ge c.pos xs.length with h | h
      · exact h
      · rw [List.getElem?_eq_none h] at hx; cases hx
    have hne : c.ended = false := by
      cases he : c.ended with
      | false => rfl
      | true => simp only [he, if_true] at h4; omega
    simp only [hne, Bool.false_eq_true, if_false] at h4
    rw [hpos] at hx hlt
    by_cases h0 : c.pulled = 0
    · simp only [h0, if_true] at h4
      rw [h0] at hx
      obtain ⟨q', e1, e2⟩ := follows_drop (k := 0) hx (by simpa using hp) nil
      refine ⟨x, { s with internal := some (.suspended q'), heap := s.heap ++ [x], stop := none, buffer := none },
        s.heap.length, rfl, ?_, by simp, rfl, ?_, ?_, hne, rfl, by omega, q', rfl, by simpa [h0] using e2⟩
      · rcases h4.2 with hi | hi
        · simp [yieldNext, h4.1, hi, start, produce, e1]
        · have hs : s = { s with stop := none, buffer := none } := by
            cases s; simp only at h4 hb; simp [h4.1, hb]
          simp only [yieldNext, h4.1, hi, produce, e1]
          simp [hb, h4.1]
      · simpa [resumed, h0] using h1
      · simpa [resumed, h0] using h2
    · simp only [h0, if_false] at h4
      obtain ⟨hst, q, hi, hq⟩ := h4
      obtain ⟨q', e1, e2⟩ := follows_drop hx hq (s.feed.getD nil)
      refine ⟨x, { s with internal := some (.suspended q'), heap := s.heap ++ [x], feed := none,
                          log := s.log ++ [s.feed.getD nil] },
        s.heap.length, rfl, ?_, by simp, hb, ?_, ?_, hne, hst, by omega, q', rfl, e2⟩
      · simp [yieldNext, hst, hi, produce, e1]
      · simp [resumed, h0]
      · simp [resumed, h0, h1, h2]
  | none =>
    refine .inr ⟨rfl, ?_⟩
    have hge : xs.length ≤ c.pos := List.getElem?_eq_none_iff.1 hx
    have hpl : c.pulled = xs.length := by omega
    by_cases hend : c.ended = true
    · simp only [hend, if_true] at h4
      obtain ⟨⟨r, hr, hs⟩, h7, h8⟩ := h4
      refine ⟨s, .stop (some r), c, .stop (some r), by simp [yieldNext, hs], ?_, ?_, rfl⟩
      · simp [specLook, hx, hr, hend]
      · exact ⟨h1, h2, h3, by simp only [hend, if_true]; exact ⟨⟨r, hr, hs⟩, h7, h8⟩, .inl ⟨hpos, hb⟩, h6⟩
    · have hend' : c.ended = false := by simpa using hend
      simp only [hend', Bool.false_eq_true, if_false] at h4
      by_cases h0 : c.pulled = 0
      · have hxs : xs = [] := List.length_eq_zero_iff.1 (by omega)
        have hpk := h6 hxs
        simp only [h0, if_true] at h4
        rw [hxs] at hp
        have hgo : p.go p.start nil = fin.out := hp nil
        cases fin with
        | ret r =>
          refine ⟨{ s with internal := some .terminated, stop := some r, buffer := none }, .stop (some r),
            { resumed nil c with ended := true, parked := none }, .stop (some r), ?_, ?_, ?_, rfl⟩
          · rcases h4.2 with hi | hi
            · simp [yieldNext, h4.1, hi, start, produce, hgo, Fin.out]
            · simp [yieldNext, h4.1, hi, produce, hgo, Fin.out, hb]
          · simp [specLook, hx, hend']
          · refine ⟨by simp [h1, hpk], by simp [resumed, h0, h2], by simp [resumed, h0, hxs], ?_, ?_, fun _ => rfl⟩
            · simp only [if_true]
              exact ⟨⟨r, rfl, rfl⟩, by simp [resumed, h0, hxs, hpos], by simp [resumed, h0, hxs]⟩
            · exact .inl ⟨by simp [resumed, h0, hpos], rfl⟩
        | exc e =>
          refine ⟨{ s with internal := none, stop := none, buffer := none }, .raised e,
            { resumed nil c with pos := 0, pulled := 0 }, .raised e, ?_, ?_, ?_, rfl⟩
          · rcases h4.2 with hi | hi
            · simp [yieldNext, h4.1, hi, start, produce, hgo, Fin.out]
            · simp [yieldNext, h4.1, hi, produce, hgo, Fin.out]
          · simp [specLook, hx]
          · refine ⟨by simp [resumed, h0, h1], by simp [resumed, h0, h2], by simp, ?_, .inl ⟨rfl, rfl⟩, ?_⟩
            · simp [resumed, h0, hend']
            · simpa [resumed, h0] using h6
      · simp only [h0, if_false] at h4
        obtain ⟨hst, q, hi, hq⟩ := h4
        rw [hpl, List.drop_length] at hq
        have hgo : p.go q (s.feed.getD nil) = fin.out := hq _
        cases fin with
        | ret r =>
          refine ⟨{ s with internal := some .terminated, stop := some r, feed := none,
                           log := s.log ++ [s.feed.getD nil] }, .stop (some r),
            { resumed nil c with ended := true, parked := none }, .stop (some r), ?_, ?_, ?_, rfl⟩
          · simp [yieldNext, hst, hi, produce, hgo, Fin.out]
          · simp [specLook, hx, hend']
          · refine ⟨rfl, by simp [resumed, h0, h1, h2], by simpa [resumed, h0] using h3, ?_, ?_, fun _ => rfl⟩
            · simp only [if_true]
              exact ⟨⟨r, rfl, rfl⟩, by simp only [resumed, h0, if_false]; omega,
                by simp only [resumed, h0, if_false]; omega⟩
            · exact .inl ⟨by simp [resumed, h0, hpos], hb⟩
        | exc e =>
          refine ⟨{ s with internal := none, buffer := none, feed := none,
                           log := s.log ++ [s.feed.getD nil] }, .raised e,
            { resumed nil c with pos := 0, pulled := 0 }, .raised e, ?_, ?_, ?_, rfl⟩
          · simp [yieldNext, hst, hi, produce, hgo, Fin.out]
          · simp [specLook, hx]
          · refine ⟨by simp [resumed, h0], by simp [resumed, h0, h1, h2], by simp, ?_, .inl ⟨rfl, rfl⟩, ?_⟩
            · simp [resumed, h0, hend', hst]
            · simp [resumed, h0]

theorem resumed_pos (nil : V) (c : C V) : (resumed nil c).pos = c.pos := by
  unfold resumed; split <;> rfl

theorem resumed_ended (nil : V) (c : C V) : (resumed nil c).ended = c.ended := by
  unfold resumed; split <;> rfl

theorem resumed_empty (nil : V) (c : C V) (h : c.parked = none) : (resumed nil c).parked = none := by
  unfold resumed; split
  · exact h
  · rfl

/-- `peek_values` and `next_values` against the cursor. -/
theorem values_rel {p : Prod V E Q} {xs : List (List V)} {fin : Fin V E} {nil : V} {s : S V Q} {c : C V}
    (hp : Follows p.go fin p.start xs) (h : Rel p xs fin s c) :
    (∃ x c', specLook xs fin nil c = (c', .ok x) ∧
      (∃ s' l, peekValues p nil s = (s', .ok l) ∧ s'.heap[l]? = some x ∧ Rel p xs fin s' c') ∧
      (∃ s' l, nextValues p nil s = (s', .ok l) ∧ s'.heap[l]? = some x ∧
        Rel p xs fin s' { c' with pos := c'.pos + 1 })) ∨
    (∃ s' e c' e', specLook xs fin nil c = (c', .error e') ∧ peekValues p nil s = (s', .error e) ∧
      nextValues p nil s = (s', .error e) ∧ Rel p xs fin s' c' ∧
      see s' (.error e : Except (Err V E) (Res V)) = e') := by
  rcases h.look with ⟨hpos, hb⟩ | ⟨hpos, l, hb, hl⟩
  · rcases yieldNext_rel (nil := nil) hp h hpos hb with
      ⟨x, s', l, hx, hy, hh, g1, g2, g3, g4, g5, g6, q, g7, g8⟩ | ⟨hx, s', e, c', e', hy, hs, hr, hse⟩
    · refine .inl ⟨x, { resumed nil c with pulled := c.pulled + 1 }, ?_, ?_, ?_⟩
      · have : ¬ c.pos < c.pulled := by omega
        simp [specLook, hx, this]
      · refine ⟨{ s' with buffer := some l }, l, by simp [peekValues, hb, hy], hh, ?_⟩
        refine ⟨g2, g3, g6, ?_, .inr ⟨by simp only [resumed_pos]; omega, l, rfl, ?_⟩, ?_⟩
        · simp only [resumed_ended, g4, Bool.false_eq_true, if_false]
          exact ⟨g5, by simp only [Nat.add_eq_zero_iff, Nat.one_ne_zero, and_false, if_false]; exact ⟨q, g7, g8⟩⟩
        · simp only [resumed_pos]; rw [hh, hx]
        · intro hxs; exact resumed_empty nil c (h.empty hxs)
      · refine ⟨s', l, by simp [nextValues, hb, hy], hh, ?_⟩
        refine ⟨g2, g3, g6, ?_, .inl ⟨by simp only [resumed_pos]; omega, g1⟩, ?_⟩
        · simp only [resumed_ended, g4, Bool.false_eq_true, if_false]
          exact ⟨g5, by simp only [Nat.add_eq_zero_iff, Nat.one_ne_zero, and_false, if_false]; exact ⟨q, g7, g8⟩⟩
        · intro hxs; exact resumed_empty nil c (h.empty hxs)
    · exact .inr ⟨s', e, c', e', hs, by simp [peekValues, hb, hy], by simp [nextValues, hb, hy], hr, hse⟩
  · have hlt : c.pos < xs.length := by have := h.le; omega
    have hx := List.getElem?_eq_getElem hlt
    have hne : c.ended = false := by
      cases he : c.ended with
      | false => rfl
      | true => have := h.stop; simp only [he, if_true] at this; omega
    refine .inl ⟨xs[c.pos], c, ?_, ?_, ?_⟩
    · have : c.pos < c.pulled := by omega
      simp [specLook, hx, this]
    · exact ⟨s, l, by simp [peekValues, hb], by rw [hl, hx], h⟩
    · refine ⟨{ s with buffer := none }, l, by simp [nextValues, hb], by rw [← hx, ← hl], ?_⟩
      exact ⟨h.feed, h.log, h.le, by have := h.stop; simpa [hne] using this, .inl ⟨by simp only; omega, rfl⟩, h.empty⟩

theorem see_peel {s : S V Q} {l : Loc} {x : List V} (h : s.heap[l]? = some x) :
    see s (.ok (peel s l) : Except (Err V E) (Res V)) = specPeel x := by
  simp only [peel, h]
  match x, h with
  | [], _ => rfl
  | [v], _ => rfl
  | a :: b :: t, h => simp [see, h, specPeel]

theorem see_whole {s : S V Q} {l : Loc} {x : List V} (h : s.heap[l]? = some x) :
    see s (.ok (.arr l) : Except (Err V E) (Res V)) = .arr x := by simp [see, h]

/-- Operations that the statement covers: the Arrays handed out are left alone, and an iteration that yields
nothing is not fed. -/
def covered (xs : List (List V)) : Op V → Prop
  | .change _ _ => False
  | .feed _ => xs ≠ []
  | _ => True

theorem step_rel {p : Prod V E Q} {xs : List (List V)} {fin : Fin V E} {nil : V} {s : S V Q} {c : C V}
    (hp : Follows p.go fin p.start xs) (h : Rel p xs fin s c) (o : Op V) (ho : covered xs o) :
    see (step p nil s o).1 (step p nil s o).2 = (specStep xs fin nil c o).2 ∧
    Rel p xs fin (step p nil s o).1 (specStep xs fin nil c o).1 := by
  have hv := values_rel (nil := nil) hp h
  cases o with
  | change l vs => exact ho.elim
  | rewind =>
    refine ⟨rfl, rfl, h.log, Nat.zero_le _, ?_, .inl ⟨rfl, rfl⟩, fun _ => rfl⟩
    simp [step, specStep, ExtEnum.rewind, start]
  | feed v =>
    simp only [step, specStep, setFeed, h.feed]
    cases hq : c.parked with
    | some w => exact ⟨rfl, h⟩
    | none =>
      refine ⟨rfl, rfl, h.log, h.le, h.stop, h.look, fun hxs => absurd hxs ho⟩
  | next =>
    rcases hv with ⟨x, c', e1, _, s', l, e2, e3, e4⟩ | ⟨s', e, c', e', e1, _, e2, e3, e4⟩
    · simp only [step, specStep, e1, e2, peeled]; exact ⟨see_peel e3, e4⟩
    · simp only [step, specStep, e1, e2, peeled]; exact ⟨e4, e3⟩
  | nextValues =>
    rcases hv with ⟨x, c', e1, _, s', l, e2, e3, e4⟩ | ⟨s', e, c', e', e1, _, e2, e3, e4⟩
    · simp only [step, specStep, e1, e2, whole]; exact ⟨see_whole e3, e4⟩
    · simp only [step, specStep, e1, e2, whole]; exact ⟨e4, e3⟩
  | peek =>
    rcases hv with ⟨x, c', e1, ⟨s', l, e2, e3, e4⟩, _⟩ | ⟨s', e, c', e', e1, e2, _, e3, e4⟩
    · simp only [step, specStep, e1, e2, peeled]; exact ⟨see_peel e3, e4⟩
    · simp only [step, specStep, e1, e2, peeled]; exact ⟨e4, e3⟩
  | peekValues =>
    rcases hv with ⟨x, c', e1, ⟨s', l, e2, e3, e4⟩, _⟩ | ⟨s', e, c', e', e1, e2, _, e3, e4⟩
    · simp only [step, specStep, e1, e2, whole]; exact ⟨see_whole e3, e4⟩
    · simp only [step, specStep, e1, e2, whole]; exact ⟨e4, e3⟩

theorem run_rel {p : Prod V E Q} {xs : List (List V)} {fin : Fin V E} {nil : V}
    (hp : Follows p.go fin p.start xs) : ∀ (os : List (Op V)) {s : S V Q} {c : C V}, Rel p xs fin s c →
    (∀ o ∈ os, covered xs o) →
    (run p nil s os).2 = (specRun xs fin nil c os).2 ∧
    Rel p xs fin (run p nil s os).1 (specRun xs fin nil c os).1 := by
  intro os
  induction os with
  | nil => intro s c h _; exact ⟨rfl, h⟩
  | cons o os ih =>
    intro s c h ho
    have h1 := step_rel (nil := nil) hp h o (ho o (by simp))
    have h2 := ih h1.2 (fun x hx => ho x (List.mem_cons_of_mem _ hx))
    exact ⟨by simp only [run, specRun]; rw [h1.1, h2.1], h2.2⟩

/-! ### C155 -/

/-- Over an iteration that yields `xs` and then returns or raises, any program of next, next_values, peek,
peek_values, rewind and feed sees a cursor over `xs`, and the yields of the iteration return what was fed.
Missing: programs that change the Arrays they were given, and feeding an iteration that yields nothing. -/
theorem C155_cursor_partial (p : Prod V E Q) (xs : List (List V)) (fin : Fin V E) (nil : V)
    (hp : Follows p.go fin p.start xs) (os : List (Op V)) (ho : ∀ o ∈ os, covered xs o) :
    (run p nil {} os).2 = (specRun xs fin nil {} os).2 ∧
    (run p nil {} os).1.log = (specRun xs fin nil {} os).1.log := by
  have h0 : Rel p xs fin ({} : S V Q) ({} : C V) :=
    ⟨rfl, rfl, Nat.zero_le _, by simp, .inl ⟨rfl, rfl⟩, fun _ => rfl⟩
  have := run_rel (nil := nil) hp os h0 ho
  exact ⟨this.1, this.2.log⟩

/-- `next` over and over gives the elements one by one and then the end, again and again. -/
theorem C155_next_all (p : Prod V E Q) (xs : List (List V)) (r nil : V)
    (hp : Follows p.go (.ret r) p.start xs) (k : Nat) :
    (run p nil {} (List.replicate (xs.length + k) .nextValues)).2 =
      xs.map Seen.arr ++ List.replicate k (.stop (some r)) := by
  rw [(C155_cursor_partial p xs _ nil hp _ (by simp [covered])).1]
  have key : ∀ (n : Nat) (c : C V), c.pos ≤ xs.length → n = xs.length - c.pos →
      (specRun xs (.ret r : Fin V E) nil c (List.replicate (n + k) .nextValues)).2 =
        (xs.drop c.pos).map Seen.arr ++ List.replicate k (.stop (some r)) := by
    intro n
    induction n with
    | zero =>
      intro c hc hn
      have hpos : c.pos = xs.length := by omega
      rw [hpos, List.drop_length, Nat.zero_add]
      clear hn hc
      simp only [List.map_nil, List.nil_append]
      induction k generalizing c with
      | zero => rfl
      | succ k ih =>
        have hx : xs[c.pos]? = none := List.getElem?_eq_none (by omega)
        simp only [List.replicate_succ, specRun, specStep, specLook, hx]
        rw [ih]
        split
        · exact hpos
        · simp only [resumed_pos]; exact hpos
    | succ n ih =>
      intro c hc hn
      have hlt : c.pos < xs.length := by omega
      have hx := List.getElem?_eq_getElem hlt
      rw [Nat.add_right_comm, List.replicate_succ, List.drop_eq_getElem_cons hlt]
      simp only [specRun, specStep, specLook, hx, List.map_cons, List.cons_append]
      by_cases hq : c.pos < c.pulled
      · simp only [hq, if_true]
        rw [ih _ (by simp only; omega) (by simp only; omega)]
      · simp only [hq, if_false]
        rw [ih _ (by simp only [resumed_pos]; omega) (by simp only [resumed_pos]; omega)]
        simp only [resumed_pos]
  have := key xs.length {} (Nat.zero_le _) (by simp)
  simpa using this

/-- Three yields and the value 9. -/
def three : Prod Nat Unit Nat :=
  { start := 0
    go := fun q _ => if q = 0 then .yields [1] 1 else if q = 1 then .yields [2, 3] 2 else .returns 9 }

theorem three_follows : Follows three.go (.ret 9) three.start [[1], [2, 3]] :=
  fun _ => ⟨1, rfl, fun _ => ⟨2, rfl, fun _ => rfl⟩⟩

example : (run three 0 {} [.next, .peek, .next, .next, .next, .rewind, .next]).2 =
    [.val 1, .arr [2, 3], .arr [2, 3], .stop (some 9), .stop (some 9), .self, .val 1] := by decide +kernel

example : (run three 0 {} [.next, .feed 7, .feed 8, .next, .next]).2 =
    [.val 1, .nil, .type, .arr [2, 3], .stop (some 9)] ∧
    (run three 0 {} [.next, .feed 7, .feed 8, .next, .next]).1.log = [7, 0] := by decide +kernel

/-- A program that changes the Array that `peek` returned changes what `next` returns.  (Ruby hands out a
copy.) -/
theorem C155_peek_fails : (run three 0 {} [.next, .peek, .change 1 [5], .next]).2 =
    [.val 1, .arr [2, 3], .nil, .val 5] := by decide +kernel

/-- An iteration that yields nothing keeps the value it was fed after its end, so that the next `feed` is
refused.  (In Ruby the end drops the value.) -/
theorem C155_feed_fails : (run ({ start := (), go := fun _ _ => .returns 9 } : Prod Nat Unit Unit) 0 {}
    [.feed 1, .next, .feed 2]).2 = [.nil, .stop (some 9), .type] ∧
    (specRun [] (.ret 9 : Fin Nat Unit) 0 {} [.feed 1, .next, .feed 2]).2 = [.nil, .stop (some 9), .nil] := by
  decide +kernel

end Verif.ExtEnum
