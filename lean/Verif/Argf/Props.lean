import Verif.Argf.Model
/-!
# ARGF is the concatenation of its files (C163)
-/

namespace Verif.Argf

/-- The streams that are still to be read, each with its unread part. -/
def St.streams (s : St) : List Bytes :=
  match s.phase, s.cur with
  | .done, _ => []
  | .init, _ => if s.queue = [] then [s.stdin] else s.queue
  | .reading, some c => c :: s.queue
  | .reading, none => s.queue

/-- All that is still to be read. -/
def St.rest (s : St) : Bytes := s.streams.flatten

structure Inv (s : St) : Prop where
  init : s.phase = .init → s.cur = none
  done : s.phase = .done → s.cur = none ∧ s.queue = []

theorem Inv.start (files : List Bytes) (stdin : Bytes) : Inv (.start files stdin) :=
  ⟨fun _ => rfl, fun h => by cases h⟩

theorem force_nil {s : St} (i : Inv s) (h : s.streams = []) :
    ∃ s', force s = (none, s') ∧ s'.streams = [] ∧ Inv s' ∧ s'.lineno = s.lineno ∧
      s'.queue.length = s.queue.length := by
  obtain ⟨p, q, sd, c, is, ln⟩ := s
  cases p with
  | init =>
    simp only [St.streams] at h
    split at h
    · cases h
    · contradiction
  | reading =>
    cases c with
    | some c => simp [St.streams] at h
    | none =>
      have : q = [] := by simpa [St.streams] using h
      subst this
      exact ⟨_, rfl, rfl, ⟨fun h => (by cases h), fun _ => ⟨rfl, rfl⟩⟩, rfl, rfl⟩
  | done =>
    obtain ⟨hc, hq⟩ := i.done rfl
    simp only at hc hq
    subst hc hq
    exact ⟨_, rfl, rfl, i, rfl, rfl⟩

theorem force_cons {s : St} (i : Inv s) {c : Bytes} {l : List Bytes} (h : s.streams = c :: l) :
    ∃ s', force s = (some c, s') ∧ s'.phase = .reading ∧ s'.cur = some c ∧ s'.queue = l ∧
      s'.lineno = s.lineno := by
  obtain ⟨p, q, sd, cu, is, ln⟩ := s
  cases p with
  | init =>
    have hc := i.init rfl
    simp only at hc
    subst hc
    cases q with
    | nil =>
      have : sd = c ∧ l = [] := by simpa [St.streams, eq_comm] using h
      obtain ⟨rfl, rfl⟩ := this
      exact ⟨_, rfl, rfl, rfl, rfl, rfl⟩
    | cons f q =>
      have : f = c ∧ q = l := by simpa [St.streams] using h
      obtain ⟨rfl, rfl⟩ := this
      exact ⟨_, rfl, rfl, rfl, rfl, rfl⟩
  | reading =>
    cases cu with
    | some x =>
      have : x = c ∧ q = l := by simpa [St.streams] using h
      obtain ⟨rfl, rfl⟩ := this
      exact ⟨_, rfl, rfl, rfl, rfl, rfl⟩
    | none =>
      have : q = c :: l := by simpa [St.streams] using h
      subst this
      exact ⟨_, rfl, rfl, rfl, rfl, rfl⟩
  | done => simp [St.streams] at h

theorem reading_inv {s : St} (h : s.phase = .reading) : Inv s :=
  ⟨fun q => (by rw [h] at q; cases q), fun q => (by rw [h] at q; cases q)⟩

theorem finish_spec {s : St} (h : s.phase = .reading) :
    Inv (finish s) ∧ (finish s).streams = s.queue ∧ (finish s).lineno = s.lineno := by
  refine ⟨reading_inv h, ?_, rfl⟩
  simp [St.streams, finish, h]

theorem set_spec {s : St} (h : s.phase = .reading) (c : Bytes) :
    Inv { s with cur := some c } ∧ St.streams { s with cur := some c } = c :: s.queue := by
  refine ⟨reading_inv h, ?_⟩
  simp [St.streams, h]

theorem streams_len {s : St} (i : Inv s) : s.streams.length < s.rounds := by
  obtain ⟨p, q, sd, c, is, ln⟩ := s
  cases p with
  | init =>
    simp only [St.streams, St.rounds]
    split <;> simp_all
  | reading => cases c <;> simp [St.streams, St.rounds]
  | done => simp [St.streams, St.rounds]

/-- Reading goes to the first stream that is not at its end. -/
theorem next_spec {α : Type} (f : Bytes → Option (α × Bytes)) : ∀ (l : List Bytes) (fuel : Nat)
    (s : St), Inv s → s.streams = l → l.length < fuel →
    (∃ s', next f fuel s = (none, s') ∧ (∀ x ∈ l, f x = none) ∧ s'.streams = [] ∧ Inv s' ∧
      s'.lineno = s.lineno) ∨
    (∃ s' a pre c c' post, next f fuel s = (some a, s') ∧ l = pre ++ c :: post ∧
      (∀ x ∈ pre, f x = none) ∧ f c = some (a, c') ∧ s'.streams = c' :: post ∧ Inv s' ∧
      s'.lineno = s.lineno) := by
  intro l
  induction l with
  | nil =>
    intro fuel s i h hf
    obtain ⟨g, rfl⟩ : ∃ g, fuel = g + 1 := ⟨fuel - 1, by simp at hf; omega⟩
    obtain ⟨s', e, h1, h2, h3, -⟩ := force_nil i h
    exact .inl ⟨s', by simp [next, e], by simp, h1, h2, h3⟩
  | cons c l ih =>
    intro fuel s i h hf
    obtain ⟨g, rfl⟩ : ∃ g, fuel = g + 1 := ⟨fuel - 1, by simp at hf; omega⟩
    obtain ⟨s1, e, h1, h2, h3, h4⟩ := force_cons i h
    cases hc : f c with
    | some r =>
      obtain ⟨a, c'⟩ := r
      obtain ⟨j, k⟩ := set_spec h1 c'
      refine .inr ⟨_, a, [], c, c', l, by simp only [next, e, hc], rfl, by simp, hc, ?_, j, h4⟩
      rw [k, h3]
    | none =>
      obtain ⟨j, k, m⟩ := finish_spec h1
      have en : next f (g + 1) s = next f g (finish s1) := by simp only [next, e, hc]
      rw [h3] at k
      rcases ih g (finish s1) j k (by simp at hf; omega) with
        ⟨s', a1, a2, a3, a4, a5⟩ | ⟨s', a, pre, d, d', post, a1, a2, a3, a4, a5, a6, a7⟩
      · refine .inl ⟨s', en.trans a1, ?_, a3, a4, by rw [a5, m, h4]⟩
        intro x hx
        rcases List.mem_cons.1 hx with rfl | hx
        · exact hc
        · exact a2 x hx
      · refine .inr ⟨s', a, c :: pre, d, d', post, en.trans a1, by rw [a2]; rfl, ?_, a4, a5, a6,
          by rw [a7, m, h4]⟩
        intro x hx
        rcases List.mem_cons.1 hx with rfl | hx
        · exact hc
        · exact a3 x hx

/-- The same in terms of what is left to read, for a reader that stops only at
the end of a stream. -/
theorem next_rest {α : Type} {f : Bytes → Option (α × Bytes)} (bytes : α → Bytes)
    (h0 : ∀ c, f c = none → c = []) (h1 : ∀ c a c', f c = some (a, c') → c = bytes a ++ c')
    {s : St} (i : Inv s) :
    (∃ s', next f s.rounds s = (none, s') ∧ s.rest = [] ∧ s'.rest = [] ∧ Inv s' ∧
      s'.lineno = s.lineno) ∨
    (∃ s' a, next f s.rounds s = (some a, s') ∧ s.rest = bytes a ++ s'.rest ∧ Inv s' ∧
      s'.lineno = s.lineno) := by
  have flat : ∀ l : List Bytes, (∀ x ∈ l, f x = none) → l.flatten = [] := by
    intro l hl
    simp only [List.flatten_eq_nil_iff]
    exact fun x hx => h0 x (hl x hx)
  rcases next_spec f s.streams s.rounds s i rfl (streams_len i) with
    ⟨s', a1, a2, a3, a4, a5⟩ | ⟨s', a, pre, d, d', post, a1, a2, a3, a4, a5, a6, a7⟩
  · exact .inl ⟨s', a1, flat _ a2, by simp [St.rest, a3], a4, a5⟩
  · refine .inr ⟨s', a, a1, ?_, a6, a7⟩
    simp only [St.rest, a2, a5, List.flatten_append, List.flatten_cons, flat pre a3,
      h1 d a d' a4]
    simp

theorem split_append (c : Bytes) : (splitLine c).1 ++ (splitLine c).2 = c := by
  induction c with
  | nil => rfl
  | cons b bs ih =>
    simp only [splitLine]
    split
    · rfl
    · simp [ih]

theorem lineOf_none (c : Bytes) (h : lineOf c = none) : c = [] := by
  cases c with
  | nil => rfl
  | cons b bs => simp [lineOf] at h

theorem lineOf_some (c a c' : Bytes) (h : lineOf c = some (a, c')) : c = a ++ c' := by
  simp only [lineOf] at h
  split at h
  · cases h
  · have : splitLine c = (a, c') := by simpa using h
    have q := split_append c
    rw [this] at q
    exact q.symm

/-- The lines of a file. -/
def lines : Bytes → List Bytes
  | [] => []
  | b :: bs =>
    if b = 10 then [b] :: lines bs else
    match lines bs with
    | [] => [[b]]
    | l :: ls => (b :: l) :: ls

theorem lines_split (c : Bytes) (h : c ≠ []) :
    lines c = (splitLine c).1 :: lines (splitLine c).2 := by
  induction c with
  | nil => exact absurd rfl h
  | cons b bs ih =>
    by_cases hb : b = 10
    · simp [lines, splitLine, hb]
    · simp only [lines, splitLine, hb, if_false]
      cases bs with
      | nil => simp [lines, splitLine]
      | cons x xs => rw [ih (by simp)]

/-- States that a program reaches. -/
inductive Reached : St → Prop
  | start (files : List Bytes) (stdin : Bytes) : Reached (.start files stdin)
  | gets {s : St} : Reached s → Reached (gets s).2
  | getbyte {s : St} : Reached s → Reached (getbyte s).2
  | read {s : St} (n : Option Nat) : Reached s → Reached (read n s).2
  | eof {s : St} : Reached s → Reached (eof s).2
  | skip {s : St} : Reached s → Reached (skip s)
  | close {s : St} : Reached s → Reached (close s)

theorem gets_spec {s : St} (i : Inv s) :
    (∃ s', gets s = (none, s') ∧ s.rest = [] ∧ s'.rest = [] ∧ Inv s' ∧ s'.lineno = s.lineno) ∨
    (∃ s' l, gets s = (some l, s') ∧ s.rest = l ++ s'.rest ∧ l ≠ [] ∧ Inv s' ∧
      s'.lineno = s.lineno + 1) := by
  rcases next_rest id lineOf_none lineOf_some i with ⟨s', a1, a2, a3, a4, a5⟩ | ⟨s', a, a1, a2, a3, a4⟩
  · exact .inl ⟨s', by simp [gets, a1], a2, a3, a4, a5⟩
  · refine .inr ⟨{ s' with lineno := s'.lineno + 1 }, a, by simp [gets, a1], a2, ?_, ⟨a3.init, a3.done⟩,
      by simp [a4]⟩
    -- a line is never empty
    rcases next_spec lineOf s.streams s.rounds s i rfl (streams_len i) with
      ⟨s', b1, -⟩ | ⟨s', b, pre, d, d', post, b1, -, -, b4, -⟩
    · rw [a1] at b1; cases b1
    · rw [a1] at b1
      have : a = b := by simpa using congrArg Prod.fst b1
      subst this
      intro h
      cases d with
      | nil => simp [lineOf] at b4
      | cons x xs =>
        simp only [lineOf, List.isEmpty_cons, Bool.false_eq_true, if_false, splitLine] at b4
        split at b4 <;> simp [h] at b4

theorem readAll_spec : ∀ (l : List Bytes) (fuel : Nat) (s : St) (acc : Bytes) (had : Bool), Inv s →
    s.streams = l → l.length < fuel →
    ∃ s', readAll fuel s acc had =
      (if had || !l.isEmpty then some (acc ++ l.flatten) else none, s') ∧ s'.streams = [] ∧ Inv s' := by
  intro l
  induction l with
  | nil =>
    intro fuel s acc had i h hf
    obtain ⟨g, rfl⟩ : ∃ g, fuel = g + 1 := ⟨fuel - 1, by simp at hf; omega⟩
    obtain ⟨s', e, h1, h2, -⟩ := force_nil i h
    exact ⟨s', by simp [readAll, e], h1, h2⟩
  | cons c l ih =>
    intro fuel s acc had i h hf
    obtain ⟨g, rfl⟩ : ∃ g, fuel = g + 1 := ⟨fuel - 1, by simp at hf; omega⟩
    obtain ⟨s1, e, h1, h2, h3, -⟩ := force_cons i h
    obtain ⟨j, k, -⟩ := finish_spec h1
    obtain ⟨s', a1, a2, a3⟩ := ih g (finish s1) (acc ++ c) true j (k.trans h3) (by simp at hf; omega)
    exact ⟨s', by simp [readAll, e, a1], a2, a3⟩

theorem readLen_spec (len : Nat) (hlen : 0 < len) : ∀ (l : List Bytes) (fuel : Nat) (s : St)
    (acc : Bytes), Inv s → s.streams = l → l.length + 1 < fuel → acc.length ≤ len →
    ∃ s', readLen len fuel s acc =
      (if acc ++ l.flatten = [] then none else some (acc ++ l.flatten.take (len - acc.length)), s') ∧
      s'.rest = l.flatten.drop (len - acc.length) ∧ Inv s' := by
  intro l
  induction l with
  | nil =>
    intro fuel s acc i h hf ha
    obtain ⟨g, rfl⟩ : ∃ g, fuel = g + 1 := ⟨fuel - 1, by omega⟩
    by_cases hl : len ≤ acc.length
    · have : acc ≠ [] := by rintro rfl; simp at hl; omega
      exact ⟨s, by simp [readLen, hl, this], by simp [St.rest, h], i⟩
    · obtain ⟨s', e, h1, h2, -⟩ := force_nil i h
      refine ⟨s', ?_, by simp [St.rest, h1], h2⟩
      rw [readLen, if_neg hl, e]
      cases acc <;> simp
  | cons c l ih =>
    intro fuel s acc i h hf ha
    obtain ⟨g, rfl⟩ : ∃ g, fuel = g + 1 := ⟨fuel - 1, by omega⟩
    by_cases hl : len ≤ acc.length
    · have : acc ≠ [] := by rintro rfl; simp at hl; omega
      have hz : len - acc.length = 0 := by omega
      exact ⟨s, by simp [readLen, hl, this, hz], by simp [St.rest, h, hz], i⟩
    · obtain ⟨s1, e, h1, h2, h3, -⟩ := force_cons i h
      by_cases hs : (c.take (len - acc.length)).length < len - acc.length
      · have hc : c.length < len - acc.length := by
          rw [List.length_take] at hs; omega
        have ht : c.take (len - acc.length) = c := List.take_of_length_le (by omega)
        obtain ⟨j, k, -⟩ := finish_spec h1
        obtain ⟨s', a1, a2, a3⟩ := ih g (finish s1) (acc ++ c) j (k.trans h3)
          (by simp at hf; omega) (by simp; omega)
        refine ⟨s', ?_, ?_, a3⟩
        · have en : readLen len (g + 1) s acc = readLen len g (finish s1) (acc ++ c) := by
            rw [readLen, if_neg hl, e]
            simp only [ht] at hs ⊢
            rw [if_pos hs]
          rw [en, a1]
          simp only [List.length_append, List.flatten_cons, List.append_assoc]
          have hn : len - (acc.length + c.length) = len - acc.length - c.length := by omega
          rw [List.take_append, ht, hn]
        · rw [a2]
          simp only [List.length_append, List.flatten_cons]
          rw [List.drop_append, List.drop_of_length_le (by omega : c.length ≤ len - acc.length),
            show len - (acc.length + c.length) = len - acc.length - c.length by omega]
          rfl
      · have hc : len - acc.length ≤ c.length := by
          rw [List.length_take] at hs; omega
        obtain ⟨j, k⟩ := set_spec h1 (c.drop (len - acc.length))
        have hlen' : (acc ++ c.take (len - acc.length)).length = len := by
          simp [List.length_take]; omega
        obtain ⟨g', rfl⟩ : ∃ g', g = g' + 1 := ⟨g - 1, by simp at hf; omega⟩
        refine ⟨_, ?_, ?_, j⟩
        · have en : readLen len (g' + 1 + 1) s acc =
              (some (acc ++ c.take (len - acc.length)),
                { s1 with cur := some (c.drop (len - acc.length)) }) := by
            rw [readLen]
            simp only [hl, if_false, e, hs]
            rw [readLen, if_pos (by omega)]
          rw [en]
          have hne : acc ++ (c :: l).flatten ≠ [] := by
            intro q
            have : acc = [] ∧ c = [] := by
              simp only [List.flatten_cons, List.append_eq_nil_iff] at q
              exact ⟨q.1, q.2.1⟩
            rw [this.1, this.2] at hc
            simp at hc; omega
          rw [if_neg hne, List.flatten_cons, List.take_append_of_le_length hc]
        · rw [St.rest, k, h3]
          simp only [List.flatten_cons]
          rw [List.drop_append_of_le_length hc]

theorem read_inv {s : St} (i : Inv s) (n : Option Nat) : Inv (read n s).2 := by
  match n with
  | none =>
    obtain ⟨s', a, -, b⟩ := readAll_spec s.streams s.rounds s [] false i rfl (streams_len i)
    simp only [read, a]; exact b
  | some 0 => exact i
  | some (n + 1) =>
    have := streams_len i
    obtain ⟨s', a, -, b⟩ := readLen_spec (n + 1) (by omega) s.streams (s.rounds + 1) s [] i rfl
      (by omega) (by simp)
    simp only [read, a]; exact b

theorem eof_inv {s : St} (i : Inv s) : Inv (eof s).2 := by
  cases h : s.streams with
  | nil =>
    obtain ⟨s', e, -, h2, -⟩ := force_nil i h
    simp only [eof, e]; exact h2
  | cons c l =>
    obtain ⟨s', e, h1, -⟩ := force_cons i h
    simp only [eof, e]; exact reading_inv h1

theorem finish_inv {s : St} (i : Inv s) : Inv (finish s) :=
  ⟨fun _ => rfl, fun h => ⟨rfl, (i.done h).2⟩⟩

theorem byteOf_none (c : Bytes) (h : byteOf c = none) : c = [] := by
  cases c with
  | nil => rfl
  | cons b bs => simp [byteOf] at h

theorem byteOf_some (c : Bytes) (a : Nat) (c' : Bytes) (h : byteOf c = some (a, c')) :
    c = [a] ++ c' := by
  cases c with
  | nil => simp [byteOf] at h
  | cons b bs =>
    have : b = a ∧ bs = c' := by simpa [byteOf] using h
    simp [this.1, this.2]

theorem Reached.inv {s : St} (h : Reached s) : Inv s := by
  induction h with
  | start f i => exact .start f i
  | @gets s _ ih =>
    rcases gets_spec ih with ⟨s', e, -, -, j, -⟩ | ⟨s', l, e, -, -, j, -⟩ <;> rw [e] <;> exact j
  | @getbyte s _ ih =>
    rcases next_rest (fun b => [b]) byteOf_none byteOf_some ih with
      ⟨s', e, -, -, j, -⟩ | ⟨s', l, e, -, j, -⟩ <;> simp only [Argf.getbyte, e] <;> exact j
  | read n _ ih => exact read_inv ih n
  | eof _ ih => exact eof_inv ih
  | skip _ ih => exact finish_inv ih
  | close _ ih =>
    simp only [Argf.close]
    split
    · exact finish_inv ih
    · exact ih

/-- C163.  Before the first read there are the files one after the other, or
stdin if no file is named. -/
theorem C163_start (files : List Bytes) (stdin : Bytes) :
    (St.start files stdin).rest = if files = [] then stdin else files.flatten := by
  cases files <;> simp [St.rest, St.streams, St.start]

/-- C163.  `read` gives all that is left. -/
theorem C163_read {s : St} (h : Reached s) :
    ((read none s).1 = some s.rest ∨ (read none s).1 = none ∧ s.rest = []) ∧
      (read none s).2.rest = [] := by
  obtain ⟨s', a, b, -⟩ := readAll_spec s.streams s.rounds s [] false h.inv rfl (streams_len h.inv)
  simp only [read, a]
  refine ⟨?_, by simp [St.rest, b]⟩
  cases hs : s.streams with
  | nil => right; simp [St.rest, hs]
  | cons c l => left; simp [St.rest, hs]

/-- C163.  `read(n)` gives the next `n` bytes, across the ends of files, fewer
only at the end of everything, and nil only if nothing is left. -/
theorem C163_read_len {s : St} (h : Reached s) {n : Nat} (hn : 0 < n) :
    (read (some n) s).1 = (if s.rest = [] then none else some (s.rest.take n)) ∧
      (read (some n) s).2.rest = s.rest.drop n := by
  obtain ⟨m, rfl⟩ : ∃ m, n = m + 1 := ⟨n - 1, by omega⟩
  have := streams_len h.inv
  obtain ⟨s', a, b, -⟩ := readLen_spec (m + 1) (by omega) s.streams (s.rounds + 1) s [] h.inv rfl
    (by omega) (by simp)
  simp only [read, a]
  exact ⟨by simp [St.rest], by simpa [St.rest] using b⟩

/-- C163.  `getbyte` gives the next byte, nil only if nothing is left. -/
theorem C163_getbyte {s : St} (h : Reached s) :
    (getbyte s).1 = s.rest.head? ∧ (getbyte s).2.rest = s.rest.tail := by
  rcases next_rest (fun b => [b]) byteOf_none byteOf_some h.inv with
    ⟨s', e, h1, h2, -⟩ | ⟨s', l, e, h1, -⟩
  · simp [getbyte, e, h1, h2]
  · simp [getbyte, e, h1]

/-- C163.  `gets` gives a non-empty piece of what is left and counts it; nil
only if nothing is left. -/
theorem C163_gets {s : St} (h : Reached s) :
    ((gets s).1 = none ∧ s.rest = [] ∧ (gets s).2.rest = [] ∧ (gets s).2.lineno = s.lineno) ∨
    ∃ l, (gets s).1 = some l ∧ l ≠ [] ∧ s.rest = l ++ (gets s).2.rest ∧
      (gets s).2.lineno = s.lineno + 1 := by
  rcases gets_spec h.inv with ⟨s', e, a, b, -, c⟩ | ⟨s', l, e, a, b, -, c⟩
  · left; simp [e, a, b, c]
  · right; exact ⟨l, by simp [e], b, by simp [e, a], by simp [e, c]⟩

/-- Lines do not run over the end of a file: the line is the first one of the
first stream that is not empty. -/
theorem C163_gets_line {s : St} (h : Reached s) {l : Bytes} (hl : (gets s).1 = some l) :
    ∃ pre c post, s.streams = pre ++ c :: post ∧ (∀ x ∈ pre, x = []) ∧ c ≠ [] ∧
      l = (splitLine c).1 ∧ (gets s).2.streams = (splitLine c).2 :: post := by
  rcases next_spec lineOf s.streams s.rounds s h.inv rfl (streams_len h.inv) with
    ⟨s', b1, -⟩ | ⟨s', b, pre, d, d', post, b1, b2, b3, b4, b5, -⟩
  · simp [gets, b1] at hl
  · have hb : b = l := by simpa [gets, b1] using hl
    subst hb
    refine ⟨pre, d, post, b2, fun x hx => lineOf_none x (b3 x hx), ?_, ?_, ?_⟩
    · rintro rfl; simp [lineOf] at b4
    · simp only [lineOf] at b4
      split at b4
      · cases b4
      · have : splitLine d = (b, d') := by simpa using b4
        rw [this]
    · have hd : (splitLine d).2 = d' := by
        simp only [lineOf] at b4
        split at b4
        · cases b4
        · have : splitLine d = (b, d') := by simpa using b4
          rw [this]
      have hs : (gets s).2.streams = s'.streams := by simp [gets, b1, St.streams]
      rw [hs, b5, hd]

/-- A line contains a newline only at its end, and has none only at the end of
the file. -/
theorem C163_line (c : Bytes) :
    (∀ x ∈ (splitLine c).1.dropLast, x ≠ 10) ∧
      ((splitLine c).1.getLast? = some 10 ∨ (splitLine c).2 = []) := by
  induction c with
  | nil => simp [splitLine]
  | cons b bs ih =>
    by_cases hb : b = 10
    · simp [splitLine, hb]
    · simp only [splitLine, hb, if_false]
      cases hq : (splitLine bs).1 with
      | nil =>
        have : bs = [] := by
          cases bs with
          | nil => rfl
          | cons x xs =>
            simp only [splitLine] at hq
            split at hq <;> simp at hq
        subst this
        simp [splitLine]
      | cons x xs =>
        rw [hq] at ih
        refine ⟨?_, ?_⟩
        · intro y hy
          rw [List.dropLast_cons_of_ne_nil (by simp)] at hy
          rcases List.mem_cons.1 hy with rfl | hy
          · exact hb
          · exact ih.1 y hy
        · rcases ih.2 with r | r
          · left; rw [List.getLast?_cons_cons]; exact r
          · exact .inr r

/-- C163.  All lines together are all that is left, and nothing is left. -/
theorem C163_readlines {s : St} (h : Reached s) (fuel : Nat) (hf : s.rest.length < fuel) :
    (readlines fuel s).1.flatten = s.rest ∧ (readlines fuel s).2.rest = [] ∧
      (readlines fuel s).2.lineno = s.lineno + (readlines fuel s).1.length := by
  induction fuel generalizing s with
  | zero => omega
  | succ fuel ih =>
    have hr := Reached.gets h
    rcases gets_spec h.inv with ⟨s', e, a, b, -, c⟩ | ⟨s', l, e, a, b, -, c⟩
    · simp [readlines, e, a, b, c]
    · rw [e] at hr
      have hlen : s'.rest.length < fuel := by
        rw [a, List.length_append] at hf
        have : 0 < l.length := List.length_pos_iff.2 b
        omega
      obtain ⟨h1, h2, h3⟩ := ih hr hlen
      simp only [readlines, e, List.flatten_cons, h1, h2, h3, List.length_cons, a, c]
      exact ⟨trivial, trivial, by omega⟩

/-- C163.  They are the lines of the first file, then those of the second, and so
on: a file without a newline at its end does not run into the next one. -/
theorem C163_lines {s : St} (h : Reached s) (fuel : Nat) (hf : s.rest.length < fuel) :
    (readlines fuel s).1 = s.streams.flatMap lines := by
  induction fuel generalizing s with
  | zero => omega
  | succ fuel ih =>
    have hr := Reached.gets h
    rcases gets_spec h.inv with ⟨s', e, a, -⟩ | ⟨s', l, e, a, b, -⟩
    · have : s.streams.flatMap lines = [] := by
        simp only [St.rest, List.flatten_eq_nil_iff] at a
        simp only [List.flatMap_eq_nil_iff]
        intro x hx
        rw [a x hx]; rfl
      simp [readlines, e, this]
    · obtain ⟨pre, c, post, q1, q2, q3, q4, q5⟩ := C163_gets_line h (l := l) (by rw [e])
      rw [e] at hr q5
      have hlen : s'.rest.length < fuel := by
        rw [a, List.length_append] at hf
        have : 0 < l.length := List.length_pos_iff.2 b
        omega
      have hpre : pre.flatMap lines = [] := by
        simp only [List.flatMap_eq_nil_iff]
        intro x hx
        rw [q2 x hx]; rfl
      simp only [readlines, e]
      rw [ih hr hlen, q1, q5, q4]
      simp only [List.flatMap_append, List.flatMap_cons, hpre, lines_split c q3]
      rfl

/-- C163.  `eof?` looks at the current file only and reads nothing; `skip` and
`close` leave out what is left of the current file and nothing else; `close` leaves
stdin alone. -/
theorem C163_skip {s : St} (h : Reached s) :
    (eof s).2.rest = s.rest ∧
    ((eof s).1 = s.streams.head?.map fun c => decide (c = [])) ∧
    (∀ c, s.cur = some c → (skip s).rest = s.rest.drop c.length) ∧
    (s.cur = none → (skip s).rest = s.rest) ∧
    (close s).rest = (if s.isStdin then s.rest else (skip s).rest) := by
  have i := h.inv
  refine ⟨?_, ?_, ?_, ?_, ?_⟩
  · cases hs : s.streams with
    | nil =>
      obtain ⟨s', e, h1, -⟩ := force_nil i hs
      simp [eof, e, St.rest, h1, hs]
    | cons c l =>
      obtain ⟨s', e, h1, h2, h3, -⟩ := force_cons i hs
      have : s'.streams = c :: l := by simp [St.streams, h1, h2, h3]
      simp [eof, e, St.rest, this, hs]
  · cases hs : s.streams with
    | nil =>
      obtain ⟨s', e, -⟩ := force_nil i hs
      simp [eof, e]
    | cons c l =>
      obtain ⟨s', e, -⟩ := force_cons i hs
      cases c <;> simp [eof, e]
  · intro c hc
    have hp : s.phase = .reading := by
      cases hp : s.phase with
      | init => rw [i.init hp] at hc; cases hc
      | reading => rfl
      | done => rw [(i.done hp).1] at hc; cases hc
    obtain ⟨-, k, -⟩ := finish_spec hp
    have : s.streams = c :: s.queue := by simp [St.streams, hp, hc]
    simp [skip, St.rest, k, this]
  · intro hc
    have : finish s = s := by simp [finish, ← hc]
    simp [skip, this]
  · cases hc : s.cur with
    | none =>
      have : finish s = s := by simp [finish, ← hc]
      simp [close, skip, hc, this]
    | some c => cases hi : s.isStdin <;> simp [close, skip, hc, hi]

/-- Three files, one of them empty and one without a newline at its end. -/
example : (readlines 9 (.start [[97, 10, 98], [], [99, 10]] [7])).1 = [[97, 10], [98], [99, 10]] ∧
    (read (some 4) (.start [[97, 10, 98], [], [99, 10]] [7])).1 = some [97, 10, 98, 99] ∧
    (gets (skip (gets (.start [[97, 10, 98], [], [99, 10]] [7])).2)).1 = some [99, 10] ∧
    (read none (.start [] [7])).1 = some [7] ∧
    (read none (read none (.start [] [7])).2).1 = none := by decide

end Verif.Argf
