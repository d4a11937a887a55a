import Verif.IoBuf.WModel

/-!
# Lemmas about the write buffer
-/

namespace Verif.IoBuf

theorem take_add_drop (l : List Byte) (a b : Nat) :
    l.take a ++ (l.drop a).take b = l.take (a + b) := by
  rw [List.take_add]

theorem accepted_length_le (n : Nat) (l : List Byte) : (accepted n l).length ≤ l.length := by
  simp [accepted]; omega

theorem accepted_append (n w : Nat) (buf out : List Byte)
    (h : out = buf.take w) :
    out ++ accepted n (buf.drop w) = buf.take (w + (accepted n (buf.drop w)).length) := by
  subst h
  unfold accepted
  rw [List.take_add (i := w) (j := ((buf.drop w).take (n + 1)).length)]
  congr 1
  generalize buf.drop w = l
  rw [List.length_take]
  rcases Nat.le_total (n + 1) l.length with h | h
  · rw [Nat.min_eq_left h]
  · rw [Nat.min_eq_right h, List.take_of_length_le h, List.take_of_length_le (Nat.le_refl _)]

/-- What a drain does, in one statement. -/
theorem drainLoop_spec (buf : List Byte) (wr : List WResp) :
    ∀ (polls : List Bool) (w : Nat) (out : List Byte) (res : WRes) (w' : Nat) (out' : List Byte)
      (os' : WOs),
      drainLoop buf polls wr w out = some (res, w', out', os') → w ≤ buf.length →
      out = buf.take w →
      w ≤ w' ∧ w' ≤ buf.length ∧ out' = buf.take w' ∧ (res = .ok () → w' = buf.length) ∧
      os'.wr.length ≤ wr.length := by
  induction wr with
  | nil =>
    intro polls w out res w' out' os' h hw ho
    unfold drainLoop at h
    split at h
    · simp at h; obtain ⟨rfl, rfl, rfl, rfl⟩ := h
      exact ⟨Nat.le_refl _, hw, ho, fun _ => by omega, Nat.le_refl _⟩
    · split at h
      · simp at h; obtain ⟨rfl, rfl, rfl, rfl⟩ := h
        exact ⟨Nat.le_refl _, hw, ho, (fun h => by cases h), Nat.le_refl _⟩
      · simp at h
  | cons r wr ih =>
    intro polls w out res w' out' os' h hw ho
    unfold drainLoop at h
    split at h
    · simp at h; obtain ⟨rfl, rfl, rfl, rfl⟩ := h
      exact ⟨Nat.le_refl _, hw, ho, fun _ => by omega, Nat.le_refl _⟩
    · split at h
      · simp at h; obtain ⟨rfl, rfl, rfl, rfl⟩ := h
        exact ⟨Nat.le_refl _, hw, ho, (fun h => by cases h), Nat.le_refl _⟩
      · cases r with
        | took n =>
          dsimp only at h
          have := ih _ _ _ _ _ _ _ h
            (by have := accepted_length_le n (buf.drop w); simp at this; omega)
            (accepted_append n w buf out ho)
          refine ⟨by omega, this.2.1, this.2.2.1, this.2.2.2.1, ?_⟩
          have := this.2.2.2.2
          simp; omega
        | eintr =>
          dsimp only at h
          split at h
          · simp at h; obtain ⟨rfl, rfl, rfl, rfl⟩ := h
            exact ⟨Nat.le_refl _, hw, ho, (fun h => by cases h), by simp⟩
          · have := ih _ _ _ _ _ _ _ h hw ho
            refine ⟨this.1, this.2.1, this.2.2.1, this.2.2.2.1, ?_⟩
            have := this.2.2.2.2
            simp; omega
        | zero | again | fail =>
          simp at h; obtain ⟨rfl, rfl, rfl, rfl⟩ := h
          exact ⟨Nat.le_refl _, hw, ho, (fun h => by cases h), by simp⟩

/-- What a direct write does, in one statement. -/
theorem directLoop_spec (data : List Byte) (p0 : Nat) (wr : List WResp) :
    ∀ (polls : List Bool) (p : Nat) (out : List Byte) (res : WRes) (p' : Nat) (out' : List Byte)
      (os' : WOs),
      directLoop data polls wr p out = some (res, p', out', os') → p ≤ data.length → p0 ≤ p →
      data.take p0 ++ out = data.take p →
      p ≤ p' ∧ p' ≤ data.length ∧ data.take p0 ++ out' = data.take p' ∧
      (res = .ok () → p' = data.length) ∧ os'.wr.length ≤ wr.length := by
  induction wr with
  | nil =>
    intro polls p out res p' out' os' h hp hp0 ho
    unfold directLoop at h
    split at h
    · split at h
      · simp at h; obtain ⟨rfl, rfl, rfl, rfl⟩ := h
        exact ⟨Nat.le_refl _, hp, ho, (fun h => by cases h), Nat.le_refl _⟩
      · simp at h
    · simp at h; obtain ⟨rfl, rfl, rfl, rfl⟩ := h
      exact ⟨Nat.le_refl _, hp, ho, fun _ => by omega, Nat.le_refl _⟩
  | cons r wr ih =>
    intro polls p out res p' out' os' h hp hp0 ho
    unfold directLoop at h
    split at h
    · split at h
      · simp at h; obtain ⟨rfl, rfl, rfl, rfl⟩ := h
        exact ⟨Nat.le_refl _, hp, ho, (fun h => by cases h), Nat.le_refl _⟩
      · cases r with
        | took n =>
          dsimp only at h
          have := ih _ _ _ _ _ _ _ h
            (by have := accepted_length_le n (data.drop p); simp at this; omega) (by omega)
            (by rw [← List.append_assoc]; exact accepted_append n p data _ ho)
          refine ⟨by omega, this.2.1, this.2.2.1, this.2.2.2.1, ?_⟩
          have := this.2.2.2.2
          simp; omega
        | eintr =>
          dsimp only at h
          split at h
          · simp at h; obtain ⟨rfl, rfl, rfl, rfl⟩ := h
            exact ⟨Nat.le_refl _, hp, ho, (fun h => by cases h), by simp⟩
          · have := ih _ _ _ _ _ _ _ h hp hp0 ho
            refine ⟨this.1, this.2.1, this.2.2.1, this.2.2.2.1, ?_⟩
            have := this.2.2.2.2
            simp; omega
        | zero | again | fail =>
          simp at h; obtain ⟨rfl, rfl, rfl, rfl⟩ := h
          exact ⟨Nat.le_refl _, hp, ho, (fun h => by cases h), by simp⟩
    · simp at h; obtain ⟨rfl, rfl, rfl, rfl⟩ := h
      exact ⟨Nat.le_refl _, hp, ho, fun _ => by omega, Nat.le_refl _⟩

theorem drain_spec {w : WriteBuf} {os os' : WOs} {res : WRes} {took : List Byte} {w' : WriteBuf}
    (h : w.drain os = some (res, took, w', os')) :
    took ++ w'.buf = w.buf ∧ w'.sync = w.sync ∧ w'.tty = w.tty ∧
    (res = .ok () → w'.buf = []) ∧ w'.buf.length ≤ w.buf.length ∧
    os'.wr.length ≤ os.wr.length := by
  unfold WriteBuf.drain at h
  cases hd : drainLoop w.buf os.polls os.wr 0 [] with
  | none => rw [hd] at h; simp at h
  | some r =>
    obtain ⟨res₁, n, out, os₁⟩ := r
    rw [hd] at h
    simp at h
    obtain ⟨rfl, rfl, rfl, rfl⟩ := h
    have := drainLoop_spec _ _ _ _ _ _ _ _ _ hd (Nat.zero_le _) (by simp)
    obtain ⟨_, h1, h2, h3, h4⟩ := this
    refine ⟨by simp [h2], rfl, rfl, fun hr => ?_, by simp, h4⟩
    simp [h3 hr]

theorem write_spec {w : WriteBuf} {data : List Byte} {p : Nat} {os os' : WOs} {res : WRes}
    {p' : Nat} {took : List Byte} {w' : WriteBuf}
    (h : w.write data p os = some (res, p', took, w', os')) (hp : p ≤ data.length) :
    p ≤ p' ∧ p' ≤ data.length ∧
    took ++ w'.buf = w.buf ++ (data.take p').drop p ∧ w'.sync = w.sync ∧ w'.tty = w.tty ∧
    (res = .ok () → p' = data.length) ∧
    (res = .ok () → w.writesThrough = true → w'.buf = []) ∧
    (w.buf.length < ioBufCapa → w'.buf.length < ioBufCapa) ∧
    (w.writesThrough = true → w'.buf.length ≤ w.buf.length) ∧
    os'.wr.length ≤ os.wr.length := by
  unfold WriteBuf.write at h
  split at h
  · rename_i hc
    simp only [Bool.and_eq_true, Bool.not_eq_true', decide_eq_true_eq] at hc
    simp at h
    obtain ⟨rfl, rfl, rfl, rfl, rfl⟩ := h
    refine ⟨hp, Nat.le_refl _, by simp, rfl, rfl, fun _ => rfl, ?_, ?_, ?_, Nat.le_refl _⟩
    · intro _ ht; rw [hc.1] at ht; cases ht
    · intro _; simp; omega
    · intro ht; rw [hc.1] at ht; cases ht
  · cases hd : w.drain os with
    | none => rw [hd] at h; simp at h
    | some r =>
      obtain ⟨res₁, took₁, w₁, os₁⟩ := r
      rw [hd] at h
      obtain ⟨hb, hs, ht, hok, hlen, hos⟩ := drain_spec hd
      cases res₁ with
      | error e =>
        simp at h
        obtain ⟨rfl, rfl, rfl, rfl, rfl⟩ := h
        refine ⟨Nat.le_refl _, hp, ?_, hs, ht, (fun h => by cases h), (fun h => by cases h), ?_, ?_,
          hos⟩
        · rw [hb]; simp
        · intro h; omega
        · intro _; exact hlen
      | ok u =>
        dsimp only at h
        cases hl : directLoop data os₁.polls os₁.wr p [] with
        | none => rw [hl] at h; simp at h
        | some r =>
          obtain ⟨res₂, p₂, out, os₂⟩ := r
          rw [hl] at h
          simp at h
          obtain ⟨rfl, rfl, rfl, rfl, rfl⟩ := h
          obtain ⟨h1, h2, h3, h4, h5⟩ := directLoop_spec data p _ _ _ _ _ _ _ _ hl hp
            (Nat.le_refl _) (by simp)
          have hnil := hok rfl
          have hout : out = (data.take p₂).drop p := by
            have : (data.take p ++ out).drop p = (data.take p₂).drop p := by rw [h3]
            rw [List.drop_append_of_le_length (by simp; omega)] at this
            simpa using this
          refine ⟨h1, h2, ?_, hs, ht, h4, fun _ _ => hnil, ?_, ?_, by omega⟩
          · rw [hnil] at hb
            simp at hb
            rw [hnil, hb, hout]; simp
          · intro _; rw [hnil]; simp [ioBufCapa]
          · intro _; rw [hnil]; simp

/-- The program's progress never exceeds the data it is writing. -/
theorem attempt_progress_le {s s' : Stream} {data : List Byte} {p p' : Nat} {os os' : WOs}
    {res : WRes} (h : s.attempt data p os = some (res, p', s', os')) (hp : p ≤ data.length) :
    p ≤ p' ∧ p' ≤ data.length := by
  unfold Stream.attempt at h
  cases hw : s.wb.write data p os with
  | none => rw [hw] at h; simp at h
  | some r =>
    obtain ⟨_, _, _, _, _⟩ := r
    rw [hw] at h
    simp at h
    obtain ⟨rfl, rfl, rfl, rfl⟩ := h
    have := write_spec hw hp
    exact ⟨this.1, this.2.1⟩

theorem attempt_spec {s s' : Stream} {data : List Byte} {p p' : Nat} {os os' : WOs}
    {res : WRes} (h : s.attempt data p os = some (res, p', s', os')) (hp : p ≤ data.length) :
    s'.sink ++ s'.wb.buf = s.sink ++ s.wb.buf ++ (data.take p').drop p ∧
    s'.wb.sync = s.wb.sync ∧ s'.wb.tty = s.wb.tty ∧
    (res = .ok () → p' = data.length) ∧
    (res = .ok () → s.wb.writesThrough = true → s'.wb.buf = []) ∧
    (s.wb.buf.length < ioBufCapa → s'.wb.buf.length < ioBufCapa) ∧
    s.sink <+: s'.sink := by
  unfold Stream.attempt at h
  cases hw : s.wb.write data p os with
  | none => rw [hw] at h; simp at h
  | some r =>
    obtain ⟨_, _, took, _, _⟩ := r
    rw [hw] at h
    simp at h
    obtain ⟨rfl, rfl, rfl, rfl⟩ := h
    obtain ⟨_, _, h3, h4, h5, h6, h7, h8, _, _⟩ := write_spec hw hp
    refine ⟨?_, h4, h5, h6, h7, h8, ?_⟩
    · simp only [List.append_assoc]
      rw [h3]
    · exact ⟨took, rfl⟩

theorem flush_spec {s s' : Stream} {os os' : WOs} {res : WRes}
    (h : s.flush os = some (res, s', os')) :
    s'.sink ++ s'.wb.buf = s.sink ++ s.wb.buf ∧ s'.wb.sync = s.wb.sync ∧ s'.wb.tty = s.wb.tty ∧
    (res = .ok () → s'.wb.buf = []) ∧ s'.wb.buf.length ≤ s.wb.buf.length ∧
    s.sink <+: s'.sink := by
  unfold Stream.flush at h
  cases hw : s.wb.drain os with
  | none => rw [hw] at h; simp at h
  | some r =>
    obtain ⟨_, took, _, _⟩ := r
    rw [hw] at h
    simp at h
    obtain ⟨rfl, rfl, rfl⟩ := h
    obtain ⟨h1, h2, h3, h4, h5, _⟩ := drain_spec hw
    exact ⟨by simp only [List.append_assoc]; rw [h1], h2, h3, h4, h5, ⟨took, rfl⟩⟩

end Verif.IoBuf
