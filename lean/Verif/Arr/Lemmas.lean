import Verif.Arr.Model
import Mathlib.Tactic.SplitIfs

namespace Verif.Arr

variable {α : Type} [Inhabited α]

/-- The index `i` means the place `p` of an array of length `len`: counted from the front, or, when negative,
from the end. -/
def Place (len : Nat) (i : Int) (p : Nat) : Prop := i = p ∨ (i = (p : Int) - len ∧ p < len)

/-- `a`, continued with `nil` up to the place `p`. -/
def pad (a : List α) (p : Nat) : List α := a ++ List.replicate (p - a.length) default

theorem Place.unique {len p q : Nat} {i : Int} (h : Place len i p) (h' : Place len i q) : p = q := by
  rcases h with h | h <;> rcases h' with h' | h' <;> omega

theorem resolve_eq {len p : Nat} {i : Int} : resolve len i = some p ↔ Place len i p := by
  unfold resolve Place
  split
  · split
    · simp; omega
    · simp; omega
  · simp; omega

theorem resolve_none {len : Nat} {i : Int} : resolve len i = none ↔ i < -(len : Int) := by
  unfold resolve
  split
  · split <;> simp <;> omega
  · simp; omega

theorem pad_length (a : List α) (p : Nat) : (pad a p).length = max p a.length := by
  simp [pad]; omega

theorem pad_le (a : List α) {p : Nat} (h : p ≤ a.length) : pad a p = a := by
  simp [pad, Nat.sub_eq_zero_of_le h]

theorem resize_eq (a : List α) (n : Nat) : resize a n = (pad a n).take n := by
  unfold resize
  split
  · rename_i h; rw [pad_le a h]
  · rw [List.take_of_length_le]; · rfl
    simp [pad_length]; omega

theorem take_drop_span (a : List α) (s n : Nat) :
    (a.take (min a.length (s + n))).drop s = (a.drop s).take n := by
  rw [List.drop_take]
  rcases Nat.le_total a.length (s + n) with h | h
  · rw [Nat.min_eq_left h, List.take_of_length_le (by simp), List.take_of_length_le (by simp; omega)]
  · rw [Nat.min_eq_right h]; congr 1; omega

/-- The place behind the last element of a range. -/
def Rng.stop (r : Rng) (len : Nat) : Int :=
  match r.last with
  | none => len
  | some e => (if e < 0 then e + len else e) + if r.excl then 0 else 1

theorem getR_stop (len : Nat) (r : Rng) (s : Nat) :
    ((getEnd len r).getD 0) - s = min len (r.stop len).toNat - s := by
  unfold getEnd Rng.stop
  cases h : r.last with
  | none => simp
  | some e =>
    simp only
    cases r.excl <;> simp only [Bool.false_eq_true, ↓reduceIte, Nat.min_def] <;> split_ifs <;>
      simp only [Option.getD_some, Option.getD_none] <;> omega

theorem setLen_eq (len p : Nat) (r : Rng) : setLen len p r = (r.stop len - p).toNat := by
  unfold setLen Rng.stop
  cases r.last with
  | none => simp only; omega
  | some e => simp only; cases r.excl <;> simp

theorem fillEnd_eq (len : Nat) (r : Rng) : fillEnd len r = r.stop len := by
  unfold fillEnd Rng.stop
  cases r.last with
  | none => rfl
  | some e => simp only; cases r.excl <;> simp

theorem spliceMany_eq (a : List α) (i n : Nat) (v : List α) {b : List α}
    (h : spliceMany a i n v = .ok b) : b = (pad a i).take i ++ (v ++ a.drop (i + n)) := by
  unfold spliceMany at h
  simp only at h
  split at h
  · rename_i hc
    split at h
    · exact absurd h (by simp)
    · simp only [Out.ok.injEq] at h
      subst h
      have hd : a.drop (i + n) = [] := by
        apply List.drop_eq_nil_of_le; omega
      rw [hd, List.append_nil, writeAt, resize_eq]
      have h1 : List.drop (i + v.length) (List.take (i + v.length) (pad a (i + v.length))) = [] := by
        apply List.drop_eq_nil_of_le; simp; omega
      rw [h1, List.append_nil, List.take_take, Nat.min_eq_left (by omega)]
      congr 1
      simp only [pad]
      rw [List.take_append, List.take_append]
      congr 1
      simp only [List.take_replicate]
      congr 1; omega
  · rename_i hc
    rw [not_or] at hc
    split at h
    · rename_i hv
      split at h
      · exact absurd h (by simp)
      · simp only [Out.ok.injEq] at h
        subst h
        rw [pad_le a (by omega), resize]
        simp only [show ¬ (a.length + v.length - n ≤ a.length) by omega, ↓reduceIte]
        generalize hr : List.replicate (a.length + v.length - n - a.length) (default : α) = r
        have hrl : r.length = v.length - n := by rw [← hr]; simp; omega
        unfold writeAt copyWithin
        have e1 : (a ++ r).take a.length = a := by simp
        rw [e1]
        have e2 : (a ++ r).drop (i + v.length + (a.length - (i + n))) = [] := by
          apply List.drop_eq_nil_of_le; simp; omega
        rw [e2, List.append_nil]
        have e3 : (List.take (i + v.length) (a ++ r)).length = i + v.length := by
          simp; omega
        rw [List.take_append_of_le_length (by rw [e3]; omega), List.take_take, Nat.min_eq_left (by omega),
          List.take_append_of_le_length (by omega), List.drop_append_of_le_length (Nat.le_of_eq e3.symm),
          List.drop_eq_nil_of_le (as := List.take (i + v.length) (a ++ r)) (Nat.le_of_eq e3), List.nil_append]
    · rename_i hv
      simp only [Out.ok.injEq] at h
      subst h
      rw [pad_le a (by omega)]
      unfold writeAt copyWithin resize
      have e3 : (a.take (i + v.length)).length = i + v.length := by simp; omega
      have hl : (a.take (i + v.length) ++ ((a.take a.length).drop (i + n) ++
          a.drop (i + v.length + (a.length - (i + n))))).length = a.length := by
        simp; omega
      rw [hl]
      simp only [show a.length + v.length - n ≤ a.length by omega, ↓reduceIte, List.take_length]
      have e4 : List.take (a.length + v.length - n) (a.take (i + v.length) ++ (a.drop (i + n) ++
          a.drop (i + v.length + (a.length - (i + n))))) = a.take (i + v.length) ++ a.drop (i + n) := by
        rw [← List.append_assoc, List.take_append_of_le_length (by simp; omega),
          List.take_of_length_le (by simp; omega)]
      rw [e4, List.take_append_of_le_length (by rw [e3]; omega), List.take_take, Nat.min_eq_left (by omega),
        List.drop_append_of_le_length (Nat.le_of_eq e3.symm),
        List.drop_eq_nil_of_le (as := List.take (i + v.length) a) (Nat.le_of_eq e3), List.nil_append]

theorem spliceMany_ok (a : List α) (i n : Nat) (v : List α) (h : max i a.length + v.length ≤ maxLen) :
    ∃ b, spliceMany a i n v = .ok b := by
  unfold spliceMany
  simp only
  split
  · rw [if_neg (by omega)]; exact ⟨_, rfl⟩
  · split
    · rw [if_neg (by omega)]; exact ⟨_, rfl⟩
    · exact ⟨_, rfl⟩

theorem set_mid (l r : List α) (y x : α) : (l ++ y :: r).set l.length x = l ++ x :: r := by
  simp

theorem spliceOne_eq (a : List α) (i n : Nat) (x : α) {b : List α}
    (h : spliceOne a i n x = .ok b) : b = (pad a i).take i ++ ([x] ++ a.drop (i + n)) := by
  unfold spliceOne at h
  simp only at h
  split at h
  · rename_i hc
    split at h
    · exact absurd h (by simp)
    · simp only [Out.ok.injEq] at h
      subst h
      rw [List.drop_eq_nil_of_le (by omega), List.append_nil, resize]
      simp only [show ¬ (i + 1 ≤ a.length) by omega, ↓reduceIte]
      have e : i + 1 - a.length = (i - a.length) + 1 := by omega
      have hl : (pad a i).length = i := by simp [pad_length]; omega
      rw [e, List.replicate_succ', ← List.append_assoc]
      change ((pad a i) ++ [default]).set i x = _
      have := set_mid (pad a i) [] default x
      rw [hl] at this
      rw [this, List.take_of_length_le (by omega)]
  · rename_i hc
    have hpad : pad a i = a := pad_le a (by omega)
    have hlt : i < a.length := by omega
    rw [hpad]
    have key : ∀ (y : α) (r : List α), (a.take i ++ y :: r).set i x = a.take i ++ ([x] ++ r) := by
      intro y r
      have := set_mid (a.take i) r y x
      rwa [List.length_take, Nat.min_eq_left (by omega)] at this
    have htake : ∀ (r : List α), a.take (i + 1) ++ r = a.take i ++ (a[i] :: r) := by
      intro r
      rw [List.take_succ_eq_append_getElem hlt, List.append_assoc]
      rfl
    split at h
    · rename_i hn
      simp only [Out.ok.injEq] at h
      subst h
      subst hn
      unfold copyWithin
      have e1 : (a ++ [default]).take a.length = a := by simp
      rw [e1, List.take_append_of_le_length (by omega)]
      rw [List.drop_eq_nil_of_le (as := a ++ [default]) (by simp; omega), List.append_nil, htake, key]
      rfl
    · split at h
      · simp only [Out.ok.injEq] at h
        subst h
        unfold copyWithin
        rw [List.take_length, ← List.append_assoc, List.take_append_of_le_length (by simp; omega),
          List.take_of_length_le (by simp; omega), htake, key]
      · simp only [Out.ok.injEq] at h
        subst h
        rw [List.drop_eq_nil_of_le (by omega)]
        have := htake []
        rw [List.append_nil] at this
        rw [this, key]

theorem spliceOne_ok (a : List α) (i n : Nat) (x : α) (h : max i a.length + 1 ≤ maxLen) :
    ∃ b, spliceOne a i n x = .ok b := by
  unfold spliceOne
  simp only
  split
  · rw [if_neg (by omega)]; exact ⟨_, rfl⟩
  · split
    · exact ⟨_, rfl⟩
    · split <;> exact ⟨_, rfl⟩

/-- The elements that `set_index2` puts in. -/
def Src.raw : Src α → List α
  | .arr v => v
  | .conv x _ => [x]
  | .one x => [x]

theorem splice_eq (a : List α) (i n : Nat) (v : Src α) {b : List α}
    (h : splice a i n v = .ok b) : b = (pad a i).take i ++ (v.raw ++ a.drop (i + n)) := by
  cases v <;> simp only [splice] at h
  · exact spliceMany_eq _ _ _ _ h
  · exact spliceOne_eq _ _ _ _ h
  · exact spliceOne_eq _ _ _ _ h

theorem splice_ok (a : List α) (i n : Nat) (v : Src α) (h : max i a.length + v.raw.length ≤ maxLen) :
    splice a i n v = .ok ((pad a i).take i ++ (v.raw ++ a.drop (i + n))) := by
  have : ∃ b, splice a i n v = .ok b := by
    cases v <;> simp only [splice]
    · exact spliceMany_ok _ _ _ _ h
    · exact spliceOne_ok _ _ _ _ h
    · exact spliceOne_ok _ _ _ _ h
  obtain ⟨b, hb⟩ := this
  rw [hb, splice_eq _ _ _ _ hb]

theorem splice_raise (a : List α) (i n : Nat) (v : Src α) (e : Err) : splice a i n v ≠ .raise e := by
  cases v <;> simp only [splice, spliceMany, spliceOne] <;> (repeat' split) <;> simp

end Verif.Arr
