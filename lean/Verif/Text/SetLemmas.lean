import Verif.Text.SetModel
import Mathlib.Tactic.SplitIfs
import Mathlib.Data.Nat.Bitwise
import Mathlib.Tactic.Linarith

/-! Lemmas about sets of characters. -/

namespace Verif.Text

theorem bit_has (w b : Nat) : ((w &&& (1 <<< (b &&& 63))) != 0) = w.testBit (b % 64) := by
  have h63 : b &&& 63 = b % 64 := Nat.and_two_pow_sub_one_eq_mod b 6
  rw [h63, Nat.one_shiftLeft, Nat.and_two_pow]
  cases w.testBit (b % 64) <;> simp

theorem bit_set (w b j : Nat) :
    (w ||| (1 <<< (b &&& 63))).testBit j = (w.testBit j || decide (b % 64 = j)) := by
  have h63 : b &&& 63 = b % 64 := Nat.and_two_pow_sub_one_eq_mod b 6
  rw [h63, Nat.testBit_or, Nat.one_shiftLeft, Nat.testBit_two_pow]

theorem shift6 (b : Nat) : b >>> 6 = b / 64 := Nat.shiftRight_eq_div_pow b 6

theorem has_set (m : Bitmap) (a b : Nat) (ha : a < 128) (hb : b < 128) :
    (m.set a).has b = (m.has b || decide (a = b)) := by
  have ea : a / 64 = 0 ∨ a / 64 = 1 := by omega
  have eb : b / 64 = 0 ∨ b / 64 = 1 := by omega
  simp only [Bitmap.has, Bitmap.set, shift6, bit_has]
  rcases ea with ea | ea <;> rcases eb with eb | eb <;> simp only [ea, eb] <;>
    simp only [if_true, if_false, Nat.one_ne_zero, bit_set]
  · congr 1
    exact decide_eq_decide.2 ⟨fun h => by omega, fun h => by omega⟩
  · have : ¬a = b := fun h => by subst h; omega
    simp [this]
  · have : ¬a = b := fun h => by subst h; omega
    simp [this]
  · congr 1
    exact decide_eq_decide.2 ⟨fun h => by omega, fun h => by omega⟩

theorem has_foldl (l : List Nat) (m : Bitmap) (b : Nat) (hl : ∀ a ∈ l, a < 128) (hb : b < 128) :
    (l.foldl Bitmap.set m).has b = (m.has b || l.contains b) := by
  induction l generalizing m with
  | nil => simp
  | cons a t ih =>
    have h1 := ih (m.set a) (fun x hx => hl x (List.mem_cons_of_mem _ hx))
    simp only [List.foldl_cons]
    rw [h1, has_set m a b (hl a List.mem_cons_self) hb, List.contains_cons, Bool.or_assoc]
    congr 2
    by_cases h : a = b
    · subst h; simp
    · have h' : ¬b = a := fun e => h e.symm
      rw [decide_eq_false h, beq_eq_false_iff_ne.2 h']

theorem has_ofList (l : List Nat) (b : Nat) (hl : ∀ a ∈ l, a < 128) (hb : b < 128) :
    (Bitmap.ofList l).has b = l.contains b := by
  unfold Bitmap.ofList
  rw [has_foldl l _ b hl hb]
  have : (Bitmap.mk 0 0).has b = false := by
    simp only [Bitmap.has, bit_has]; split_ifs <;> simp
  rw [this, Bool.false_or]

theorem asciiOnly_iff (s : List Nat) : asciiOnly s = true ↔ ∀ c ∈ s, c < 128 := by
  simp [asciiOnly]

/-- what a spec means, read off `expandSpec` -/
def specHas (spec : List Nat) (c : Nat) : Bool :=
  match expandSpec spec with
  | some (l, neg) => l.contains c ^^ neg
  | none => false

theorem contains_filter (l : List Nat) (p : Nat → Bool) (c : Nat) (h : p c = true) :
    (l.filter p).contains c = l.contains c := by
  rw [Bool.eq_iff_iff]
  simp [h]

theorem hasChar_eq {spec : List Nat} {S : Charset} (h : Charset.parse spec = some S) (c : Nat) :
    S.hasChar c = specHas spec c := by
  unfold Charset.parse at h
  split_ifs at h with h0
  · cases h
    subst h0
    rfl
  · cases he : expandSpec spec with
    | none => rw [he] at h; cases h
    | some r =>
      obtain ⟨l, neg⟩ := r
      rw [he] at h
      cases h
      simp only [Charset.hasChar, specHas, he, Bool.false_eq_true, if_false]
      split_ifs with hc
      · rw [has_ofList _ _ (by intro a ha; simpa using (List.mem_filter.1 ha).2) hc,
          contains_filter _ _ _ (by simpa using hc)]
      · rw [contains_filter _ _ _ (by simpa using hc)]

theorem hasByte_eq (S : Charset) (b : Nat) (hb : b < 128) : S.hasByte b = S.hasChar b := by
  simp [Charset.hasByte, Charset.hasChar, hb]

/-- a character is in every one of the sets -/
def inAll (args : List (List Nat)) (c : Nat) : Bool := args.all (specHas · c)

theorem parseAll_has {args : List (List Nat)} {sets : List Charset} (h : parseAll args = some sets)
    (c : Nat) : sets.all (·.hasChar c) = inAll args c := by
  induction args generalizing sets with
  | nil => cases h; rfl
  | cons a t ih =>
    unfold parseAll at h
    cases hp : Charset.parse a with
    | none => rw [hp] at h; cases h
    | some S =>
      rw [hp] at h
      simp only [Option.bind_some] at h
      cases ht : parseAll t with
      | none => rw [ht] at h; cases h
      | some ss =>
        rw [ht] at h
        cases h
        simp only [List.all_cons, inAll]
        rw [hasChar_eq hp, ih ht]
        rfl

theorem parseAll_empty {args : List (List Nat)} {sets : List Charset}
    (h : parseAll args = some sets) : sets.isEmpty = args.isEmpty := by
  cases args with
  | nil => cases h; rfl
  | cons a t =>
    unfold parseAll at h
    cases hp : Charset.parse a with
    | none => rw [hp] at h; cases h
    | some S =>
      rw [hp] at h
      simp only [Option.bind_some] at h
      cases ht : parseAll t with
      | none => rw [ht] at h; cases h
      | some ss => rw [ht] at h; cases h; rfl

theorem member_eq {args : List (List Nat)} {sets : List Charset} (h : parseAll args = some sets)
    {s : List Nat} {c : Nat} (hc : c ∈ s) : member (asciiOnly s) sets c = inAll args c := by
  unfold member
  split_ifs with ha
  · rw [← parseAll_has h]
    have hb := (asciiOnly_iff s).1 ha c hc
    congr 1
    funext S
    exact hasByte_eq S c hb
  · exact parseAll_has h c

/-- the argument lists `delete` and `count` accept -/
def okArgs (args : List (List Nat)) : Bool := !args.isEmpty && (parseAll args).isSome

theorem delete_eq (s : List Nat) (args : List (List Nat)) :
    delete s args = if okArgs args then some (s.filter fun c => !inAll args c) else none := by
  unfold delete okArgs
  cases args with
  | nil => rfl
  | cons a t =>
    rw [if_neg (by simp)]
    cases hp : parseAll (a :: t) with
    | none => rfl
    | some sets =>
      simp only [Option.map_some, List.isEmpty_cons, Bool.not_false, Option.isSome_some,
        Bool.and_self, if_true]
      congr 1
      apply List.filter_congr
      intro c hc
      rw [member_eq hp hc]

theorem countLoop_eq (p : Nat → Bool) (s : List Nat) (n : Nat) :
    countLoop p s n = n + s.countP p := by
  induction s generalizing n with
  | nil => rfl
  | cons c t ih =>
    rw [countLoop, ih, List.countP_cons]
    split_ifs <;> omega

theorem count_eq (s : List Nat) (args : List (List Nat)) :
    count s args = if okArgs args then some (s.countP (inAll args)) else none := by
  unfold count okArgs
  cases args with
  | nil => rfl
  | cons a t =>
    rw [if_neg (by simp)]
    cases hp : parseAll (a :: t) with
    | none => rfl
    | some sets =>
      simp only [Option.map_some, List.isEmpty_cons, Bool.not_false, Option.isSome_some,
        Bool.and_self, if_true, countLoop_eq, Nat.zero_add]
      congr 1
      apply List.countP_congr
      intro c hc
      rw [member_eq hp hc]

theorem squeezeLoop_congr {p q : Nat → Bool} (s : List Nat) (prev : Option Nat)
    (h : ∀ c ∈ s, p c = q c) : squeezeLoop p prev s = squeezeLoop q prev s := by
  induction s generalizing prev with
  | nil => rfl
  | cons c t ih =>
    have ht := fun pr => ih pr fun x hx => h x (List.mem_cons_of_mem _ hx)
    simp only [squeezeLoop, h c List.mem_cons_self, ht]

theorem squeeze_eq (s : List Nat) (args : List (List Nat)) :
    squeeze s args = if (parseAll args).isSome then some (squeezeLoop (inAll args) none s)
      else none := by
  unfold squeeze
  cases hp : parseAll args with
  | none => rfl
  | some sets =>
    simp only [Option.map_some, Option.isSome_some, if_true]
    congr 1
    apply squeezeLoop_congr
    intro c hc
    rw [member_eq hp hc, parseAll_empty hp]
    cases args with
    | nil => rfl
    | cons a t => simp

/-! ## tr -/

theorem asciiDelete_eq (fs : List Nat) (neg sq : Bool) (s : List Nat) (hf : ∀ a ∈ fs, a < 128)
    (hs : ∀ a ∈ s, a < 128) (last : Option Nat) :
    asciiDeleteLoop (Bitmap.ofList fs) neg s =
      trLoop (TrMap.delete fs neg).out (fun c => [c]) (fun r => [r]) sq last s := by
  induction s generalizing last with
  | nil => rfl
  | cons b t ih =>
    have hb := hs b List.mem_cons_self
    have iht := fun l => ih (fun x hx => hs x (List.mem_cons_of_mem _ hx)) l
    rw [asciiDeleteLoop, trLoop, has_ofList fs b hf hb]
    simp only [TrMap.out]
    cases hc : fs.contains b <;> cases neg <;> simp [iht none]

theorem asciiNeg_eq (fs : List Nat) (r : Nat) (sq : Bool) (s : List Nat) (hf : ∀ a ∈ fs, a < 128)
    (hs : ∀ a ∈ s, a < 128) (last : Option Nat) :
    asciiNegLoop (Bitmap.ofList fs) r sq last s =
      trLoop (TrMap.negated fs r).out (fun c => [c]) (fun r => [r]) sq last s := by
  induction s generalizing last with
  | nil => rfl
  | cons b t ih =>
    have hb := hs b List.mem_cons_self
    have iht := fun l => ih (fun x hx => hs x (List.mem_cons_of_mem _ hx)) l
    rw [asciiNegLoop, trLoop, has_ofList fs b hf hb]
    simp only [TrMap.out]
    cases hc : fs.contains b <;> simp [iht]

theorem fillTable_lookup (ts : List Nat) (l : List Nat) (i : Nat) (tb : Nat → Option Nat)
    (m : List (Nat × Nat)) (h : ∀ b, tb b = m.lookup b) (b : Nat) :
    fillTable ts i l tb b = (insertLoop ts i l m).lookup b := by
  induction l generalizing i tb m with
  | nil => exact h b
  | cons c t ih =>
    rw [fillTable, insertLoop]
    apply ih
    intro x
    rw [List.lookup_cons]
    by_cases hx : x = c
    · subst hx; simp
    · rw [if_neg hx, h x]
      have : (x == c) = false := by simpa using hx
      rw [this]

theorem asciiMap_eq (m : List (Nat × Nat)) (tb : Nat → Option Nat) (h : ∀ b, tb b = m.lookup b)
    (sq : Bool) (s : List Nat) (last : Option Nat) :
    asciiMapLoop tb sq last s =
      trLoop (TrMap.map m).out (fun c => [c]) (fun r => [r]) sq last s := by
  induction s generalizing last with
  | nil => rfl
  | cons b t ih =>
    rw [asciiMapLoop, trLoop, h b]
    simp only [TrMap.out]
    cases hl : m.lookup b with
    | none => simp [ih]
    | some x => simp [ih]

/-- the fast path of `tr` never shows -/
theorem tr_eq (s from_ to_ : List Nat) (sq : Bool) : tr s from_ to_ sq = trChars s from_ to_ sq := by
  unfold tr asciiTr
  cases hs : asciiOnly s with
  | false => rfl
  | true =>
    have hs' := (asciiOnly_iff s).1 hs
    simp only [Bool.not_true, Bool.false_eq_true, if_false]
    cases hf : expandSpec from_ with
    | none => simp [trChars, buildMap, hf]
    | some r =>
      obtain ⟨fs, neg⟩ := r
      simp only
      cases ha : asciiOnly fs with
      | false => simp
      | true =>
        have ha' := (asciiOnly_iff fs).1 ha
        simp only [Bool.not_true, Bool.false_eq_true, if_false]
        by_cases ht : to_ = []
        · simp only [ht, if_true, trChars, buildMap, hf, Option.bind_some, Option.map_some]
          rw [asciiDelete_eq fs neg sq s ha' hs' none]
        · rw [if_neg ht]
          cases he : expandSpec to_ with
          | none => simp [trChars, buildMap, hf, he, ht]
          | some r =>
            obtain ⟨ts, n2⟩ := r
            simp only
            cases hta : asciiOnly ts with
            | false => simp
            | true =>
              simp only [Bool.not_true, Bool.false_eq_true, if_false]
              cases neg with
              | true =>
                simp only [if_true, trChars, buildMap, hf, he, ht, if_false, Option.bind_some,
                  Option.map_some]
                rw [asciiNeg_eq fs _ sq s ha' hs' none]
              | false =>
                simp only [if_false, trChars, buildMap, hf, he, ht, Option.bind_some,
                  Option.map_some, Bool.false_eq_true]
                rw [asciiMap_eq (insertLoop ts 0 fs []) (fillTable ts 0 fs fun _ => none)
                  (fun b => fillTable_lookup ts fs 0 (fun _ => none) [] (fun _ => rfl) b)
                  sq s none]

theorem trLoop_flag {α β : Type} (f : α → Out) (k : α → List β) (rp : Nat → List β) (sq : Bool)
    (s : List α) (last : Option Nat) :
    (trLoop f k rp sq last s).2 = s.any fun c => f c != .keep := by
  induction s generalizing last with
  | nil => rfl
  | cons c t ih =>
    rw [trLoop, List.any_cons]
    cases hf : f c <;> simp [ih]

/-- the characters a map touches are the members of its spec -/
theorem buildMap_touches {from_ to_ : List Nat} {m : TrMap} (h : buildMap from_ to_ = some m)
    (c : Nat) : (m.out c != .keep) = specHas from_ c := by
  unfold buildMap at h
  cases hf : expandSpec from_ with
  | none => rw [hf] at h; cases h
  | some r =>
    obtain ⟨fs, neg⟩ := r
    rw [hf] at h
    simp only [Option.bind_some] at h
    simp only [specHas, hf]
    by_cases ht : to_ = []
    · rw [if_pos ht] at h
      cases h
      simp only [TrMap.out]
      cases fs.contains c <;> cases neg <;> rfl
    · rw [if_neg ht] at h
      cases he : expandSpec to_ with
      | none => rw [he] at h; cases h
      | some r =>
        obtain ⟨ts, n2⟩ := r
        rw [he] at h
        simp only [Option.bind_some] at h
        split_ifs at h with hn
        · cases h
          simp only [TrMap.out, hn]
          cases hc : fs.contains c <;> simp
        · cases h
          simp only [TrMap.out]
          have key : ∀ (l : List Nat) i (m : List (Nat × Nat)),
              ((insertLoop ts i l m).lookup c).isSome = (l.contains c || (m.lookup c).isSome) := by
            intro l
            induction l with
            | nil => intro i m; simp [insertLoop]
            | cons a t ih =>
              intro i m
              rw [insertLoop, ih, List.lookup_cons, List.contains_cons]
              by_cases hx : c = a
              · subst hx; simp
              · have : (c == a) = false := by simpa using hx
                rw [this]; simp
          have k := key fs 0 []
          simp only [List.lookup_nil, Option.isSome_none, Bool.or_false] at k
          have hn' : neg = false := by simpa using hn
          rw [hn', Bool.xor_false, ← k]
          cases List.lookup c (insertLoop ts 0 fs []) <;> rfl

end Verif.Text
