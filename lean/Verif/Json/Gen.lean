import Verif.Json.Values

/-
  What the generator writes is JSON.
-/
namespace Verif.Json

theorem ofNat_toNat' {n : Nat} (h : n.isValidChar) : (Char.ofNat n).toNat = n := by
  unfold Char.ofNat
  rw [dif_pos h]
  rfl

theorem mem_escapes {e c : Char} (h : (e, c) ∈ escapes) {t s : List Char} (hs : JStr t s) :
    JStr (['\\', e] ++ t) (c :: s) := JStr.esc h hs

theorem hexChar_hex {n : Nat} (h : n < 16) : Hex (hexChar n) n := by
  unfold hexChar
  by_cases hn : n < 10
  · rw [if_pos hn]
    have hv : (Char.ofNat (48 + n)).toNat = 48 + n := by
      apply ofNat_toNat'
      unfold Nat.isValidChar; omega
    have := Hex.num (c := Char.ofNat (48 + n)) (by omega) (by omega)
    rw [hv] at this
    rw [show 48 + n - 48 = n by omega] at this
    exact this
  · rw [if_neg hn]
    have hv : (Char.ofNat (87 + n)).toNat = 87 + n := by
      apply ofNat_toNat'
      unfold Nat.isValidChar; omega
    have := Hex.low (c := Char.ofNat (87 + n)) (by omega) (by omega)
    rw [hv, show 87 + n - 97 + 10 = n by omega] at this
    exact this

theorem genChar_str (c : Char) {t s : List Char} (h : JStr t s) : JStr (genChar c ++ t) (c :: s) := by
  unfold genChar
  split_ifs with h1 h2 h3 h4 h5 h6 h7 h8
  · subst h1; exact mem_escapes (by decide) h
  · subst h2; exact mem_escapes (by decide) h
  · subst h3; exact mem_escapes (by decide) h
  · subst h4; exact mem_escapes (by decide) h
  · subst h5; exact mem_escapes (by decide) h
  · subst h6; exact mem_escapes (by decide) h
  · subst h7; exact mem_escapes (by decide) h
  · have hx := Hex4.mk (hexChar_hex (n := 0) (by decide)) (hexChar_hex (n := 0) (by decide))
      (hexChar_hex (n := c.toNat / 16) (by omega)) (hexChar_hex (n := c.toNat % 16) (by omega))
    rw [show 0 * 4096 + 0 * 256 + c.toNat / 16 * 16 + c.toNat % 16 = c.toNat by omega] at hx
    exact JStr.uni hx h
  · exact JStr.plain h1 h2 (by omega) h

theorem genString_str (s : List Char) : JStr (s.flatMap genChar) s := by
  induction s with
  | nil => exact .nil
  | cons c s ih => rw [List.flatMap_cons]; exact genChar_str c ih

/-! ### Integers -/

theorem place_snoc (t : List Char) (c : Char) : place (t ++ [c]) = place t * 10 + (c.toNat - 48) := by
  induction t with
  | nil => simp [place]
  | cons d t ih =>
    simp only [List.cons_append, place, ih, List.length_append, List.length_cons, List.length_nil, Nat.pow_succ]
    rw [Nat.add_mul, Nat.mul_assoc, ← Nat.pow_succ]
    simp only [Nat.pow_succ]
    omega

theorem digit_toNat {n : Nat} (h : n < 10) : (Char.ofNat (48 + n)).toNat = 48 + n := by
  apply ofNat_toNat'
  unfold Nat.isValidChar; omega

theorem dec_ok (n : Nat) : NatTok (dec n) ∧ place (dec n) = n ∧ ((dec n).head? = some '0' → n = 0) := by
  induction n using Nat.strongRecOn with
  | ind n ih =>
    rw [dec]
    by_cases h : n < 10
    · rw [if_pos h]
      have hv := digit_toNat h
      refine ⟨⟨⟨by simp, ?_⟩, ?_⟩, ?_, ?_⟩
      · intro c hc
        rw [List.mem_singleton.mp hc]
        unfold Dig; omega
      · intro he
        simp only [List.head?_cons, Option.some.injEq] at he
        rw [he]
      · simp only [place, List.length_nil, hv]; omega
      · intro he
        simp only [List.head?_cons, Option.some.injEq] at he
        have h0 : ('0' : Char).toNat = 48 := rfl
        rw [he] at hv; omega
    · rw [if_neg h]
      obtain ⟨⟨⟨h1, h2⟩, h3⟩, h4, h5⟩ := ih (n / 10) (by omega)
      have hm : n % 10 < 10 := by omega
      have hv := digit_toNat hm
      have hh : (dec (n / 10) ++ [Char.ofNat (48 + n % 10)]).head? = (dec (n / 10)).head? := by
        cases hd : dec (n / 10) with
        | nil => exact absurd hd h1
        | cons => rfl
      refine ⟨⟨⟨by simp, ?_⟩, ?_⟩, ?_, ?_⟩
      · intro c hc
        rcases List.mem_append.mp hc with hc | hc
        · exact h2 c hc
        · rw [List.mem_singleton.mp hc]; unfold Dig; omega
      · intro he
        rw [hh] at he
        have := h5 he
        omega
      · rw [place_snoc, h4, hv]; omega
      · intro he
        rw [hh] at he
        have := h5 he
        omega

theorem intDec_tok (i : Int) : IntTok (intDec i) i := by
  unfold intDec
  obtain ⟨h1, h2, -⟩ := dec_ok i.natAbs
  by_cases h : i < 0
  · rw [if_pos h]
    have := IntTok.neg h1
    rw [h2, show -(i.natAbs : Int) = i by omega] at this
    exact this
  · rw [if_neg h]
    have := IntTok.pos h1
    rw [h2, show (i.natAbs : Int) = i by omega] at this
    exact this

/-! ### Values -/

/-- What a Ruby value stands for in JSON: a Hash key, and any object JSON does not know,
by its `to_s`. -/
inductive Denotes {F : Type} : RV F → JV F → Prop where
  | nil : Denotes .nil .null
  | bool (b : Bool) : Denotes (.bool b) (.bool b)
  | int (i : Int) : Denotes (.int i) (.int i)
  | flo (f : F) : Denotes (.flo f) (.flo f)
  | str (s : List Char) : Denotes (.str s) (.str s)
  | other (s : List Char) : Denotes (.other s) (.str s)
  | arr0 : Denotes (.arr []) (.arr [])
  | arr {v : RV F} {j : JV F} {xs : List (RV F)} {js : List (JV F)} : Denotes v j → Denotes (.arr xs) (.arr js) →
      Denotes (.arr (v :: xs)) (.arr (j :: js))
  | hash {kvs : List (Key × RV F)} {ps m : List (List Char × JV F)} :
      kvs.map (·.1.tos) = ps.map (·.1) → kvs.length = ps.length →
      (∀ k v p j, ((k, v), (p, j)) ∈ kvs.zip ps → Denotes v j) → Collapsed ps m → Denotes (.hash kvs) (.obj m)

mutual
/-- every Integer inside is small and every Float finite -/
def Small (P : FloatIO) : RV P.F → Prop
  | .nil => True
  | .bool _ => True
  | .int i => -(2 ^ 62) ≤ i ∧ i < 2 ^ 62
  | .flo f => P.isNan f = false ∧ P.isInf f = false
  | .str _ => True
  | .arr xs => SmallL P xs
  | .hash kvs => SmallP P kvs
  | .other _ => True

def SmallL (P : FloatIO) : List (RV P.F) → Prop
  | [] => True
  | v :: r => Small P v ∧ SmallL P r

def SmallP (P : FloatIO) : List (Key × RV P.F) → Prop
  | [] => True
  | (_, v) :: r => Small P v ∧ SmallP P r
end

/-- What is asked of the float routines: a finite Float is written as a JSON number that
reads back as that Float. -/
def FloatOk (P : FloatIO) : Prop :=
  ∀ f, P.isNan f = false → P.isInf f = false → FloTok (P.fmt f) ∧ P.read (P.fmt f) = f

theorem ws_nil : Ws [] := by intro c hc; cases hc

section
variable {F : Type} {N : List Char → JV F → Prop} {S : List Char → List Char → Prop}

theorem items_one {t : List Char} {v : JV F} (h : JText N S t v) : JItems N S t [v] := by
  have := JItems.one ws_nil ws_nil h
  simpa using this

theorem items_cons {t r : List Char} {v : JV F} {vs : List (JV F)} (h : JText N S t v) (hr : JItems N S r vs) :
    JItems N S (t ++ ',' :: r) (v :: vs) := by
  have := JItems.cons ws_nil ws_nil h hr
  simpa using this

theorem pairs_one {b s t : List Char} {v : JV F} (hs : S b s) (h : JText N S t v) :
    JPairs N S ('"' :: (b ++ '"' :: ':' :: t)) [(s, v)] := by
  have := JPairs.one ws_nil ws_nil ws_nil ws_nil hs h
  simpa using this

theorem pairs_cons {b s t r : List Char} {v : JV F} {kvs : List (List Char × JV F)} (hs : S b s) (h : JText N S t v)
    (hr : JPairs N S r kvs) : JPairs N S ('"' :: (b ++ '"' :: ':' :: (t ++ ',' :: r))) ((s, v) :: kvs) := by
  have := JPairs.cons ws_nil ws_nil ws_nil ws_nil hs h hr
  simpa using this
end

mutual
theorem gen_text {P : FloatIO} (hP : FloatOk P) : ∀ (v : RV P.F) {j : JV P.F}, Denotes v j → Small P v →
    JText (Num64 P) JStr (gen P v) j
  | .nil, j, hd, _ => by cases hd; rw [gen]; exact .null
  | .bool b, j, hd, _ => by
    cases hd
    cases b
    · rw [gen]; exact .fals
    · rw [gen]; exact .tru
  | .int i, j, hd, hs => by
    cases hd
    unfold Small at hs
    have : isFixnum i = true := by
      unfold isFixnum
      simp only [Bool.and_eq_true, decide_eq_true_eq]; exact hs
    rw [gen, if_pos this]
    exact .num (.int (intDec_tok i) (by omega) (by omega))
  | .flo f, j, hd, hs => by
    cases hd
    unfold Small at hs
    obtain ⟨h1, h2⟩ := hP f hs.1 hs.2
    rw [gen, genFloat, if_neg (by simp [hs.1]), if_neg (by simp [hs.2])]
    have := JText.num (S := JStr) (Num64.flo (P := P) h1)
    rw [h2] at this
    exact this
  | .str s, j, hd, _ => by cases hd; rw [gen]; exact .str (genString_str s)
  | .other s, j, hd, _ => by cases hd; rw [gen]; exact .str (genString_str s)
  | .arr [], j, hd, _ => by cases hd; rw [gen, genItems]; exact .arr0 ws_nil
  | .arr (v :: xs), j, hd, hs => by
    unfold Small at hs
    cases hd with
    | arr h1 h2 =>
      rw [gen]
      exact .arr (gen_items hP (v :: xs) (by simp) (.arr h1 h2) hs)
  | .hash kvs, j, hd, hs => by
    unfold Small at hs
    cases hd with
    | hash h1 h2 h3 h4 =>
      rename_i ps m
      rw [gen]
      cases kvs with
      | nil =>
        cases ps with
        | nil =>
          have : m = [] := by
            have := h4.1
            simpa using this
          rw [this, genPairs]
          exact .obj0 ws_nil
        | cons => cases h2
      | cons kv kvs => exact .obj (gen_pairs hP (kv :: kvs) (by simp) h1 h2 h3 hs) h4

theorem gen_items {P : FloatIO} (hP : FloatOk P) : ∀ (xs : List (RV P.F)) {js : List (JV P.F)}, xs ≠ [] →
    Denotes (.arr xs) (.arr js) → SmallL P xs → JItems (Num64 P) JStr (genItems P xs) js
  | [], _, h, _, _ => absurd rfl h
  | [v], js, _, hd, hs => by
    unfold SmallL at hs
    cases hd with
    | arr h1 h2 =>
      cases h2
      rw [genItems]
      exact items_one (gen_text hP v h1 hs.1)
  | v :: w :: r, js, _, hd, hs => by
    unfold SmallL at hs
    cases hd with
    | arr h1 h2 =>
      rw [genItems]
      exact items_cons (gen_text hP v h1 hs.1) (gen_items hP (w :: r) (by simp) h2 hs.2)

theorem gen_pairs {P : FloatIO} (hP : FloatOk P) : ∀ (kvs : List (Key × RV P.F)) {ps : List (List Char × JV P.F)},
    kvs ≠ [] → kvs.map (·.1.tos) = ps.map (·.1) → kvs.length = ps.length →
    (∀ k v p j, ((k, v), (p, j)) ∈ kvs.zip ps → Denotes v j) → SmallP P kvs →
    JPairs (Num64 P) JStr (genPairs P kvs) ps
  | [], _, h, _, _, _, _ => absurd rfl h
  | [(k, v)], ps, _, h1, h2, h3, hs => by
    unfold SmallP at hs
    match ps, h1, h2, h3 with
    | [(p, j)], h1, h2, h3 =>
      simp only [List.map_cons, List.map_nil, List.cons.injEq, and_true] at h1
      rw [genPairs]
      have := pairs_one (genString_str k.tos) (gen_text hP v (h3 k v p j (by simp)) hs.1)
      rw [h1] at this ⊢
      simpa [genString] using this
  | (k, v) :: w :: r, ps, _, h1, h2, h3, hs => by
    unfold SmallP at hs
    match ps, h1, h2, h3 with
    | (p, j) :: ps, h1, h2, h3 =>
      simp only [List.map_cons, List.cons.injEq] at h1
      simp only [List.length_cons, Nat.add_right_cancel_iff] at h2
      rw [genPairs]
      have := pairs_cons (genString_str k.tos) (gen_text hP v (h3 k v p j (by simp)) hs.1)
        (gen_pairs hP (w :: r) (ps := ps) (by simp) (by simpa using h1.2) (by simpa using h2)
          (fun k' v' p' j' hm => h3 k' v' p' j' (by rw [List.zip_cons_cons]; exact List.mem_cons_of_mem _ hm)) hs.2)
      rw [h1.1] at this ⊢
      simpa [genString] using this
end

end Verif.Json
