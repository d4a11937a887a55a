import Verif.Marshal.Eats
import Verif.Marshal.Trunc

/-! # Every dump is one datum (helper lemmas) -/

namespace Verif.Marshal

variable {E : Env} {H : List Obj}

/-- What it writes starts with a byte other than `T` and `F`. -/
def FB (f : Wr) : Prop := ∀ w bs w', f w = some (bs, w') → ∃ t l, bs = t :: l ∧ t ≠ 84 ∧ t ≠ 70

theorem FB.tf {f : Wr} (h : FB f) : TFW f := by
  intro w bs w' hw
  obtain ⟨t, l, h1, h2, h3⟩ := h w bs w' hw
  exact ⟨t, l, h1, fun h => by rcases h with h | h <;> contradiction⟩

theorem FB.lit {t : UInt8} {l : List UInt8} (h : t ≠ 84 ∧ t ≠ 70) : FB (lit (t :: l)) := by
  intro w bs w' hw
  obtain ⟨rfl, -⟩ := lit_some hw
  exact ⟨t, l, rfl, h⟩

theorem FB.cat {f : Wr} {fs : List Wr} (h : FB f) : FB (cat (f :: fs)) := by
  intro w bs w' hw
  obtain ⟨b, w1, c, h1, h2, rfl⟩ := cat_cons hw
  obtain ⟨t, l, rfl, h3⟩ := h _ _ _ h1
  exact ⟨t, l ++ c, rfl, h3⟩

theorem FB.none : FB (fun _ => none) := by intro w bs w' h; simp at h

theorem FB.sym (s : Sym) : FB (symW s) := by
  intro w bs w' hw
  simp only [symW, Option.some.injEq, Prod.mk.injEq] at hw
  rw [← hw.1]
  unfold wSym
  split
  · exact ⟨59, _, rfl, by decide⟩
  · split
    · exact ⟨58, _, rfl, by decide⟩
    · exact ⟨73, _, rfl, by decide⟩

theorem FB.exts {fs : List Wr} (h : FB (Marshal.cat fs)) (l : List Sym) :
    FB (Marshal.cat (l.map (fun m => Marshal.cat [Marshal.lit [101], symW m]) ++ fs)) := by
  cases l with
  | nil => exact h
  | cons m l => exact FB.cat (FB.cat (FB.lit (by decide)))

theorem FB.heads {core : Wr} (h : FB core) (o : Obj) : FB (Marshal.cat (wHead o ++ [core])) := by
  unfold wHead
  rw [List.append_assoc]
  refine FB.exts ?_ _
  cases o.cls with
  | none => exact FB.cat h
  | some c => exact FB.cat (FB.cat (FB.lit (by decide)))

theorem FB.wrapI {dv : Val → Wr} {o : Obj} {core : Wr} (h : FB core) : FB (wrapI dv o core) := by
  unfold Marshal.wrapI
  split
  · exact h.heads o
  · exact FB.cat (FB.lit (by decide))

theorem FB.wObj {dv : Val → Wr} {o : Obj} : FB (wObj E dv o) := by
  unfold Marshal.wObj
  split
  · unfold wStr
    split
    · exact (FB.lit (by decide)).wrapI
    · exact FB.cat (FB.lit (by decide))
  · exact FB.wrapI (FB.cat (FB.lit (by decide)))
  · refine FB.wrapI ?_
    unfold wHashCore
    rename_i ps d i _
    cases i with
    | true => exact FB.cat (FB.lit (by decide))
    | false =>
      cases d with
      | none => exact FB.cat (FB.lit (t := 123) (by decide))
      | some v => exact FB.cat (FB.lit (t := 125) (by decide))
  · exact FB.lit (by decide)
  · exact FB.lit (by decide)
  · split
    · exact FB.none
    · exact FB.exts (FB.cat (FB.lit (by decide))) _
  · split
    · exact FB.none
    · split
      · rw [List.append_assoc]
        exact FB.exts (FB.cat (FB.lit (by decide))) _
      · exact FB.cat (FB.lit (by decide))
  · exact FB.cat (FB.lit (by decide))
  · exact FB.cat (FB.lit (by decide))

theorem FB.slot {k : Val} {f : Wr} (hf : FB f) : FB (withSlot k f) := by
  intro w bs w' h
  unfold withSlot at h
  split at h
  · simp only [Option.some.injEq, Prod.mk.injEq] at h
    exact ⟨64, _, h.1.symm, by decide⟩
  · exact hf _ _ _ h

theorem TFW.dumpV (n : Nat) (v : Val) : TFW (dumpV E H n v) := by
  cases n with
  | zero => exact FB.none.tf
  | succ n =>
    cases v with
    | nil => exact (FB.lit (by decide)).tf
    | tru =>
      intro w bs w' hw
      obtain ⟨rfl, -⟩ := lit_some hw
      exact ⟨84, [], rfl, fun _ => rfl⟩
    | fls =>
      intro w bs w' hw
      obtain ⟨rfl, -⟩ := lit_some hw
      exact ⟨70, [], rfl, fun _ => rfl⟩
    | fix k =>
      simp only [Marshal.dumpV]
      split
      · exact (FB.lit (by decide)).tf
      · exact (FB.lit (by decide)).tf
    | flo b => exact (FB.slot (FB.lit (by decide))).tf
    | sym s => exact (FB.sym s).tf
    | cls name =>
      simp only [Marshal.dumpV]
      refine (FB.slot ?_).tf
      split
      · refine FB.lit ?_
        split <;> decide
      · exact FB.cat (FB.lit (by decide))
    | ref a =>
      simp only [Marshal.dumpV]
      split
      · exact FB.none.tf
      · exact (FB.slot FB.wObj).tf

theorem EatsV.fail : EatsV E (fun _ => none) := by intro F w bs w' h; simp at h

theorem EatsV.big (n : Int) : EatsV E (Marshal.lit (wBig n)) := by
  let ds := natLE n.natAbs ++ (if (natLE n.natAbs).length % 2 ≠ 0 then [0] else [])
  let k := ((natLE n.natAbs).length + 1) / 2
  have hwb : wBig n = 108 :: ([if n < 0 then 45 else 43] ++ (wLen k ++ ds)) := by
    simp [wBig, k, ds]
  have hdl : ds.length = k * 2 := by
    simp only [ds, k]
    by_cases h : (natLE n.natAbs).length % 2 ≠ 0
    · rw [if_pos h]; simp only [List.length_append, List.length_singleton]; omega
    · rw [if_neg h]; simp only [List.append_nil]; omega
  rw [hwb]
  refine EatsV.lit (Eats.tag fun F => ?_)
  show Eats0 readBig _
  unfold readBig
  refine .bind (Eats.byte _).weak fun sg => ?_
  refine Eats.count (Q := fun _ => True) (k := k) (by omega) fun hk => ?_
  have hk' : k * 2 % 2 ^ 64 = ds.length := by omega
  rw [hk']
  refine .fin (b := ds) (Eats.bytes ds).weak fun bs => ?_
  refine .fst ?_ fun v => .fst (.pushObj _) fun _ => .pure _
  generalize (if sg = 45 then -(leNat bs : Int) else (leNat bs : Int)) = z
  unfold mkInt
  split
  · exact .pure _
  · exact .alloc _

theorem EatsV.float (b : UInt64) : EatsV E (Marshal.lit (wFloat E b)) := by
  refine EatsV.lit (Eats.tag fun F => ?_)
  show Eats0 (readFloat E) (wLen (E.txt b).length ++ E.txt b)
  have := Eats.lenBytes (Q := fun _ => True) (bs := E.txt b) (c := []) (f := fun bs =>
    match E.num (bs.takeWhile (· ≠ 0)) with
    | none => raise
    | some b => do
      let v ← mkFloat E b
      pushObj v
      pure v) ?_
  · rw [List.append_nil] at this
    exact this
  · cases E.num ((E.txt b).takeWhile (· ≠ 0)) with
    | none => exact .raise
    | some b =>
      refine .fst ?_ fun v => .fst (.pushObj _) fun _ => .pure _
      unfold mkFloat
      split
      · exact .pure _
      · exact .alloc _

theorem EatsV.slot {k : Val} {f : Wr} (hf : EatsV E f) : EatsV E (withSlot k f) := by
  intro F w bs w' h
  unfold withSlot at h
  split at h
  · simp only [Option.some.injEq, Prod.mk.injEq] at h
    rw [← h.1]
    exact Eats.tag (t := 64) (fun F => .getObj _) F
  · exact hf F _ _ _ h

theorem classRef_eats (t : UInt8) (ht : t = 109 ∨ t = 99) (name : List UInt8) (F : Nat) :
    Eats0 (readV E F) (t :: wLen name.length ++ name) := by
  refine Eats.tag (fun F => ?_) F
  have key : ∀ m c, Eats0 (readClassRef E m c) (wLen name.length ++ name) := by
    intro m c
    unfold readClassRef
    have := Eats.lenBytes (Q := fun _ => True) (bs := name) (c := []) (f := fun bs =>
      match E.kind bs with
      | none => raise
      | some k =>
        if (if k = .module then m else c) then do
          pushObj (Val.cls bs)
          pure (Val.cls bs)
        else raise) ?_
    · rw [List.append_nil] at this
      exact this
    · cases E.kind name with
      | none => exact .raise
      | some k =>
        by_cases hb : (if k = .module then m else c) = true
        · simp only [hb, if_true]
          exact .fst (.pushObj _) fun _ => .pure _
        · simp only [hb]
          exact .raise
  rcases ht with rfl | rfl
  · exact key _ _
  · exact key _ _

theorem tag_starts {t : UInt8} {l : List UInt8} (ht : t = 109 ∨ t = 99) : Starts (cat [Marshal.lit (t :: l)]) := by
  refine Starts.cat (Starts.lit ?_)
  rcases ht with rfl | rfl <;> decide

theorem EatsV.wObj {dv : Val → Wr} {o : Obj} (hd : ∀ v, EatsV E (dv v)) (ht : ∀ v, TFW (dv v)) (hp : ∀ v, Pos (dv v)) :
    EatsV E (wObj E dv o) := by
  unfold Marshal.wObj
  split
  · exact .str hd ht
  · exact .wrapI (EatsV.arr hd hp) (Starts.cat (Starts.lit (by decide))) hd ht
  · rename_i ps d i _
    refine .wrapI (EatsV.hash hd hp) ?_ hd ht
    unfold wHashCore
    cases i with
    | true => exact Starts.cat (Starts.lit (by decide))
    | false =>
      cases d with
      | none => exact Starts.cat (Starts.lit (t := 123) (by decide))
      | some v => exact Starts.cat (Starts.lit (t := 125) (by decide))
  · exact .big _
  · exact .float _
  · split
    · exact .fail
    · rename_i c _
      refine EatsV.exts ?_ _
      have := EatsV.obj (E := E) (dv := dv) (c := c) (Entry.pairs (ps := o.ivars) hd ht)
      rw [wPairs_length] at this
      refine this.congr fun w => ?_
      exact cat_flat [Marshal.lit [111], symW c] (Marshal.lit (wLen o.ivars.length) :: wPairs dv o.ivars) w
  · rename_i ms _
    split
    · exact .fail
    · rename_i c _
      have hc : EatsV E (cat (o.ext.map (fun m => cat [Marshal.lit [101], symW m]) ++
          [Marshal.lit [83], symW c, Marshal.lit (wLen ms.length)] ++ wPairs dv ms)) := by
        rw [List.append_assoc]
        refine EatsV.exts ?_ _
        have := EatsV.struct (E := E) (c := c) (Entry.pairs (ps := ms) hd ht)
        rw [wPairs_length] at this
        exact this
      split
      · exact hc
      · have hst : Starts (cat [cat (o.ext.map (fun m => cat [Marshal.lit [101], symW m]) ++
            [Marshal.lit [83], symW c, Marshal.lit (wLen ms.length)] ++ wPairs dv ms)]) := by
          refine Starts.cat ?_
          cases o.ext with
          | nil => exact Starts.cat (Starts.lit (by decide))
          | cons m l => exact Starts.cat (Starts.cat (Starts.lit (by decide)))
        have := EatsV.wrap hc.one hst (Entry.pairs (ps := o.ivars) hd ht)
        rw [wPairs_length] at this
        refine this.congr fun w => ?_
        exact cat_flat [Marshal.lit [73], _] (Marshal.lit (wLen o.ivars.length) :: wPairs dv o.ivars) w
  · rename_i b e x _
    have hx : EatsV E (Marshal.lit [if x then 84 else 70]) ∧ TFW (Marshal.lit [if x then 84 else 70]) := by
      refine ⟨EatsV.lit (tf_eats _ (by cases x <;> simp)), ?_⟩
      intro w bs w' hw
      obtain ⟨rfl, -⟩ := lit_some hw
      exact ⟨_, [], rfl, fun _ => rfl⟩
    have := EatsV.obj (E := E) (dv := dv) (c := asciiSym nRange) (es := [cat [symW (asciiSym nExcl), Marshal.lit [if x then 84 else 70]],
      cat [symW (asciiSym nBegin), dv b], cat [symW (asciiSym nEnd), dv e]]) (by
        intro f hf
        simp only [List.mem_cons, List.not_mem_nil, or_false] at hf
        rcases hf with rfl | rfl | rfl
        · exact .pair hx.1 hx.2
        · exact .pair (hd _) (ht _)
        · exact .pair (hd _) (ht _))
    refine this.congr fun w => ?_
    unfold wRange
    refine congrFun (cat_congr (cat_congr (cat_congr ?_))) w
    rw [cat_two]
    refine cat_congr ?_
    rw [cat_two]
    refine cat_congr ?_
    exact cat_two _ _ []
  · exact .regexp hd ht

theorem EatsV.dumpV (n : Nat) : ∀ v, EatsV E (dumpV E H n v) := by
  induction n with
  | zero => intro v; exact .fail
  | succ n ih =>
    intro v
    cases v with
    | nil => exact EatsV.lit (Eats.tag fun F => .pure _)
    | tru => exact EatsV.lit (Eats.tag fun F => .pure _)
    | fls => exact EatsV.lit (Eats.tag fun F => .pure _)
    | fix k =>
      simp only [Marshal.dumpV]
      split
      · exact EatsV.lit (Eats.tag fun F => .fin (.fix (by omega)) fun _ => .pure _)
      · exact .big k
    | flo b => exact .slot (.float b)
    | sym s => exact (EatsW.sym s).1
    | cls name =>
      simp only [Marshal.dumpV]
      refine .slot ?_
      generalize htag : (if E.kind name = some .module then (109 : UInt8) else 99) = t
      have ht : t = 109 ∨ t = 99 := by
        rw [← htag]; split <;> simp
      split
      · exact EatsV.lit (classRef_eats t ht name)
      · have := EatsV.wrap (E := E) (fs := [Marshal.lit (t :: wLen name.length ++ name)]) (es := [cat [symW (asciiSym nE), Marshal.lit [84]]])
          (EatsV.lit (classRef_eats t ht name)).one (tag_starts ht) (by
            intro f hf
            simp only [List.mem_singleton] at hf
            subst hf
            refine .pair (EatsV.lit (tf_eats _ (by simp))) ?_
            intro w bs w' hw
            obtain ⟨rfl, -⟩ := lit_some hw
            exact ⟨_, [], rfl, fun _ => rfl⟩)
        refine this.congr fun w => ?_
        simp [cat, Marshal.lit, symW]
    | ref a =>
      simp only [Marshal.dumpV]
      split
      · exact .fail
      · exact .slot (.wObj ih (TFW.dumpV n) (Pos.dumpV n))

/-- The bytes of a dump. -/
theorem dump_bytes {v : Val} {bs : List UInt8} (hd : dump E H v = some bs) :
    ∃ b w', dumpV E H (H.length + 2) v {} = some (b, w') ∧ bs = 4 :: 8 :: b := by
  unfold dump at hd
  cases hx : dumpV E H (H.length + 2) v {} with
  | none => rw [hx] at hd; simp at hd
  | some p =>
    rw [hx] at hd
    simp only [Option.some.injEq] at hd
    exact ⟨p.1, p.2, rfl, hd.symm⟩

/-- Loading a dump does not panic. -/
theorem whole {v : Val} {bs : List UInt8} (hd : dump E H v = some bs) (hl : bs.length < 2 ^ 31) :
    load E bs ≠ .panic := by
  obtain ⟨b, w', hx, rfl⟩ := dump_bytes hd
  simp only [List.length_cons] at hl
  have h := (EatsV.dumpV (H.length + 2) v (b.length + 1) {} b w' hx { inp := b } [] (by simp)
    (by unfold Sized; simp only; omega)).1
  simp only [load]
  cases e : readV E (b.length + 1) { inp := b } with
  | ok p => simp
  | raise => simp
  | panic => exact absurd e h

/-- Loading a proper prefix of a dump raises. -/
theorem truncated {v : Val} {bs : List UInt8} (hd : dump E H v = some bs) (hl : bs.length < 2 ^ 31) {k : Nat}
    (hk : k < bs.length) : load E (bs.take k) = .raise := by
  obtain ⟨b, w', hx, rfl⟩ := dump_bytes hd
  match k, hk with
  | 0, _ => rfl
  | 1, _ => rfl
  | k + 2, hk =>
    simp only [List.length_cons] at hk hl
    simp only [List.take_succ_cons, load]
    have hm := Mono.readV (E := E) ((b.take k).length + 1) (b.length + 1)
      (by rw [List.length_take]; omega) (b.drop k) { inp := b.take k }
    have e2 : ({ inp := b.take k } : RS).more (b.drop k) = { inp := b } := by
      simp [RS.more]
    rw [e2] at hm
    have hw := EatsV.dumpV (H.length + 2) v (b.length + 1) {} b w' hx { inp := b } [] (by simp)
      (by unfold Sized; simp only; omega)
    cases hc : readV E ((b.take k).length + 1) { inp := b.take k } with
    | raise => rfl
    | panic => exact absurd (hm.2 hc) hw.1
    | ok p =>
      obtain ⟨v1, r1⟩ := p
      have h2 := hw.2 _ _ (hm.1 v1 r1 hc)
      have hlen := congrArg List.length h2.1.1
      simp only [RS.more, List.length_append, List.length_drop, List.length_nil] at hlen
      omega

end Verif.Marshal
