import Verif.Str.CharProps

/-! # Padding and repeating strings -/

namespace Verif.Str

variable {iso : List Nat → Bool}

/-! ## C122: ljust, rjust, center and `*` -/

/-- `m` characters of `cs`, over and over -/
def cyc (cs : List (List Nat)) (m : Nat) : List (List Nat) :=
  (List.range m).map (fun i => cs.getD (i % cs.length) [])

theorem cyc_add (cs : List (List Nat)) (m : Nat) (h : cs ≠ []) : cyc cs (cs.length + m) = cs ++ cyc cs m := by
  have hl : 0 < cs.length := List.length_pos_iff.mpr h
  unfold cyc
  rw [List.range_add, List.map_append, List.map_map]
  congr 1
  · refine List.ext_getElem (by simp) (fun i h1 h2 => ?_)
    simp only [List.getElem_map, List.getElem_range]
    rw [Nat.mod_eq_of_lt h2, List.getD_eq_getElem?_getD, List.getElem?_eq_getElem h2, Option.getD_some]
  · refine List.map_congr_left (fun i _ => ?_)
    simp

theorem cyc_take (cs : List (List Nat)) (m : Nat) (h : m < cs.length) : cyc cs m = cs.take m := by
  refine List.ext_getElem (by simp [cyc]; omega) (fun i h1 h2 => ?_)
  simp only [cyc, List.getElem_map, List.getElem_range, List.getElem_take]
  simp only [cyc, List.length_map, List.length_range] at h1
  rw [Nat.mod_eq_of_lt (by omega), List.getD_eq_getElem?_getD, List.getElem?_eq_getElem (by omega), Option.getD_some]

theorem cyc_eq (cs : List (List Nat)) (h : cs ≠ []) (m : Nat) :
    (List.replicate (m / cs.length) cs).flatten ++ cs.take (m % cs.length) = cyc cs m := by
  have hl : 0 < cs.length := List.length_pos_iff.mpr h
  have : ∀ q r, r < cs.length → (List.replicate q cs).flatten ++ cs.take r = cyc cs (cs.length * q + r) := by
    intro q
    induction q with
    | zero => intro r hr; simp [cyc_take cs r hr]
    | succ q ih =>
      intro r hr
      rw [List.replicate_succ, List.flatten_cons, List.append_assoc, ih r hr,
        show cs.length * (q + 1) + r = cs.length + (cs.length * q + r) by rw [Nat.mul_succ]; omega,
        cyc_add cs _ h]
  rw [this _ _ (Nat.mod_lt _ hl), Nat.div_add_mod]

theorem length_le_flatten : ∀ {cs : List (List Nat)}, (∀ c ∈ cs, c ≠ []) → cs.length ≤ cs.flatten.length
  | [], _ => by simp
  | c :: cs, h => by
    have := length_le_flatten (fun d hd => h d (List.mem_cons_of_mem c hd))
    have hc : c.length ≠ 0 := fun h0 => h c (by simp) (List.length_eq_zero_iff.mp h0)
    simp only [List.length_cons, List.flatten_cons, List.length_append]
    omega

theorem pos_singletons {cs : List (List Nat)} (h : ∀ c ∈ cs, c ≠ []) (hl : cs.length = cs.flatten.length)
    {m : Nat} (hm : m ≤ cs.length) : pos cs m = m := by
  have h1 := length_le_flatten (cs := cs.take m) (fun c hc => h c (List.mem_of_mem_take hc))
  have h2 := length_le_flatten (cs := cs.drop m) (fun c hc => h c (List.mem_of_mem_drop hc))
  have h3 : cs.flatten.length = (cs.take m).flatten.length + (cs.drop m).flatten.length := by
    rw [← List.length_append, ← List.flatten_append, List.take_append_drop]
  rw [List.length_take] at h1
  rw [List.length_drop] at h2
  unfold pos
  omega

theorem flatten_replicate (n : Nat) (cs : List (List Nat)) :
    (List.replicate n cs.flatten).flatten = ((List.replicate n cs).flatten).flatten := by
  induction n with
  | zero => rfl
  | succ n ih => rw [List.replicate_succ, List.replicate_succ, List.flatten_cons, List.flatten_cons,
      List.flatten_append, ih]

theorem padBytes_eq {p : S} (hp : Safe p) (he : p.enc ≠ .iso2022Jp) (hb : p.bytes ≠ []) (m : Nat) :
    padBytes iso p m = (cyc (chars p.enc p.bytes) m).flatten := by
  have hne : chars p.enc p.bytes ≠ [] := by
    intro h
    have := chars_flatten p.enc p.bytes
    rw [h] at this
    exact hb this.symm
  have hcne : ∀ c ∈ chars p.enc p.bytes, c ≠ [] := iter_ne _ _
  have gen : (let k := (p.charLength iso).getD 0
      if k = p.bytes.length then
        (List.replicate (m / k) p.bytes).flatten ++ p.bytes.take (m % k)
      else
        (List.replicate (m / k) p.bytes).flatten ++ ((chars p.enc p.bytes).take (m % k)).flatten) =
      (cyc (chars p.enc p.bytes) m).flatten := by
    simp only [charLength_eq (iso := iso) hp he, Option.getD_some]
    rw [← cyc_eq _ hne, List.flatten_append, ← flatten_replicate, chars_flatten]
    split_ifs with h
    · congr 1
      rw [← take_pos, chars_flatten, pos_singletons hcne (by rw [chars_flatten]; exact h)]
      exact Nat.le_of_lt (Nat.mod_lt _ (List.length_pos_iff.mpr hne))
    · rfl
  unfold padBytes
  split
  · rename_i b hbb
    have hc : chars p.enc [b] = [[b]] := by
      rw [chars_cons (by simp)]
      have := iterW_pos p.enc [b]
      rw [List.take_of_length_le (by simp; omega), List.drop_of_length_le (by simp; omega)]
      rfl
    rw [hbb, hc]
    clear gen
    induction m with
    | zero => rfl
    | succ m ih =>
      rw [List.replicate_succ, Nat.add_comm m 1]
      have := cyc_add [[b]] m (by simp)
      simp only [List.length_cons, List.length_nil, Nat.zero_add] at this
      rw [this, List.flatten_append, ← ih]
      rfl
  · exact gen

/-- `ljust`, `rjust` and `center` of a valid string with a valid pad in the same encoding: the
characters of the string stay, with characters of the pad in turn before and after; the length is the
width asked for.  A string that is long enough stays as it is. -/
theorem C122_pad (iso : List Nat → Bool) (ops : List Op) (i j : Nat) (s p : S)
    (hi : run iso ops i = s) (hj : run iso ops j = p) (he : s.enc ≠ .iso2022Jp) (hpe : p.enc = s.enc)
    (hs : Valid iso s.enc s.bytes) (hp : Valid iso p.enc p.bytes) (hb : p.bytes ≠ [])
    (width : Int) (side : Side) :
    let cs := chars s.enc s.bytes
    let ps := chars p.enc p.bytes
    let r := pad iso s width p side
    (width ≤ cs.length → r = s) ∧
    (cs.length < width →
      ∃ l t, chars r.enc r.bytes = cyc ps l ++ cs ++ cyc ps t ∧ ((chars r.enc r.bytes).length : Int) = width ∧
        r.enc = s.enc ∧
        match side with
        | .left => l = 0
        | .right => t = 0
        | .center => t = l ∨ t = l + 1) := by
  have sS : Safe s := hi ▸ run_safe ops i
  have sP : Safe p := hj ▸ run_safe ops j
  have wS := (classify_broken he).mp ((classify_valid iso _ _).mpr hs)
  have wP := (classify_broken (hpe ▸ he)).mp ((classify_valid iso p.enc p.bytes).mpr hp)
  simp only
  constructor
  · intro h
    unfold pad
    rw [charLength_eq sS he, Option.getD_some, if_pos (by omega)]
  · intro h
    have hr : (pad iso s width p side).bytes =
        padBytes iso p (side.counts (width.toNat - (chars s.enc s.bytes).length)).1 ++ s.bytes ++
        padBytes iso p (side.counts (width.toNat - (chars s.enc s.bytes).length)).2 ∧
        (pad iso s width p side).enc = s.enc := by
      unfold pad
      rw [charLength_eq sS he, Option.getD_some]
      simp only
      rw [if_neg (by omega)]
      split_ifs <;> exact ⟨rfl, rfl⟩
    generalize hc : side.counts (width.toNat - (chars s.enc s.bytes).length) = lt at hr
    have hlt : lt.1 + lt.2 = width.toNat - (chars s.enc s.bytes).length := by
      rw [← hc]
      cases side <;> simp only [Side.counts] <;> omega
    have hchars : chars s.enc (pad iso s width p side).bytes =
        cyc (chars p.enc p.bytes) lt.1 ++ chars s.enc s.bytes ++ cyc (chars p.enc p.bytes) lt.2 := by
      rw [hr.1, padBytes_eq sP (hpe ▸ he) hb, padBytes_eq sP (hpe ▸ he) hb]
      conv_lhs => rw [← chars_flatten s.enc s.bytes, ← List.flatten_append, ← List.flatten_append]
      refine chars_of he (fun c hcm => ?_)
      have hcyc : ∀ m, c ∈ cyc (chars p.enc p.bytes) m → c ≠ [] ∧ code s.enc c = some c.length := by
        intro m hm
        unfold cyc at hm
        obtain ⟨q, _, rfl⟩ := List.mem_map.mp hm
        have hlen : 0 < (chars p.enc p.bytes).length := by
          rcases Nat.eq_zero_or_pos (chars p.enc p.bytes).length with h0 | h0
          · exfalso
            have := chars_flatten p.enc p.bytes
            rw [List.length_eq_zero_iff.mp h0] at this
            exact hb this.symm
          · exact h0
        have hq := Nat.mod_lt q hlen
        rw [List.getD_eq_getElem?_getD, List.getElem?_eq_getElem hq, Option.getD_some]
        have := chars_wf (hpe ▸ he) wP _ (List.getElem_mem hq)
        generalize (chars p.enc p.bytes)[q % (chars p.enc p.bytes).length] = c at this ⊢
        rwa [hpe] at this
      rcases List.mem_append.mp hcm with h1 | h1
      · rcases List.mem_append.mp h1 with h2 | h2
        · exact hcyc _ h2
        · exact chars_wf he wS _ h2
      · exact hcyc _ h1
    refine ⟨lt.1, lt.2, by rw [hr.2]; exact hchars, ?_, hr.2, ?_⟩
    · rw [hr.2, hchars]
      simp only [cyc, List.length_append, List.length_map, List.length_range]
      omega
    · cases side <;> simp only [Side.counts] at hc <;> rw [← hc] <;> simp only <;> omega

example : (pad T ⟨[0xC3, 0xA9], .utf8, .unknown⟩ 6 ⟨[0x61, 0xC3, 0xA8], .utf8, .unknown⟩ .center).bytes =
    [0x61, 0xC3, 0xA8, 0xC3, 0xA9, 0x61, 0xC3, 0xA8, 0x61] := by decide +kernel

/-- `s * n` of a valid string: its characters `n` times. -/
theorem C122_repeat (iso : List Nat → Bool) (s : S) (he : s.enc ≠ .iso2022Jp)
    (hs : Valid iso s.enc s.bytes) (n : Nat) :
    chars (repeatS s n).enc (repeatS s n).bytes = (List.replicate n (chars s.enc s.bytes)).flatten ∧
    Valid iso (repeatS s n).enc (repeatS s n).bytes := by
  have hw := (classify_broken he).mp ((classify_valid iso _ _).mpr hs)
  constructor
  · simp only [repeatS]
    conv_lhs => rw [← chars_flatten s.enc s.bytes, flatten_replicate]
    refine chars_of he (fun c hc => ?_)
    rw [List.mem_flatten] at hc
    obtain ⟨l, hl, hc⟩ := hc
    rw [List.mem_replicate] at hl
    exact chars_wf he hw c (hl.2 ▸ hc)
  · exact (classify_valid iso _ _).mp ((classify_broken he).mpr (hw.replicate n))

end Verif.Str
