import Verif.Marshal.Main
import Verif.Marshal.Trunc
import Verif.Marshal.Safe
import Verif.Marshal.Whole
import Verif.Marshal.Ints

/-! # `Marshal` : the properties C51 to C54 -/

namespace Verif.Marshal

/-! ## Examples -/

/-- `"…"` as bytes, for the examples. -/
def by' (s : String) : List UInt8 := s.toList.map fun c => UInt8.ofNat c.toNat

/-- An environment with a class `P`, a module `M`, a Struct `Q` with members `a` and `b`, subclasses `S`
and `M::S` of built-in classes, and one Float. -/
def E0 : Env where
  kind n :=
    if n = [80] then some .plain else if n = [77] then some .module
    else if n = [81] then some (.struct [asciiSym [97], asciiSym [98]])
    else if n = [83] ∨ n = [77, 58, 58, 83] ∨ n = nRange ∨ n = nHash then some .native else none
  top n := n = [80] || n = [77] || n = [81] || n = [83] || n = nHash
  isFlo b := b = 0x3ff0000000000000
  txt _ := [49]
  num s := if s = [49] then some 0x3ff0000000000000 else none
  encOf n := .other n
  valid _ := true

/-- A cyclic Array with a shared String, a Hash with a default, an instance of `P` extended with `M`
whose variable is the Array, a Struct, an Array of class `S` with a variable, a Bignum and a Range. -/
def H0 : List Obj := [
  { body := .arr [.ref 0, .ref 1, .ref 1, .ref 2, .ref 3, .ref 4, .ref 5, .ref 6, .ref 7, .flo 0x3ff0000000000000] },
  { body := .str [104, 105] .utf8 },
  { body := .hash [(.sym (asciiSym [107]), .fix (-300)), (.ref 1, .ref 3)] (some (.ref 1)) false },
  { body := .obj, cls := some (asciiSym [80]), ext := [asciiSym [77]], ivars := [(asciiSym [64, 120], .ref 0)] },
  { body := .struct [(asciiSym [97], .nil), (asciiSym [98], .ref 4)], cls := some (asciiSym [81]) },
  { body := .arr [.tru], cls := some (asciiSym [83]), ivars := [(asciiSym [64, 120], .ref 5)] },
  { body := .big (2 ^ 70) },
  { body := .range (.fix 1) .nil true }]

theorem ref_good (a : Nat) : GoodVal E0 (.ref a) := trivial

/-- Everything in it meets the hypothesis of the round trip. -/
theorem H0_fine : Fine E0 H0 (.ref 0) := by
  refine ⟨trivial, fun a _ha => ?_⟩
  have hb : ∀ a b, Reach H0 (.ref a) b → a < 8 → b < 8 := by
    intro a b h
    generalize hv : Val.ref a = v at h
    induction h generalizing a with
    | here c => intro hc; cases hv; exact hc
    | step h1 hu hr ih =>
      rename_i c d o u
      intro hc
      cases hv
      cases hr with
      | here e =>
        have : ∀ i < 8, ∀ o, H0[i]? = some o → ∀ u ∈ o.vals, ∀ e, u = .ref e → e < 8 := by
          intro i hi
          match i, hi with
          | 0, _ | 1, _ | 2, _ | 3, _ | 4, _ | 5, _ | 6, _ | 7, _ =>
            intro o ho; cases ho; intro u hu e he; subst he
            simp [Obj.vals, Body.vals] at hu <;> omega
        exact this _ hc o h1 _ hu d rfl
      | step h2 hu2 hr2 =>
        rename_i e o2 u2
        have : ∀ i < 8, ∀ o, H0[i]? = some o → ∀ u ∈ o.vals, ∀ e, u = .ref e → e < 8 := by
          intro i hi
          match i, hi with
          | 0, _ | 1, _ | 2, _ | 3, _ | 4, _ | 5, _ | 6, _ | 7, _ =>
            intro o ho; cases ho; intro u hu e he; subst he
            simp [Obj.vals, Body.vals] at hu <;> omega
        exact ih e rfl (this _ hc o h1 _ hu e rfl)
  have ha := hb 0 a _ha (by omega)
  have hs : ∀ bs, ascii bs = true → GoodSym (asciiSym bs) := by
    intro bs h
    unfold GoodSym
    rw [if_pos (show ascii (asciiSym bs).bytes = true from h)]
    rfl
  match a, ha with
  | 0, _ =>
    refine ⟨_, rfl, ⟨⟨by simp, by simp, by simp⟩, by simp, by simp⟩, ?_⟩
    intro u hu
    simp only [Obj.vals, Body.vals, List.map_nil, List.append_nil, List.mem_cons, List.not_mem_nil, or_false] at hu
    rcases hu with rfl | rfl | rfl | rfl | rfl | rfl | rfl | rfl | rfl | rfl <;>
      first | exact ref_good _ | (refine ⟨rfl, ?_, rfl⟩; decide)
  | 1, _ =>
    exact ⟨_, rfl, ⟨rfl, .inr ⟨.inl rfl, rfl, rfl⟩⟩, by simp [Obj.vals, Body.vals]⟩
  | 2, _ =>
    refine ⟨_, rfl, ⟨⟨by simp, by simp, by simp⟩, ⟨by simp, by simp⟩, ?_, ?_, by simp, by simp⟩, ?_⟩
    · intro p hp a ha
      simp only [List.mem_cons, List.not_mem_nil, or_false] at hp
      rcases hp with rfl | rfl
      · simp at ha
      · simp only [Val.ref.injEq] at ha
        subst ha
        exact ⟨_, _, _, rfl, rfl⟩
    · simp only [List.pairwise_cons, List.not_mem_nil, false_implies, implies_true, List.Pairwise.nil, and_true,
        List.mem_cons, or_false]
      intro q hq
      subst hq; rfl
    · intro u hu
      simp only [Obj.vals, Body.vals, List.map_nil, List.append_nil, List.map_cons, List.mem_cons, List.not_mem_nil,
        or_false, Option.toList, List.cons_append, List.nil_append] at hu
      rcases hu with rfl | rfl | rfl | rfl | rfl
      · exact hs _ rfl
      · exact ref_good _
      · simp [GoodVal]
      · exact ref_good _
      · exact ref_good _
  | 3, _ =>
    refine ⟨_, rfl, ⟨_, rfl, hs _ rfl, rfl, by decide, by simp, ?_, by simp, ?_⟩, ?_⟩
    · intro m hm
      simp only [List.mem_singleton] at hm
      subst hm; exact ⟨hs _ rfl, rfl⟩
    · intro p hp
      simp only [List.mem_singleton] at hp
      subst hp; exact hs _ rfl
    · simp [Obj.vals, Body.vals, GoodVal]
  | 4, _ =>
    refine ⟨_, rfl, ⟨_, rfl, hs _ rfl, rfl, ?_, by simp, by simp, by simp, by simp⟩, ?_⟩
    · intro p hp
      simp only [List.mem_cons, List.not_mem_nil, or_false] at hp
      rcases hp with rfl | rfl <;> exact hs _ rfl
    · simp [Obj.vals, Body.vals, GoodVal]
  | 5, _ =>
    refine ⟨_, rfl, ⟨⟨by simp, by simp, ?_⟩, by simp, ?_⟩, ?_⟩
    · intro c hc
      simp only [Option.some.injEq] at hc
      subst hc
      exact ⟨hs _ rfl, rfl, by decide⟩
    · intro p hp
      simp only [List.mem_singleton] at hp
      subst hp; exact ⟨hs _ rfl, by decide, by decide⟩
    · simp [Obj.vals, Body.vals, GoodVal]
  | 6, _ => exact ⟨_, rfl, ⟨⟨rfl, rfl, rfl⟩, by decide⟩, by simp [Obj.vals, Body.vals]⟩
  | 7, _ =>
    refine ⟨_, rfl, ⟨⟨rfl, rfl, rfl⟩, by simp, by simp, by decide⟩, ?_⟩
    simp [Obj.vals, Body.vals, GoodVal]

/-! ## C51: a loaded dump is a deep copy -/

/-- C51, for the values described by `Fine`: dumping succeeds, cycles included, and loading the result
gives a deep copy, with the same classes, modules, variables, sharing and cycles.  Missing: what the
counterexamples below exclude, and the dump being 2 GiB or more. -/
theorem C51_roundtrip_partial {E : Env} {H : List Obj} {v : Val} (hf : Fine E H v) :
    ∃ bs, dump E H v = some bs ∧
      (bs.length < 2 ^ 31 → ∃ v' H', load E bs = .ok (v', H') ∧ Copy H v H' v') := by
  obtain ⟨bs, h⟩ := dump_total hf
  exact ⟨bs, h, fun hl => roundtrip hf h hl⟩

example : Fine E0 H0 (.ref 0) := H0_fine

/-- Two references to one object are two references to one object afterwards, and two objects, even
equal ones, are two. -/
theorem C51_identity_partial {E : Env} {H : List Obj} {v : Val} {bs : List UInt8} (hf : Fine E H v)
    (hd : dump E H v = some bs) (hl : bs.length < 2 ^ 31) :
    ∃ f v' H', load E bs = .ok (v', H') ∧ v' = v.map f ∧
      ∀ a b o, Reach H v a → H[a]? = some o → Reach H v b →
        (f a = f b ↔ a = b) ∧ ∃ o', H'[f a]? = some o' ∧ o'.cls = o.cls ∧ o'.ext = o.ext ∧
          o'.vals = o.vals.map (Val.map f) := by
  obtain ⟨v', H', h1, f, h2, h3, h4⟩ := roundtrip hf hd hl
  refine ⟨f, v', H', h1, h3, fun a b o ha ho hb => ⟨⟨h2 a b ha hb, fun h => by rw [h]⟩, ?_⟩⟩
  obtain ⟨o1, q1, q2⟩ := h4 a ha
  rw [ho] at q1
  cases q1
  refine ⟨_, q2, rfl, rfl, ?_⟩
  obtain ⟨b, c, e, i⟩ := o
  cases b <;> simp [Obj.vals, Obj.map, Body.vals, Body.map, List.map_map, Function.comp_def]
  case hash d _ => cases d <;> simp

/-- What `Marshal.load(Marshal.dump(v))` gives. -/
def trip (E : Env) (H : List Obj) (v : Val) : Option (Res (Val × List Obj)) := (dump E H v).map (load E)

/-! ### Where it fails -/

theorem copy_root {H H' : List Obj} {a b : Nat} (h : Copy H (.ref a) H' (.ref b)) :
    ∃ f o, f a = b ∧ H[a]? = some o ∧ H'[b]? = some (o.map f) := by
  obtain ⟨f, -, h2, h3⟩ := h
  obtain ⟨o, q1, q2⟩ := h3 a (.here a)
  simp only [Val.map, Val.ref.injEq] at h2
  exact ⟨f, o, h2.symm, q1, h2 ▸ q2⟩

/-- `[2**40, s, s]` comes back as `[2**40, s, 2**40]`: an Integer outside 31 bits that is not a Bignum is
written without a slot in the table of objects and read with one, so later links are off by one. -/
theorem C51_fails_large_fixnum :
    let H : List Obj := [{ body := .arr [.fix (2 ^ 40), .ref 1, .ref 1] }, { body := .str [120] .binary }]
    let H' : List Obj := [{ body := .arr [.fix (2 ^ 40), .ref 1, .fix (2 ^ 40)] }, { body := .str [120] .binary }]
    trip E0 H (.ref 0) = some (.ok (.ref 0, H')) ∧ ¬ Copy H (.ref 0) H' (.ref 0) := by
  refine ⟨by decide +kernel, fun h => ?_⟩
  obtain ⟨f, o, h1, h2, h3⟩ := copy_root h
  cases h2
  simp [Obj.map, Body.map, Val.map] at h3

/-- `[/a/, s, s]` is dumped to data that `load` rejects: a Regexp takes a slot only when it is written. -/
theorem C51_fails_regexp :
    trip E0 [{ body := .arr [.ref 1, .ref 2, .ref 2] }, { body := .regexp [97] 0 .usAscii },
      { body := .str [120] .binary }] (.ref 0) = some .raise := by
  decide +kernel

/-- `[s, t, t]` comes back as `[s, t, s]` if the encoding of `s` is written by name (here `X`): the name
takes a slot when it is read. -/
theorem C51_fails_named_encoding :
    let H : List Obj := [{ body := .arr [.ref 1, .ref 2, .ref 2] }, { body := .str [97] (.other [88]) },
      { body := .str [120] .binary }]
    let H' : List Obj := [{ body := .arr [.ref 2, .ref 3, .ref 2] }, { body := .str [88] .binary },
      { body := .str [97] (.other [88]) }, { body := .str [120] .binary }]
    trip E0 H (.ref 0) = some (.ok (.ref 0, H')) ∧ ¬ Copy H (.ref 0) H' (.ref 0) := by
  refine ⟨by decide +kernel, fun h => ?_⟩
  obtain ⟨f, o, h1, h2, h3⟩ := copy_root h
  cases h2
  simp [Obj.map, Body.map, Val.map] at h3
  omega

/-- `[s, s]` comes back as `[s, t]` if the String `s` has an instance variable holding the String `t`: `s` is
the first to take a slot when they are written and the second when they are read. -/
theorem C51_fails_string_variable :
    let H : List Obj := [{ body := .arr [.ref 1, .ref 1] },
      { body := .str [97] .utf8, ivars := [(asciiSym [64, 120], .ref 2)] }, { body := .str [116] .binary }]
    let H' : List Obj := [{ body := .arr [.ref 2, .ref 1] }, { body := .str [116] .binary },
      { body := .str [97] .utf8, ivars := [(asciiSym [64, 120], .ref 1)] }]
    trip E0 H (.ref 0) = some (.ok (.ref 0, H')) ∧ ¬ Copy H (.ref 0) H' (.ref 0) := by
  refine ⟨by decide +kernel, fun h => ?_⟩
  obtain ⟨f, o, h1, h2, h3⟩ := copy_root h
  cases h2
  simp [Obj.map, Body.map, Val.map] at h3
  omega

/-- An instance of a subclass of String loses its encoding. -/
theorem C51_fails_string_subclass :
    let H : List Obj := [{ body := .str [97] .utf8, cls := some (asciiSym [83]) }]
    let H' : List Obj := [{ body := .str [97] .binary, cls := some (asciiSym [83]) }]
    trip E0 H (.ref 0) = some (.ok (.ref 0, H')) ∧ ¬ Copy H (.ref 0) H' (.ref 0) := by
  refine ⟨by decide +kernel, fun h => ?_⟩
  obtain ⟨f, o, h1, h2, h3⟩ := copy_root h
  cases h2
  simp [Obj.map, Body.map] at h3

/-- An instance of the subclass `M::S` of Array is dumped to data that `load` rejects: the name is looked
up as one constant. -/
theorem C51_fails_nested_subclass :
    trip E0 [{ body := .arr [], cls := some (asciiSym [77, 58, 58, 83]) }] (.ref 0) = some .raise := by
  decide +kernel

/-- A Hash that compares by identity with two equal Strings as keys comes back with one pair: the pairs
are inserted before the Hash compares by identity. -/
theorem C51_fails_identity_hash :
    let H : List Obj := [{ body := .hash [(.ref 1, .fix 1), (.ref 2, .fix 2)] none true },
      { body := .str [97] .binary }, { body := .str [97] .binary }]
    let H' : List Obj := [{ body := .hash [(.ref 1, .fix 2)] none true },
      { body := .str [97] .binary }, { body := .str [97] .binary }]
    trip E0 H (.ref 0) = some (.ok (.ref 0, H')) ∧ ¬ Copy H (.ref 0) H' (.ref 0) := by
  refine ⟨by decide +kernel, fun h => ?_⟩
  obtain ⟨f, o, h1, h2, h3⟩ := copy_root h
  cases h2
  simp [Obj.map, Body.map, Val.map] at h3

/-- An instance of a subclass of Range comes back as a Range without its instance variables. -/
theorem C51_fails_range_subclass :
    let iv := [(asciiSym [64, 120], Val.tru)]
    let H : List Obj := [{ body := .range (.fix 1) (.fix 2) false, cls := some (asciiSym [83]), ivars := iv }]
    let H' : List Obj := [{ body := .obj, cls := some (asciiSym nRange) },
      { body := .range (.fix 1) (.fix 2) false }]
    trip E0 H (.ref 0) = some (.ok (.ref 1, H')) ∧ ¬ Copy H (.ref 0) H' (.ref 1) := by
  refine ⟨by decide +kernel, fun h => ?_⟩
  obtain ⟨f, o, h1, h2, h3⟩ := copy_root h
  cases h2
  simp [Obj.map, Body.map, Val.map] at h3

/-- A Range that holds an Array that holds the Range comes back holding an Array that holds an unfinished
object of class Range. -/
theorem C51_fails_cyclic_range :
    let H : List Obj := [{ body := .range (.ref 1) .nil false }, { body := .arr [.ref 0] }]
    let H' : List Obj := [{ body := .obj, cls := some (asciiSym nRange) }, { body := .arr [.ref 0] },
      { body := .range (.ref 1) .nil false }]
    trip E0 H (.ref 0) = some (.ok (.ref 2, H')) ∧ ¬ Copy H (.ref 0) H' (.ref 2) := by
  refine ⟨by decide +kernel, fun h => ?_⟩
  obtain ⟨f, h1, h2, h3⟩ := h
  obtain ⟨o, q1, q2⟩ := h3 0 (.here 0)
  obtain ⟨o', q3, q4⟩ := h3 1 (.step rfl (by simp [Obj.vals, Body.vals]) (.here 1))
  cases q1
  cases q3
  simp only [Val.map, Val.ref.injEq] at h2
  rw [← h2] at q2
  simp [Obj.map, Body.map, Val.map] at q2
  rw [← q2] at q4
  simp [Obj.map, Body.map, Val.map] at q4
  omega

/-- A Symbol of ASCII bytes in an encoding other than US-ASCII comes back in US-ASCII. -/
theorem C51_fails_ascii_symbol :
    trip E0 [] (.sym ⟨[97, 0], .other [88]⟩) = some (.ok (.sym ⟨[97, 0], .usAscii⟩, [])) := by
  decide +kernel

/-! ## C52: Integers -/

/-- The representation of an Integer (`Value::bigint`, value.rs l.992-1002, l.1058-1064). -/
def integer (n : Int) : Val × List Obj :=
  if -(2 ^ 62) ≤ n ∧ n < 2 ^ 62 then (.fix n, []) else (.ref 0, [{ body := .big n }])

/-- C52: every Integer survives, whatever its size, as long as the dump is below 2 GiB. -/
theorem C52_integer (E : Env) (n : Int) :
    ∃ bs, dump E (integer n).2 (integer n).1 = some bs ∧
      (bs.length < 2 ^ 31 → load E bs = .ok (integer n)) := by
  unfold integer
  by_cases h : -(2 ^ 62) ≤ n ∧ n < 2 ^ 62
  · simp only [if_pos h]
    by_cases h2 : -0x40000000 ≤ n ∧ n ≤ 0x3fffffff
    · refine ⟨4 :: 8 :: 105 :: wFix n, by simp [dump, dumpV, if_pos h2, lit], fun hl => ?_⟩
      have hs : Sized { inp := 105 :: wFix n } := by
        unfold Sized; simp only [List.length_cons] at hl ⊢; omega
      have e : readV E ((105 :: wFix n).length + 1) { inp := 105 :: wFix n } =
          .ok (.fix n, adv (adv { inp := 105 :: wFix n } [105] (wFix n) []) (wFix n) [] []) := by
        rw [readV_act E _ rfl]
        show (readFix >>= fun n => pure (Val.fix n) : M Val) _ = _
        rw [bind_ok (rd_fix (n := n) (rest := []) (by simp) (by omega) (by omega) (hs.adv1 rfl []))]
        rfl
      simp only [load, e]
      rfl
    · refine ⟨4 :: 8 :: wBig n, by simp [dump, dumpV, if_neg h2, lit], fun hl => ?_⟩
      have e := readBig_wBig E n (by simp only [List.length_cons] at hl; omega) (wBig n).length
      simp only [load, e]
      simp only [mkInt, if_pos h]
      rfl
  · simp only [if_neg h]
    refine ⟨4 :: 8 :: wBig n, by simp [dump, dumpV, withSlot, wObj, lit], fun hl => ?_⟩
    have e := readBig_wBig E n (by simp only [List.length_cons] at hl; omega) (wBig n).length
    simp only [load, e]
    simp only [mkInt, if_neg h]
    rfl

example : integer (2 ^ 62 - 1) = (.fix (2 ^ 62 - 1), []) ∧ integer (2 ^ 62) = (.ref 0, [{ body := .big (2 ^ 62) }]) := by
  decide

/-- The bytes of the documented format for some Integers. -/
example : dump E0 [] (.fix 0) = some [4, 8, 105, 0] ∧ dump E0 [] (.fix 122) = some [4, 8, 105, 127] ∧
    dump E0 [] (.fix 123) = some [4, 8, 105, 1, 123] ∧ dump E0 [] (.fix (-123)) = some [4, 8, 105, 128] ∧
    dump E0 [] (.fix (-124)) = some [4, 8, 105, 255, 132] ∧ dump E0 [] (.fix (-257)) = some [4, 8, 105, 254, 255, 254] ∧
    dump E0 [] (.fix (2 ^ 30)) = some [4, 8, 108, 43, 7, 0, 0, 0, 64] := by
  decide +kernel

/-! ## C53: no data crashes `load` -/

/-- C53 for data whose bytes are below 128 and not `C`: `load` returns or raises.  The rest of the property
is false, see below. -/
theorem C53_no_panic_partial (E : Env) (data : List UInt8) (h : ∀ b ∈ data, b.toNat < 128 ∧ b.toNat ≠ 67)
    (hl : data.length < 2 ^ 62) : load E data ≠ .panic := by
  unfold load
  split
  · rename_i rest
    have h7 : Seven { inp := rest } := by
      refine ⟨fun b hb => h b (by simp [hb]), ?_⟩
      simp only [List.length_cons] at hl
      simp only
      omega
    have := (Safe.readV (E := E) (rest.length + 1) _ h7).1
    split
    · simp
    · simp
    · rename_i e; exact absurd e this
  · simp

example : load E0 [4, 8, 91, 6, 34, 6, 120] = .ok (.ref 0, [{ body := .arr [.ref 1] }, { body := .str [120] .binary }]) := by
  decide +kernel

/-- A negative length is taken for a huge one: `"\x04\b\"\xFA"` (a String of length -1), whatever follows,
overflows the position. -/
theorem C53_fails_negative_string (E : Env) (rest : List UInt8) : load E (4 :: 8 :: 34 :: 250 :: rest) = .panic := by
  have e : readV E ((34 :: 250 :: rest).length + 1) { inp := 34 :: 250 :: rest } = .panic := by
    rw [readV_act E _ rfl]
    show readRawStr _ = _
    unfold readRawStr
    rw [bind_ok (show readLen _ = .ok (2 ^ 64 - 1, adv (adv { inp := 34 :: 250 :: rest } [34] (250 :: rest) []) [250] rest [])
      from rfl)]
    show M.bind (readBytes _) _ _ = _
    unfold M.bind readBytes
    rw [if_pos (by simp)]
  unfold load
  simp only
  rw [e]

/-- An Array of length -1 asks for more memory than an address can say. -/
theorem C53_fails_negative_array (E : Env) (rest : List UInt8) : load E (4 :: 8 :: 91 :: 250 :: rest) = .panic := by
  have e : readV E ((91 :: 250 :: rest).length + 1) { inp := 91 :: 250 :: rest } = .panic := by
    rw [readV_act E _ rfl]
    show readArray _ _ = _
    unfold readArray
    rw [bind_ok (show readLen _ = .ok (2 ^ 64 - 1, adv (adv { inp := 91 :: 250 :: rest } [91] (250 :: rest) []) [250] rest [])
      from rfl)]
    rw [show withCapacity (2 ^ 64 - 1) = panic from if_pos (by decide)]
    rfl
  unfold load
  simp only
  rw [e]

/-- An object of a known class with -1 variables does the same. -/
theorem C53_fails_negative_variables : load E0 [4, 8, 111, 58, 6, 80, 250] = .panic := by decide +kernel

/-- `nil` as an instance of a subclass. -/
theorem C53_fails_class_of_immediate : load E0 [4, 8, 67, 58, 6, 83, 48] = .panic := by decide +kernel

/-- Any class can be given to any object: here a String's bytes become an object of class `P`. -/
theorem C53_fails_class_confusion :
    load E0 [4, 8, 67, 58, 6, 80, 34, 6, 120] = .ok (.ref 0, [{ body := .str [120] .binary, cls := some (asciiSym [80]) }]) := by
  decide +kernel

/-- C53, for data `dump` wrote: whatever was dumped, loading it does not panic. -/
theorem C53_own_dump_no_panic {E : Env} {H : List Obj} {v : Val} {bs : List UInt8} (hd : dump E H v = some bs)
    (hl : bs.length < 2 ^ 31) : load E bs ≠ .panic := whole hd hl

/-- The dump of a Regexp, which does not come back as it was, is covered. -/
example : ∃ bs, dump E0 [{ body := .regexp [97] 0 .usAscii }] (.ref 0) = some bs ∧ bs.length = 12 := by
  decide +kernel

/-! ## C54: truncated and extended data -/

/-- What `load` returns does not depend on what follows the datum. -/
theorem C54_trailing_ignored {E : Env} {data : List UInt8} {v : Val} {H : List Obj} (x : List UInt8)
    (h : load E data = .ok (v, H)) : load E (data ++ x) = .ok (v, H) := by
  unfold load at h
  split at h
  · rename_i rest
    split at h
    · rename_i v' r e
      have := (Mono.readV (E := E) (rest.length + 1) ((rest ++ x).length + 1) (by simp) x _).1 _ _ e
      have e2 : ({ inp := rest } : RS).more x = { inp := rest ++ x } := rfl
      rw [e2] at this
      cases h
      simp only [List.cons_append, load, this]
      rfl
    · cases h
    · cases h
  · cases h

/-- C54: no proper prefix of a dump is accepted, whatever was dumped.  A dump of 2 GiB or more is left out:
its lengths do not fit the format. -/
theorem C54_truncated_raises {E : Env} {H : List Obj} {v : Val} {bs : List UInt8}
    (hd : dump E H v = some bs) (hl : bs.length < 2 ^ 31) (k : Nat) (hk : k < bs.length) :
    load E (bs.take k) = .raise := truncated hd hl hk

example : (List.range 7).all (fun k => load E0 ([4, 8, 91, 6, 34, 6, 120].take k) = .raise) = true := by
  decide +kernel

end Verif.Marshal
