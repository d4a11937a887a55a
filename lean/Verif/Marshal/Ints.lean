import Verif.Marshal.Objects

/-! # A whole `l` datum (helper lemmas) -/

namespace Verif.Marshal

theorem readBig_wBig (E : Env) (n : Int) (hl : (wBig n).length < 2 ^ 31) (F : Nat) :
    readV E (F + 1) { inp := wBig n } =
      (do let v ← mkInt n; pushObj v; pure v) (adv { inp := wBig n } (wBig n) [] []) := by
  generalize hr : ({ inp := wBig n } : RS) = r
  have hs : Sized r := by rw [← hr]; unfold Sized; simp only; omega
  generalize hsg : (if n < 0 then (45 : UInt8) else 43) = sg
  set_option linter.unusedVariables false in
  let k := ((natLE n.natAbs).length + 1) / 2
  let ds := natLE n.natAbs ++ (if (natLE n.natAbs).length % 2 ≠ 0 then [0] else [])
  have hin' : r.inp = 108 :: sg :: (wLen k ++ (ds ++ [])) := by
    rw [← hr, ← hsg]; simp [wBig, k, ds]
  have hwb : wBig n = [108] ++ ([sg] ++ (wLen k ++ ds)) := by
    rw [← hsg]; simp [wBig, k, ds]
  have hdl : ds.length = k * 2 := by
    simp only [ds, k]
    by_cases h : (natLE n.natAbs).length % 2 ≠ 0
    · rw [if_pos h]; simp only [List.length_append, List.length_singleton]; omega
    · rw [if_neg h]; simp only [List.append_nil]; omega
  have hB1 := hs.adv1 hin' r.syms
  have hB2 := hB1.adv1 (b := sg) rfl r.syms
  have hB3 := hB2.adv (bs := wLen k) rfl r.syms
  have hl := hB3.len (bs := ds) rfl
  rw [readV_act E F hin']
  show readBig _ = _
  unfold readBig
  rw [bind_ok (rd_byte (r := adv r [108] _ _) rfl)]
  simp only [adv_syms]
  rw [bind_ok (rd_len (r := adv (adv r [108] _ _) [sg] _ _) rfl (by omega) hB2)]
  simp only [adv_syms]
  have hk : k * 2 % 2 ^ 64 = ds.length := by omega
  rw [hk, bind_ok (rd_bytes (r := adv (adv (adv r [108] _ _) [sg] _ _) _ _ _) rfl hB3)]
  have hval : (if sg = 45 then -(leNat ds : Int) else (leNat ds : Int)) = n := by
    have : leNat ds = n.natAbs := by
      simp only [ds]
      by_cases h : (natLE n.natAbs).length % 2 ≠ 0
      · rw [if_pos h, leNat_append_zero, leNat_natLE]
      · rw [if_neg h, List.append_nil, leNat_natLE]
    rw [this, ← hsg]
    by_cases h : n < 0
    · simp only [h, if_true]; omega
    · simp only [h, if_false]
      rw [if_neg (by decide)]; omega
  rw [hval]
  have hsy : r.syms = [] := by rw [← hr]
  have he : adv (adv (adv (adv r [108] (sg :: (wLen k ++ (ds ++ []))) r.syms) [sg] (wLen k ++ (ds ++ [])) r.syms)
      (wLen k) (ds ++ []) r.syms) ds [] r.syms = adv r (wBig n) [] [] := by
    rw [hwb]
    simp only [adv, hsy, List.length_append, List.length_singleton, RS.mk.injEq, true_and, and_true]
    omega
  simp only [adv_syms]
  rw [he]

end Verif.Marshal
