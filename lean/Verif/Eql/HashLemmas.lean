import Verif.Eql.Lemmas

namespace Verif.Eql

variable {h : Hashers} {hp : Nat → Option Val}

/-! ## What is fed to the hasher -/

theorem tokXor_eq : ∀ (ps : List (Val × Val)) (acc : Nat),
    tokXor h ps acc = (ps.map (fun p => h.D (tok h p.1))).foldl (· ^^^ ·) acc
  | [], acc => by simp [tokXor]
  | (k, v) :: ps, acc => by simp [tokXor, tokXor_eq ps]

theorem perm_foldl_xor {l l' : List Nat} (hp : l.Perm l') (acc : Nat) :
    l.foldl (· ^^^ ·) acc = l'.foldl (· ^^^ ·) acc := by
  induction hp generalizing acc with
  | nil => rfl
  | cons x _ ih => simp [ih]
  | swap x y l =>
    simp only [List.foldl_cons]
    rw [Nat.xor_assoc, Nat.xor_comm y x, ← Nat.xor_assoc]
  | trans _ _ ih₁ ih₂ => rw [ih₁, ih₂]

theorem perm_foldl_add {l l' : List (BitVec 64)} (hp : l.Perm l') (acc : BitVec 64) :
    l.foldl (· + ·) acc = l'.foldl (· + ·) acc := by
  induction hp generalizing acc with
  | nil => rfl
  | cons x _ ih => simp [ih]
  | swap x y l =>
    simp only [List.foldl_cons]
    rw [BitVec.add_assoc, BitVec.add_comm y x, ← BitVec.add_assoc]
  | trans _ _ ih₁ ih₂ => rw [ih₁, ih₂]

theorem map_eq_of_forall₂ {α β : Type} {R : α → α → Prop} {f : α → β} {xs ys : List α}
    (hf : List.Forall₂ R xs ys) (hR : ∀ x y, R x y → f x = f y) : xs.map f = ys.map f := by
  induction hf with
  | nil => rfl
  | cons hr _ ih => simp [hR _ _ hr, ih]

theorem tokList_eq : ∀ (xs : List Val), tokList h xs = (xs.map (tok h)).flatten
  | [] => by simp [tokList]
  | x :: xs => by simp [tokList, tokList_eq xs]

theorem fEq_heap {x y : BitVec 64} (hx : isFlonum x = false) (hy : isFlonum y = false)
    (he : fEq x y = true) : x = y := by
  simp only [fEq, Bool.and_eq_true, Bool.or_eq_true, beq_iff_eq] at he
  rcases he.2 with h1 | ⟨h1, h2⟩
  · exact h1
  · simp only [isFlonum, h1, h2, if_true, beq_eq_false_iff_ne] at hx hy
    simp only [isZero, beq_iff_eq] at h1 h2
    have e1 : x.toNat ≠ 0 := fun hc => hx (by apply BitVec.eq_of_toNat_eq; simpa using hc)
    have e2 : y.toNat ≠ 0 := fun hc => hy (by apply BitVec.eq_of_toNat_eq; simpa using hc)
    apply BitVec.eq_of_toNat_eq
    have := x.isLt
    have := y.isLt
    omega

/-- On narrow values, `eql?` values feed the same items to the hasher. -/
theorem tok_bound {s : Bool} : ∀ (n : Nat) (x y : Val), sizeOf x ≤ n → WF h hp x → WF h hp y →
    Narrow s x → Narrow s y → eql h x y = true → tok h x = tok h y
  | 0, x, y, hs, _, _, _, _, _ => by cases x <;> simp at hs
  | n + 1, x, y, hs, hwx, hwy, hnx, hny, he => by
    rw [eql_iff] at he
    rcases he with hi | hc
    · rw [eq_of_id hwx hwy hi]
    · cases hc with
      | big => simp [tok]
      | hflo _ _ he =>
        rw [WF] at hwx hwy
        rw [tok, tok, fEq_heap hwx.2 hwy.2 he]
      | str => simp [tok]
      | @arr xs ys _ _ hl he =>
        rw [WF, wfList_iff] at hwx hwy
        rw [Narrow, narrowList_iff] at hnx hny
        simp only [Val.arr.sizeOf_spec] at hs
        rw [tok, tok, tokList_eq, tokList_eq]
        have hf := (eqlList_iff hl).1 he
        congr 1
        have hx : ∀ x ∈ xs, WF h hp x ∧ Narrow s x ∧ sizeOf x ≤ n := fun x hx => by
          have := List.sizeOf_lt_of_mem hx
          exact ⟨hwx.2 x hx, hnx x hx, by omega⟩
        have hy : ∀ y ∈ ys, WF h hp y ∧ Narrow s y := fun y hy => ⟨hwy.2 y hy, hny y hy⟩
        clear hl he hwx hwy hnx hny hs
        induction hf with
        | nil => rfl
        | cons hr _ ih =>
          have h1 := hx _ (List.mem_cons_self ..)
          have h2 := hy _ (List.mem_cons_self ..)
          rw [List.map_cons, List.map_cons,
            tok_bound n _ _ h1.2.2 h1.1 h2.1 h1.2.1 h2.2 hr,
            ih (fun x hx' => hx x (List.mem_cons_of_mem _ hx'))
              (fun y hy' => hy y (List.mem_cons_of_mem _ hy'))]
      | @hash ps qs a b s' t ident hl he =>
        rw [WF, wfPairs_iff] at hwx hwy
        rw [Narrow, narrowPairs_iff] at hnx hny
        simp only [Val.hash.sizeOf_spec] at hs
        obtain ⟨rfl, hlen, hnx⟩ := hnx
        obtain ⟨rfl, hlen', hny⟩ := hny
        rw [eqlPairs_eq] at he
        cases t with
        | false =>
          have hlen := hlen rfl
          rw [tok, tok]
          match ps, qs, hl, hlen with
          | [], [], _, _ => rfl
          | [(k, v)], [(k', v')], _, _ =>
            obtain ⟨q, hfd, hv⟩ := he (k, v) (by simp)
            have hq := List.mem_of_find?_eq_some hfd
            have hh := List.find?_some hfd
            simp only [List.mem_singleton] at hq
            subst hq
            have sk := sizeOf_pair (ps := [(k, v)]) (p := (k, v)) (by simp)
            dsimp only at sk hv hh
            have wk := hwx.2.1 (k, v) (by simp)
            have wk' := hwy.2.1 (k', v') (by simp)
            have nk := hnx (k, v) (by simp)
            have nk' := hny (k', v') (by simp)
            dsimp only at wk wk' nk nk'
            have e2 := tok_bound n v v' (by omega) wk.2 wk'.2 nk.2 nk'.2 hv
            rw [tokPairs, tokPairs, tokPairs, tokPairs, e2]
            cases ident with
            | true =>
              rw [hit_ident] at hh
              rw [if_pos rfl, if_pos rfl, hh]
            | false =>
              rw [hit_eql] at hh
              rw [if_neg (by simp), if_neg (by simp),
                tok_bound n k k' (by omega) wk.1 wk'.1 nk.1 nk'.1 hh.2]
          | _ :: _ :: _, _, _, hlen => simp at hlen
        | true =>
          rw [tok, tok, tokXor_eq, tokXor_eq]
          obtain ⟨qs', hperm, hf⟩ := match_pairs (equiv_wf (h := h) (hp := hp))
            (fun p hp' => (hwx.2.1 p hp').1)
            (fun p hp' => (hwy.2.1 p hp').1) hwx.2.2.1 hl (R := fun v w => eql h v w = true)
            (fun p hp' => by
              obtain ⟨q, hfd, hv⟩ := he p hp'
              exact ⟨q, List.mem_of_find?_eq_some hfd, List.find?_some hfd, hv⟩)
          rw [← perm_foldl_xor (hperm.map _), map_eq_of_forall₂ hf]
          rintro p q ⟨hp', hq, hh, _⟩
          have sk := sizeOf_pair hp'
          cases ident with
          | true =>
            rw [hit_ident] at hh
            rw [eq_of_id (hwx.2.1 p hp').1 (hwy.2.1 q hq).1 hh]
          | false =>
            rw [hit_eql] at hh
            rw [tok_bound n p.1 q.1 (by omega) (hwx.2.1 p hp').1 (hwy.2.1 q hq).1 (hnx p hp').1
              (hny q hq).1 hh.2]
      | range _ _ _ h1 h2 =>
        rw [WF] at hwx hwy
        rw [Narrow] at hnx hny
        simp only [Val.range.sizeOf_spec] at hs
        rw [tok, tok, tok_bound n _ _ (by omega) hwx.2.1 hwy.2.1 hnx.1 hny.1 h1,
          tok_bound n _ _ (by omega) hwx.2.2 hwy.2.2 hnx.2 hny.2 h2]

theorem tok_eq {s : Bool} {x y : Val} (hwx : WF h hp x) (hwy : WF h hp y) (hnx : Narrow s x)
    (hny : Narrow s y) (he : eql h x y = true) : tok h x = tok h y :=
  tok_bound (sizeOf x) x y (Nat.le_refl _) hwx hwy hnx hny he

theorem hit_of_eql {s : Bool} {x : Val} {q : Val × Val} (hwx : WF h hp x) (hwy : WF h hp q.1)
    (hnx : Narrow s x) (hny : Narrow s q.1) (he : eql h x q.1 = true) :
    hit h false x q = true :=
  hit_eql.2 ⟨by rw [tok_eq hwx hwy hnx hny he], he⟩

/-! ## Structural equality -/

theorem samePairs_iff {ident : Bool} : ∀ {ps qs : List (Val × Val)},
    SamePairs ident ps qs ↔ ∀ p ∈ ps, ∃ q ∈ qs,
      (if ident then p.1 = q.1 else Same p.1 q.1) ∧ Same p.2 q.2
  | [], qs => by simp [SamePairs]
  | (k, v) :: ps, qs => by
    rw [SamePairs, samePairs_iff (ps := ps)]
    simp only [List.mem_cons, forall_eq_or_imp, Prod.exists]

theorem sameList_iff : ∀ {xs ys : List Val}, SameList xs ys ↔ List.Forall₂ Same xs ys
  | [], ys => by simp [SameList]
  | x :: xs, ys => by
    rw [SameList, List.forall₂_cons_left_iff]
    constructor
    · rintro ⟨y, ys', rfl, h1, h2⟩
      exact ⟨y, ys', h1, sameList_iff.1 h2, rfl⟩
    · rintro ⟨y, ys', h1, h2, rfl⟩
      exact ⟨y, ys', rfl, h1, sameList_iff.2 h2⟩

theorem same_refl (x : Val) : Same x x := by
  cases x <;> simp [Same]

theorem narrow_tame_bound {s : Bool} : ∀ (n : Nat) (x : Val), sizeOf x ≤ n → Narrow s x → Tame s x
  | 0, x, hs, _ => by cases x <;> simp at hs
  | n + 1, x, hs, hn => by
    cases x with
    | arr a es =>
      rw [Narrow, narrowList_iff] at hn
      rw [Tame, tameList_iff]
      simp only [Val.arr.sizeOf_spec] at hs
      intro x hx
      have := List.sizeOf_lt_of_mem hx
      exact narrow_tame_bound n x (by omega) (hn x hx)
    | hash a t i ps =>
      rw [Narrow, narrowPairs_iff] at hn
      rw [Tame, tamePairs_iff]
      simp only [Val.hash.sizeOf_spec] at hs
      intro p hp
      have := sizeOf_pair hp
      exact ⟨(hn.2.2 p hp).1, narrow_tame_bound n _ (by omega) (hn.2.2 p hp).2⟩
    | range a b e x =>
      rw [Narrow] at hn
      simp only [Val.range.sizeOf_spec] at hs
      rw [Tame]
      exact ⟨narrow_tame_bound n _ (by omega) hn.1, narrow_tame_bound n _ (by omega) hn.2⟩
    | _ => simp [Tame]

theorem fEq_refl {x : BitVec 64} (hn : isNaN x = false) : fEq x x = true := by
  simp [fEq, hn]

/-- On tame values, `eql?` is structural equality. -/
theorem same_bound {s : Bool} : ∀ (n : Nat) (x y : Val), sizeOf x ≤ n → WF h hp x → WF h hp y →
    Tame s x → Tame s y → (eql h x y = true ↔ Same x y)
  | 0, x, y, hs, _, _, _, _ => by cases x <;> simp at hs
  | n + 1, x, y, hs, hwx, hwy, htx, hty => by
    constructor
    · intro he
      rw [eql_iff] at he
      rcases he with hi | hc
      · rw [eq_of_id hwx hwy hi]; exact same_refl y
      · cases hc with
        | big => exact .inr ⟨_, rfl⟩
        | hflo _ _ he =>
          rw [WF] at hwx hwy
          have hb := fEq_heap hwx.2 hwy.2 he
          subst hb
          refine .inr ⟨_, ?_, rfl⟩
          simp only [fEq, Bool.and_eq_true, Bool.not_eq_true'] at he
          exact he.1.1
        | str => exact .inr ⟨_, rfl⟩
        | @arr xs ys _ _ hl he =>
          rw [WF, wfList_iff] at hwx hwy
          rw [Tame, tameList_iff] at htx hty
          simp only [Val.arr.sizeOf_spec] at hs
          refine .inr ⟨_, _, rfl, sameList_iff.2 ?_⟩
          refine List.Forall₂.imp (fun _ _ hr => hr) ?_
          have hf := (eqlList_iff hl).1 he
          have : ∀ x ∈ xs, ∀ y ∈ ys, eql h x y = true → Same x y := fun x hx y hy he => by
            have := List.sizeOf_lt_of_mem hx
            exact (same_bound n x y (by omega) (hwx.2 x hx) (hwy.2 y hy) (htx x hx) (hty y hy)).1 he
          clear hl he hwx hwy htx hty hs
          induction hf with
          | nil => exact .nil
          | cons hr _ ih =>
            exact .cons (this _ (by simp) _ (by simp) hr)
              (ih (fun x hx y hy => this x (List.mem_cons_of_mem _ hx) y (List.mem_cons_of_mem _ hy)))
        | @hash ps qs a b s' t ident hl he =>
          rw [WF, wfPairs_iff] at hwx hwy
          rw [Tame, tamePairs_iff] at htx hty
          simp only [Val.hash.sizeOf_spec] at hs
          refine .inr ⟨_, _, _, rfl, hl, samePairs_iff.2 ?_⟩
          rw [eqlPairs_eq] at he
          intro p hp'
          obtain ⟨q, hfd, hv⟩ := he p hp'
          have hq := List.mem_of_find?_eq_some hfd
          have hh := List.find?_some hfd
          have sk := sizeOf_pair hp'
          refine ⟨q, hq, ?_, (same_bound n _ _ (by omega) (hwx.2.1 p hp').2 (hwy.2.1 q hq).2
            (htx p hp').2 (hty q hq).2).1 hv⟩
          cases ident with
          | true =>
            rw [hit_ident] at hh
            rw [if_pos rfl]
            exact eq_of_id (hwx.2.1 p hp').1 (hwy.2.1 q hq).1 hh
          | false =>
            rw [hit_eql] at hh
            rw [if_neg (by simp)]
            exact (same_bound n _ _ (by omega) (hwx.2.1 p hp').1 (hwy.2.1 q hq).1
              (narrow_tame_bound _ _ (Nat.le_refl _) (htx p hp').1)
              (narrow_tame_bound _ _ (Nat.le_refl _) (hty q hq).1)).1 hh.2
        | range _ _ _ h1 h2 =>
          rw [WF] at hwx hwy
          rw [Tame] at htx hty
          simp only [Val.range.sizeOf_spec] at hs
          exact .inr ⟨_, _, _, rfl,
            (same_bound n _ _ (by omega) hwx.2.1 hwy.2.1 htx.1 hty.1).1 h1,
            (same_bound n _ _ (by omega) hwx.2.2 hwy.2.2 htx.2 hty.2).1 h2⟩
    · intro hsm
      cases x with
      | fix i => rw [Same] at hsm; subst hsm; exact eql_refl _
      | flo i => rw [Same] at hsm; subst hsm; exact eql_refl _
      | imm i => rw [Same] at hsm; subst hsm; exact eql_refl _
      | obj i => rw [Same] at hsm; subst hsm; exact eql_refl _
      | big a i =>
        rw [Same] at hsm
        rcases hsm with rfl | ⟨c, rfl⟩
        · exact eql_refl _
        · exact eql_iff.2 (.inr (.big _ _ _))
      | str a i =>
        rw [Same] at hsm
        rcases hsm with rfl | ⟨c, rfl⟩
        · exact eql_refl _
        · exact eql_iff.2 (.inr (.str _ _ _))
      | hflo a i =>
        rw [Same] at hsm
        rcases hsm with rfl | ⟨c, hn, rfl⟩
        · exact eql_refl _
        · exact eql_iff.2 (.inr (.hflo _ _ (fEq_refl hn)))
      | arr a xs =>
        rw [Same] at hsm
        rcases hsm with rfl | ⟨c, ys, rfl, hl⟩
        · exact eql_refl _
        · rw [WF, wfList_iff] at hwx hwy
          rw [Tame, tameList_iff] at htx hty
          simp only [Val.arr.sizeOf_spec] at hs
          have hf := sameList_iff.1 hl
          have hlen : xs.length = ys.length := hf.length_eq
          refine eql_iff.2 (.inr (.arr _ _ hlen ((eqlList_iff hlen).2 ?_)))
          have : ∀ x ∈ xs, ∀ y ∈ ys, Same x y → eql h x y = true := fun x hx y hy he => by
            have := List.sizeOf_lt_of_mem hx
            exact (same_bound n x y (by omega) (hwx.2 x hx) (hwy.2 y hy) (htx x hx) (hty y hy)).2 he
          clear hl hlen hwx hwy htx hty hs
          induction hf with
          | nil => exact .nil
          | cons hr _ ih =>
            exact .cons (this _ (by simp) _ (by simp) hr)
              (ih (fun x hx y hy => this x (List.mem_cons_of_mem _ hx) y (List.mem_cons_of_mem _ hy)))
      | hash a t ident ps =>
        rw [Same] at hsm
        rcases hsm with rfl | ⟨c, t', qs, rfl, hl, hpq⟩
        · exact eql_refl _
        · rw [WF, wfPairs_iff] at hwx hwy
          rw [Tame, tamePairs_iff] at htx hty
          simp only [Val.hash.sizeOf_spec] at hs
          refine eql_iff.2 (.inr (.hash _ _ _ _ _ hl (eqlPairs_eq.2 ?_)))
          intro p hp'
          obtain ⟨q, hq, hk, hv⟩ := samePairs_iff.1 hpq p hp'
          have sk := sizeOf_pair hp'
          refine ⟨q, ?_, (same_bound n _ _ (by omega) (hwx.2.1 p hp').2 (hwy.2.1 q hq).2
            (htx p hp').2 (hty q hq).2).2 hv⟩
          refine find_hit (equiv_wf (h := h) (hp := hp)) (fun q hq => (hwy.2.1 q hq).1) hwy.2.2.1
            (hwx.2.1 p hp').1 hq ?_
          cases ident with
          | true =>
            rw [if_pos rfl] at hk
            rw [hit_ident, hk]
          | false =>
            rw [if_neg (by simp)] at hk
            exact hit_of_eql (hwx.2.1 p hp').1 (hwy.2.1 q hq).1 (htx p hp').1 (hty q hq).1
              ((same_bound n _ _ (by omega) (hwx.2.1 p hp').1 (hwy.2.1 q hq).1
                (narrow_tame_bound _ _ (Nat.le_refl _) (htx p hp').1)
                (narrow_tame_bound _ _ (Nat.le_refl _) (hty q hq).1)).2 hk)
      | range a b e x =>
        rw [Same] at hsm
        rcases hsm with rfl | ⟨c, b', e', rfl, h1, h2⟩
        · exact eql_refl _
        · rw [WF] at hwx hwy
          rw [Tame] at htx hty
          simp only [Val.range.sizeOf_spec] at hs
          exact eql_iff.2 (.inr (.range _ _ _
            ((same_bound n _ _ (by omega) hwx.2.1 hwy.2.1 htx.1 hty.1).2 h1)
            ((same_bound n _ _ (by omega) hwx.2.2 hwy.2.2 htx.2 hty.2).2 h2)))

/-! ## The methods -/



theorem pubPairs_eq : ∀ (ps : List (Val × Val)),
    pubPairs h ps = ps.map (fun p => (pubHash h p.1, pubHash h p.2))
  | [] => by simp [pubPairs]
  | (k, v) :: ps => by simp [pubPairs, pubPairs_eq ps]

theorem mixAll_perm {n : Nat} {l l' : List (Int × Int)} (hp : l.Perm l') :
    mixAll n l = mixAll n l' := by
  have : ∀ acc : BitVec 64, l.foldl (fun acc p => acc + pairMix p.1 p.2) acc =
      l'.foldl (fun acc p => acc + pairMix p.1 p.2) acc := by
    intro acc
    generalize pairMix = f
    have := perm_foldl_add (hp.map (fun p => f p.1 p.2)) acc
    simpa only [List.foldl_map] using this
  rw [mixAll, this, mixAll]

/-- On narrow values, values that are the same key have the same `hash`. -/
theorem pubHash_bound {s : Bool} : ∀ (n : Nat) (x y : Val), sizeOf x ≤ n → WF h hp x →
    WF h hp y → Narrow s x → Narrow s y → eql h x y = true → pubHash h x = pubHash h y
  | 0, x, y, hs, _, _, _, _, _ => by cases x <;> simp at hs
  | n + 1, x, y, hs, hwx, hwy, hnx, hny, he => by
    have ht := tok_eq hwx hwy hnx hny he
    rw [eql_iff] at he
    rcases he with hi | hc
    · rw [eq_of_id hwx hwy hi]
    · cases hc with
      | big => simp [pubHash]
      | hflo _ _ he =>
        rw [WF] at hwx hwy
        rw [pubHash, pubHash, fEq_heap hwx.2 hwy.2 he]
      | str => simp [pubHash]
      | arr _ _ hl he =>
        rw [tok, tok] at ht
        rw [pubHash, pubHash, ht]
      | @hash ps qs a b s' t ident hl he =>
        rw [WF, wfPairs_iff] at hwx hwy
        have hnx' := hnx
        have hny' := hny
        rw [Narrow, narrowPairs_iff] at hnx hny
        simp only [Val.hash.sizeOf_spec] at hs
        obtain ⟨rfl, hlen, hnx⟩ := hnx
        obtain ⟨rfl, hlen', hny⟩ := hny
        cases t with
        | true =>
          rw [tok, tok] at ht
          simp only [List.cons.injEq, Tok.i64.injEq, and_true] at ht
          rw [pubHash, pubHash, ht]
        | false =>
          rw [eqlPairs_eq] at he
          have hlen := hlen rfl
          rw [pubHash, pubHash, hl]
          match ps, qs, hl, hlen with
          | [], [], _, _ => rfl
          | [(k, v)], [(k', v')], _, _ =>
            obtain ⟨q, hfd, hv⟩ := he (k, v) (by simp)
            have hq := List.mem_of_find?_eq_some hfd
            have hh := List.find?_some hfd
            simp only [List.mem_singleton] at hq
            subst hq
            have sk := sizeOf_pair (ps := [(k, v)]) (p := (k, v)) (by simp)
            dsimp only at sk hv hh
            have wk := hwx.2.1 (k, v) (by simp)
            have wk' := hwy.2.1 (k', v') (by simp)
            have nk := hnx (k, v) (by simp)
            have nk' := hny (k', v') (by simp)
            dsimp only at wk wk' nk nk'
            have e2 := pubHash_bound n v v' (by omega) wk.2 wk'.2 nk.2 nk'.2 hv
            rw [pubPairs_eq, pubPairs_eq]
            simp only [List.map_cons, List.map_nil, e2]
            cases ident with
            | true =>
              rw [hit_ident] at hh
              rw [eq_of_id wk.1 wk'.1 hh]
            | false =>
              rw [hit_eql] at hh
              rw [pubHash_bound n k k' (by omega) wk.1 wk'.1 nk.1 nk'.1 hh.2]
          | _ :: _ :: _, _, _, hlen => simp at hlen
      | range _ _ _ h1 h2 =>
        rw [WF] at hwx hwy
        rw [Narrow] at hnx hny
        rw [pubHash, pubHash, tok_eq hwx.2.1 hwy.2.1 hnx.1 hny.1 h1,
          tok_eq hwx.2.2 hwy.2.2 hnx.2 hny.2 h2]

theorem fEq_norm {x y : BitVec 64} (he : fEq x y = true) : normZero x = normZero y := by
  simp only [fEq, Bool.and_eq_true, Bool.or_eq_true, beq_iff_eq] at he
  rcases he.2 with h1 | ⟨h1, h2⟩
  · rw [h1]
  · simp [normZero, h1, h2]

theorem endpoint_tok {x y : Val} (hwx : WF h hp x) (hwy : WF h hp y) (hx : Endpoint x)
    (hy : Endpoint y) (he : pubEql h x y = true) : tok h x = tok h y := by
  cases x with
  | fix i =>
    cases y <;> simp [pubEql, Val.id] at he
    rw [he]
  | imm i =>
    cases y <;> simp [pubEql, Val.id] at he
    rw [he]
  | obj a =>
    simp only [pubEql, beq_iff_eq] at he
    rw [eq_of_id hwx hwy he.symm]
  | big a i =>
    simp only [pubEql, beq_iff_eq, Bool.or_eq_true] at he
    rcases he with he | he
    · rw [eq_of_id hwx hwy he.symm]
    · cases y <;> simp at he
      simp [tok, he]
  | str a l =>
    cases y <;> simp [pubEql] at he
    simp [tok, he]
  | arr => simp [Endpoint] at hx
  | hash => simp [Endpoint] at hx
  | range => simp [Endpoint] at hx
  | flo b =>
    cases y <;> simp [pubEql, Val.float?] at he
    · simp [tok, fEq_norm he]
    · simp only [WF] at hwx hwy
      simp only [Endpoint] at hy
      simp only [fEq, Bool.and_eq_true, Bool.or_eq_true, beq_iff_eq] at he
      rcases he.2 with h1 | ⟨h1, h2⟩
      · rw [h1, hwy.2] at hwx; simp at hwx
      · rw [hy] at h2; simp at h2
  | hflo a b =>
    cases y <;> simp [pubEql, Val.float?] at he
    · simp only [WF] at hwx hwy
      simp only [Endpoint] at hx
      simp only [fEq, Bool.and_eq_true, Bool.or_eq_true, beq_iff_eq] at he
      rcases he.2 with h1 | ⟨h1, h2⟩
      · rw [h1, hwy] at hwx; simp at hwx
      · rw [hx] at h1; simp at h1
    · rw [WF] at hwx hwy
      rw [tok, tok, fEq_heap hwx.2 hwy.2 he]

theorem pubEqlPairs_eq {ident : Bool} : ∀ {ps qs : List (Val × Val)},
    pubEqlPairs h ident ps qs = true ↔
      ∀ p ∈ ps, ∃ q, qs.find? (hit h ident p.1) = some q ∧ pubEql h p.2 q.2 = true
  | [], qs => by simp [pubEqlPairs]
  | (k, v) :: ps, qs => by
    rw [pubEqlPairs, Bool.and_eq_true, pubEqlPairs_eq (ps := ps)]
    simp only [List.mem_cons, forall_eq_or_imp]
    apply and_congr_left'
    rw [get]
    cases qs.find? (hit h ident k) <;> simp

theorem pub_bound {s t : Bool} : ∀ (n : Nat) (x y : Val), sizeOf x ≤ n → WF h hp x →
    WF h hp y → Outer s t x → Outer s t y → pubEql h x y = true → pubHash h x = pubHash h y
  | 0, x, y, hs, _, _, _, _, _ => by cases x <;> simp at hs
  | n + 1, x, y, hs, hwx, hwy, hox, hoy, he => by
    cases x with
    | fix i =>
      cases y <;> simp [pubEql, Val.id] at he
      rw [he]
    | imm i =>
      cases y <;> simp [pubEql, Val.id] at he
      rw [he]
    | obj a =>
      simp only [pubEql, beq_iff_eq] at he
      rw [eq_of_id hwx hwy he.symm]
    | big a i =>
      simp only [pubEql, beq_iff_eq, Bool.or_eq_true] at he
      rcases he with he | he
      · rw [eq_of_id hwx hwy he.symm]
      · cases y <;> simp at he
        simp [pubHash, he]
    | str a l =>
      cases y <;> simp [pubEql] at he
      simp [pubHash, he]
    | flo b =>
      cases y <;> simp [pubEql, Val.float?] at he <;> simp [pubHash, fEq_norm he]
    | hflo a b =>
      cases y <;> simp [pubEql, Val.float?] at he <;> simp [pubHash, fEq_norm he]
    | arr a xs =>
      cases y <;> simp [pubEql] at he
      rename_i a' ys
      have he' : eql h (.arr a xs) (.arr a' ys) = true :=
        eql_iff.2 (.inr (.arr _ _ he.1 he.2))
      rw [Outer] at hox hoy
      exact pubHash_bound _ _ _ (Nat.le_refl _) hwx hwy (by rw [Narrow]; exact hox)
        (by rw [Narrow]; exact hoy) he'
    | range a b e x =>
      cases y <;> simp [pubEql] at he
      rename_i a' b' e' x'
      rw [WF] at hwx hwy
      rw [Outer] at hox hoy
      rw [pubHash, pubHash, he.1, endpoint_tok hwx.2.1 hwy.2.1 hox.1 hoy.1 he.2.1,
        endpoint_tok hwx.2.2 hwy.2.2 hox.2 hoy.2 he.2.2]
    | hash a r ident ps =>
      cases y with
      | hash a' r' jdent qs =>
        rw [WF, wfPairs_iff] at hwx hwy
        rw [Outer, outerPairs_iff] at hox hoy
        simp only [Val.hash.sizeOf_spec] at hs
        obtain ⟨rfl, hox⟩ := hox
        obtain ⟨rfl, hoy⟩ := hoy
        cases r' with
        | true =>
          simp only [pubEql, Bool.and_eq_true, beq_iff_eq, List.all_eq_true, List.any_eq_true] at he
          obtain ⟨⟨rfl, hl⟩, he⟩ := he
          rw [pubHash, pubHash, tokXor_eq, tokXor_eq]
          obtain ⟨qs', hperm, hf⟩ := match_pairs (equiv_wf (h := h) (hp := hp))
            (fun p hp' => (hwx.2.1 p hp').1)
            (fun p hp' => (hwy.2.1 p hp').1) hwx.2.2.1 hl (R := fun v w => True)
            (fun p hp' => by
              obtain ⟨q, hq, hh⟩ := he p hp'
              exact ⟨q, hq, hh, trivial⟩)
          rw [← perm_foldl_xor (hperm.map _), map_eq_of_forall₂ hf]
          rintro p q ⟨hp', hq, hh, _⟩
          cases ident with
          | true =>
            rw [hit_ident] at hh
            rw [eq_of_id (hwx.2.1 p hp').1 (hwy.2.1 q hq).1 hh]
          | false =>
            rw [hit_eql] at hh
            rw [tok_eq (hwx.2.1 p hp').1 (hwy.2.1 q hq).1 (hox p hp').1 (hoy q hq).1 hh.2]
        | false =>
          simp only [pubEql, Bool.and_eq_true, beq_iff_eq, Bool.or_eq_true] at he
          obtain ⟨⟨hl, hid⟩, he⟩ := he
          rw [pubEqlPairs_eq] at he
          rw [pubHash, pubHash, hl, pubPairs_eq, pubPairs_eq]
          rcases hid with h0 | rfl
          · have e1 : ps = [] := List.eq_nil_of_length_eq_zero h0
            have e2 : qs = [] := List.eq_nil_of_length_eq_zero (hl ▸ h0)
            rw [e1, e2]
          · obtain ⟨qs', hperm, hf⟩ := match_pairs (equiv_wf (h := h) (hp := hp))
              (fun p hp' => (hwx.2.1 p hp').1)
              (fun p hp' => (hwy.2.1 p hp').1) hwx.2.2.1 hl
              (R := fun v w => pubEql h v w = true)
              (fun p hp' => by
                obtain ⟨q, hfd, hv⟩ := he p hp'
                exact ⟨q, List.mem_of_find?_eq_some hfd, List.find?_some hfd, hv⟩)
            rw [← mixAll_perm (hperm.map _), map_eq_of_forall₂ hf]
            rintro p q ⟨hp', hq, hh, hv⟩
            have sk := sizeOf_pair hp'
            rw [pub_bound n p.2 q.2 (by omega) (hwx.2.1 p hp').2 (hwy.2.1 q hq).2 (hox p hp').2
              (hoy q hq).2 hv]
            cases ident with
            | true =>
              rw [hit_ident] at hh
              rw [eq_of_id (hwx.2.1 p hp').1 (hwy.2.1 q hq).1 hh]
            | false =>
              rw [hit_eql] at hh
              rw [pubHash_bound _ _ _ (Nat.le_refl _) (hwx.2.1 p hp').1 (hwy.2.1 q hq).1
                (hox p hp').1 (hoy q hq).1 hh.2]
      | _ => cases r <;> simp [pubEql] at he

end Verif.Eql
