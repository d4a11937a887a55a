import Verif.Eql.Spec
import Mathlib.Data.List.Forall2

namespace Verif.Eql

variable {h : Hashers} {hp : Nat → Option Val}

/-! ## Matching two lists -/

theorem match_lists {α β : Type} {R : α → β → Prop} : ∀ {ps : List α} {qs : List β},
    ps.length = qs.length →
    (∀ p ∈ ps, ∃ q ∈ qs, R p q) →
    ps.Pairwise (fun p p' => ∀ q ∈ qs, R p q → R p' q → False) →
    ∃ qs', qs'.Perm qs ∧ List.Forall₂ R ps qs'
  | [], qs, hl, _, _ => ⟨[], by
      have : qs = [] := List.eq_nil_of_length_eq_zero (by simpa using hl.symm)
      subst this; exact List.Perm.refl _, .nil⟩
  | p :: ps, qs, hl, tot, inj => by
    obtain ⟨q, hq, hr⟩ := tot p (by simp)
    obtain ⟨l₁, l₂, rfl⟩ := List.append_of_mem hq
    rw [List.pairwise_cons] at inj
    obtain ⟨qs', hperm, hf⟩ := match_lists (R := R) (ps := ps) (qs := l₁ ++ l₂)
      (by simp at hl ⊢; omega)
      (fun p' hp' => by
        obtain ⟨q', hq', hr'⟩ := tot p' (List.mem_cons_of_mem _ hp')
        rcases List.mem_append.1 hq' with hm | hm
        · exact ⟨q', List.mem_append_left _ hm, hr'⟩
        · rcases List.mem_cons.1 hm with rfl | hm
          · exact (inj.1 p' hp' _ hq hr hr').elim
          · exact ⟨q', List.mem_append_right _ hm, hr'⟩)
      (inj.2.imp (fun hi q' hq' => hi q' (by
        rcases List.mem_append.1 hq' with hm | hm <;> simp [hm])))
    exact ⟨q :: qs', (hperm.cons q).trans List.perm_middle.symm, .cons hr hf⟩

theorem forall₂_mem {α β : Type} {R : α → β → Prop} : ∀ {ps : List α} {qs : List β},
    List.Forall₂ R ps qs → ∀ q ∈ qs, ∃ p ∈ ps, R p q
  | _, _, .nil, q, hq => by simp at hq
  | _, _, .cons hr hf, q, hq => by
    rcases List.mem_cons.1 hq with rfl | hq
    · exact ⟨_, by simp, hr⟩
    · obtain ⟨p, hp, hr'⟩ := forall₂_mem hf q hq
      exact ⟨p, List.mem_cons_of_mem _ hp, hr'⟩

/-! ## Lists of values -/

theorem wfList_iff : ∀ {xs : List Val}, WFList h hp xs ↔ ∀ x ∈ xs, WF h hp x
  | [] => by simp [WFList]
  | x :: xs => by simp [WFList, wfList_iff (xs := xs)]

theorem wfPairs_iff : ∀ {ps : List (Val × Val)},
    WFPairs h hp ps ↔ ∀ p ∈ ps, WF h hp p.1 ∧ WF h hp p.2
  | [] => by simp [WFPairs]
  | (k, v) :: ps => by
    rw [WFPairs, wfPairs_iff (ps := ps)]
    simp only [List.mem_cons, forall_eq_or_imp, and_assoc]

theorem narrowList_iff {s : Bool} : ∀ {xs : List Val}, NarrowList s xs ↔ ∀ x ∈ xs, Narrow s x
  | [] => by simp [NarrowList]
  | x :: xs => by simp [NarrowList, narrowList_iff (xs := xs)]

theorem narrowPairs_iff {s : Bool} : ∀ {ps : List (Val × Val)},
    NarrowPairs s ps ↔ ∀ p ∈ ps, Narrow s p.1 ∧ Narrow s p.2
  | [] => by simp [NarrowPairs]
  | (k, v) :: ps => by
    rw [NarrowPairs, narrowPairs_iff (ps := ps)]
    simp only [List.mem_cons, forall_eq_or_imp, and_assoc]

theorem tamePairs_iff {s : Bool} : ∀ {ps : List (Val × Val)},
    TamePairs s ps ↔ ∀ p ∈ ps, Narrow s p.1 ∧ Tame s p.2
  | [] => by simp [TamePairs]
  | (k, v) :: ps => by
    rw [TamePairs, tamePairs_iff (ps := ps)]
    simp only [List.mem_cons, forall_eq_or_imp, and_assoc]

theorem tameList_iff {s : Bool} : ∀ {xs : List Val}, TameList s xs ↔ ∀ x ∈ xs, Tame s x
  | [] => by simp [TameList]
  | x :: xs => by simp [TameList, tameList_iff (xs := xs)]

theorem outerPairs_iff {s t : Bool} : ∀ {ps : List (Val × Val)},
    OuterPairs s t ps ↔ ∀ p ∈ ps, Narrow s p.1 ∧ Outer s t p.2
  | [] => by simp [OuterPairs]
  | (k, v) :: ps => by
    rw [OuterPairs, outerPairs_iff (ps := ps)]
    simp only [List.mem_cons, forall_eq_or_imp, and_assoc]

theorem sizeOf_pair {ps : List (Val × Val)} {p : Val × Val} (hm : p ∈ ps) :
    sizeOf p.1 < sizeOf ps ∧ sizeOf p.2 < sizeOf ps := by
  have := List.sizeOf_lt_of_mem hm
  obtain ⟨k, v⟩ := p
  simp only [Prod.mk.sizeOf_spec] at this
  dsimp only
  omega

/-! ## The same word is the same value -/

theorem wf_addr {x : Val} {a : Nat} (hx : WF h hp x) (hi : x.id = .addr a) :
    hp a = some x := by
  cases x <;> simp only [Val.id, Id.addr.injEq, reduceCtorEq] at hi <;> subst hi <;>
    simp only [WF] at hx <;> first | exact hx | exact hx.1

theorem eq_of_id {x y : Val} (hx : WF h hp x) (hy : WF h hp y) (hi : x.id = y.id) : x = y := by
  by_cases hc : ∃ a, x.id = .addr a
  · obtain ⟨a, ha⟩ := hc
    have h1 := wf_addr hx ha
    have h2 := wf_addr hy (hi ▸ ha)
    rw [h1] at h2
    exact Option.some.inj h2
  · cases x <;> simp [Val.id] at hc <;> cases y <;> simp [Val.id] at hi <;> rw [hi]

theorem eql_of_id {x y : Val} (hi : x.id = y.id) : eql h x y = true := by
  cases x <;> cases y <;> simp_all [eql, Val.id]

theorem eql_refl (x : Val) : eql h x x = true := eql_of_id rfl

/-- the ways in which two different objects are `eql?` -/
inductive Content (h : Hashers) : Val → Val → Prop where
  | big (a b i) : Content h (.big a i) (.big b i)
  | hflo {b c} (a a') : fEq b c = true → Content h (.hflo a b) (.hflo a' c)
  | str (a b l) : Content h (.str a l) (.str b l)
  | arr {xs ys} (a b) : xs.length = ys.length → eqlList h xs ys = true →
      Content h (.arr a xs) (.arr b ys)
  | hash {ps qs} (a b s t ident) : ps.length = qs.length → eqlPairs h ident ps qs = true →
      Content h (.hash a s ident ps) (.hash b t ident qs)
  | range {b e b' e'} (a c x) : eql h b b' = true → eql h e e' = true →
      Content h (.range a b e x) (.range c b' e' x)

theorem eql_iff {x y : Val} : eql h x y = true ↔ x.id = y.id ∨ Content h x y := by
  constructor
  · intro he
    cases x <;> cases y <;> simp only [eql, Val.id, Bool.or_eq_true, Bool.and_eq_true, beq_iff_eq,
      Id.addr.injEq, Id.fix.injEq, Id.flo.injEq, Id.imm.injEq, reduceCtorEq, or_false, Bool.false_eq_true] at he ⊢ <;>
      first
        | (left; exact he.symm)
        | (rcases he with he | he
           · left; exact he.symm
           · right
             first
              | (subst he; constructor)
              | exact .hflo _ _ he
              | exact .arr _ _ he.1 he.2
              | (obtain ⟨⟨hs, hl⟩, hpq⟩ := he; subst hs; exact .hash _ _ _ _ _ hl hpq)
              | (obtain ⟨⟨hs, hl⟩, hpq⟩ := he; subst hpq; exact .range _ _ _ hs hl))
  · rintro (hi | hc)
    · exact eql_of_id hi
    · cases hc <;> simp_all [eql, Val.id]

/-! ## Lookup -/

theorem hit_ident {k : Val} {q : Val × Val} : hit h true k q = true ↔ k.id = q.1.id := by
  simp [hit]

theorem hit_eql {k : Val} {q : Val × Val} :
    hit h false k q = true ↔ h.T (tok h k) = h.T (tok h q.1) ∧ eql h k q.1 = true := by
  simp [hit]

theorem eqlPairs_eq {ident : Bool} : ∀ {ps qs : List (Val × Val)},
    eqlPairs h ident ps qs = true ↔
      ∀ p ∈ ps, ∃ q, qs.find? (hit h ident p.1) = some q ∧ eql h p.2 q.2 = true
  | [], qs => by simp [eqlPairs]
  | (k, v) :: ps, qs => by
    rw [eqlPairs, Bool.and_eq_true, eqlPairs_eq (ps := ps)]
    simp only [List.mem_cons, forall_eq_or_imp]
    apply and_congr_left'
    change (match qs.find? (hit h ident k) with | none => false | some q => eql h v q.2) = true ↔ _
    cases qs.find? (hit h ident k) <;> simp

theorem eqlList_iff : ∀ {xs ys : List Val}, xs.length = ys.length →
    (eqlList h xs ys = true ↔ List.Forall₂ (fun x y => eql h x y = true) xs ys)
  | [], [], _ => by simp [eqlList]
  | x :: xs, y :: ys, hl => by
    rw [eqlList, Bool.and_eq_true, eqlList_iff (by simpa using hl), List.forall₂_cons]

/-- On these keys `eql?` is symmetric and transitive. -/
def Equiv (h : Hashers) (ks : Val → Prop) : Prop :=
  (∀ x y, ks x → ks y → eql h x y = true → eql h y x = true) ∧
  (∀ x y z, ks x → ks y → ks z → eql h x y = true → eql h y z = true → eql h x z = true)

theorem hit_symm {ks : Val → Prop} (he : Equiv h ks) {ident : Bool} {k : Val} {q : Val × Val}
    {v : Val} (hk : ks k) (hq : ks q.1) (hh : hit h ident k q = true) :
    hit h ident q.1 (k, v) = true := by
  cases ident
  · rw [hit_eql] at hh ⊢
    exact ⟨hh.1.symm, he.1 _ _ hk hq hh.2⟩
  · rw [hit_ident] at hh ⊢
    exact hh.symm

theorem hit_trans {ks : Val → Prop} (he : Equiv h ks) {ident : Bool} {k : Val} {q r : Val × Val}
    (hk : ks k) (hq : ks q.1) (hr : ks r.1) (hh : hit h ident k q = true)
    (hh' : hit h ident q.1 r = true) : hit h ident k r = true := by
  cases ident
  · rw [hit_eql] at hh hh' ⊢
    exact ⟨hh.1.trans hh'.1, he.2 _ _ _ hk hq hr hh.2 hh'.2⟩
  · rw [hit_ident] at hh hh' ⊢
    exact hh.trans hh'

/-- Two different entries of a Hash are not both found by one key. -/
theorem find_hit {ks : Val → Prop} (he : Equiv h ks) {ident : Bool} {qs : List (Val × Val)}
    (hks : ∀ q ∈ qs, ks q.1)
    (hd : qs.Pairwise (fun p q => hit h ident q.1 p = false)) {k : Val} (hk : ks k)
    {q : Val × Val} (hq : q ∈ qs) (hh : hit h ident k q = true) :
    qs.find? (hit h ident k) = some q := by
  induction qs with
  | nil => simp at hq
  | cons p qs ih =>
    rw [List.pairwise_cons] at hd
    rcases List.mem_cons.1 hq with rfl | hq'
    · rw [List.find?_cons_of_pos hh]
    · have hp' : ks p.1 := hks p (by simp)
      have hq2 : ks q.1 := hks q (List.mem_cons_of_mem _ hq')
      have hn : hit h ident k p = false := by
        by_contra hc
        have hc : hit h ident k p = true := by simpa using hc
        have h1 : hit h ident q.1 (k, k) = true := hit_symm he hk hq2 hh
        have h2 := hit_trans he (q := (k, k)) hq2 hk hp' h1 hc
        rw [hd.1 q hq'] at h2
        exact Bool.false_ne_true h2
      rw [List.find?_cons_of_neg (by simp [hn])]
      exact ih (fun q hq => hks q (List.mem_cons_of_mem _ hq)) hd.2 hq'

/-- The matching of the pairs of two Hashes, given a relation on the values. -/
theorem match_pairs {ks : Val → Prop} (he : Equiv h ks) {ident : Bool}
    {ps qs : List (Val × Val)} (hps : ∀ p ∈ ps, ks p.1) (hqs : ∀ q ∈ qs, ks q.1)
    (hd : ps.Pairwise (fun p q => hit h ident q.1 p = false)) (hl : ps.length = qs.length)
    {R : Val → Val → Prop}
    (ht : ∀ p ∈ ps, ∃ q ∈ qs, hit h ident p.1 q = true ∧ R p.2 q.2) :
    ∃ qs', qs'.Perm qs ∧
      List.Forall₂ (fun p q => p ∈ ps ∧ q ∈ qs ∧ hit h ident p.1 q = true ∧ R p.2 q.2) ps qs' := by
  apply match_lists hl
  · intro p hp'
    obtain ⟨q, hq, hh⟩ := ht p hp'
    exact ⟨q, hq, hp', hq, hh⟩
  · refine List.Pairwise.imp_of_mem ?_ hd
    rintro p p' hp1 hp2 hn q hq ⟨_, _, h1, _⟩ ⟨_, _, h2, _⟩
    have h3 : hit h ident q.1 (p.1, p.2) = true := hit_symm he (hps p hp1) (hqs q hq) h1
    have h4 := hit_trans he (r := (p.1, p.2)) (hps p' hp2) (hqs q hq) (hps p hp1) h2 h3
    have : ((p.1, p.2) : Val × Val) = p := rfl
    rw [this, hn] at h4
    exact Bool.false_ne_true h4

theorem fEq_symm {x y : BitVec 64} (he : fEq x y = true) : fEq y x = true := by
  simp only [fEq, Bool.and_eq_true, Bool.or_eq_true, beq_iff_eq] at he ⊢
  refine ⟨⟨he.1.2, he.1.1⟩, ?_⟩
  rcases he.2 with h1 | h1
  · exact .inl h1.symm
  · exact .inr ⟨h1.2, h1.1⟩

theorem fEq_trans {x y z : BitVec 64} (he : fEq x y = true) (he' : fEq y z = true) :
    fEq x z = true := by
  simp only [fEq, Bool.and_eq_true, Bool.or_eq_true, beq_iff_eq] at he he' ⊢
  refine ⟨⟨he.1.1, he'.1.2⟩, ?_⟩
  rcases he.2 with h1 | h1
  · subst h1; exact he'.2
  · rcases he'.2 with h2 | h2
    · subst h2; exact .inr h1
    · exact .inr ⟨h1.1, h2.2⟩

theorem forall₂_symm {xs ys : List Val} (hsymm : ∀ x ∈ xs, ∀ y ∈ ys, eql h x y = true → eql h y x = true)
    (hf : List.Forall₂ (fun x y => eql h x y = true) xs ys) :
    List.Forall₂ (fun x y => eql h x y = true) ys xs := by
  induction hf with
  | nil => exact .nil
  | cons hr _ ih =>
    exact .cons (hsymm _ (by simp) _ (by simp) hr)
      (ih (fun x hx y hy => hsymm x (List.mem_cons_of_mem _ hx) y (List.mem_cons_of_mem _ hy)))

theorem forall₂_trans {xs ys zs : List Val}
    (htr : ∀ x ∈ xs, ∀ y ∈ ys, ∀ z ∈ zs, eql h x y = true → eql h y z = true → eql h x z = true)
    (hf : List.Forall₂ (fun x y => eql h x y = true) xs ys)
    (hg : List.Forall₂ (fun x y => eql h x y = true) ys zs) :
    List.Forall₂ (fun x y => eql h x y = true) xs zs := by
  induction hf generalizing zs with
  | nil => cases hg; exact .nil
  | cons hr _ ih =>
    cases hg with
    | cons hr' hg' =>
      exact .cons (htr _ (by simp) _ (by simp) _ (by simp) hr hr')
        (ih (fun x hx y hy z hz => htr x (List.mem_cons_of_mem _ hx) y (List.mem_cons_of_mem _ hy)
          z (List.mem_cons_of_mem _ hz)) hg')

/-- `eql?` is symmetric and transitive on the values of a program of size at most `n`. -/
theorem equiv_bound : ∀ n : Nat, Equiv h (fun x => WF h hp x ∧ sizeOf x ≤ n)
  | 0 => by
    constructor
    · rintro x y ⟨_, hx⟩
      cases x <;> simp at hx
    · rintro x y z ⟨_, hx⟩
      cases x <;> simp at hx
  | n + 1 => by
    have ih := equiv_bound n
    constructor
    · rintro x y ⟨hwx, hsx⟩ ⟨hwy, hsy⟩ he
      rw [eql_iff] at he ⊢
      rcases he with hi | hc
      · exact .inl hi.symm
      · right
        cases hc with
        | big => constructor
        | hflo _ _ he => exact .hflo _ _ (fEq_symm he)
        | str => constructor
        | arr _ _ hl he =>
          rw [WF, wfList_iff] at hwx hwy
          refine .arr _ _ hl.symm ((eqlList_iff hl.symm).2 (forall₂_symm ?_ ((eqlList_iff hl).1 he)))
          intro x hx y hy
          have h1 := List.sizeOf_lt_of_mem hx
          have h2 := List.sizeOf_lt_of_mem hy
          simp only [Val.arr.sizeOf_spec] at hsx hsy
          exact ih.1 x y ⟨hwx.2 x hx, by omega⟩ ⟨hwy.2 y hy, by omega⟩
        | @hash ps qs _ _ _ _ ident hl he =>
          rw [WF, wfPairs_iff] at hwx hwy
          simp only [Val.hash.sizeOf_spec] at hsx hsy
          have hps : ∀ p ∈ ps, (WF h hp p.1 ∧ sizeOf p.1 ≤ n) ∧ (WF h hp p.2 ∧ sizeOf p.2 ≤ n) :=
            fun p hp' => by
              have := sizeOf_pair hp'
              exact ⟨⟨(hwx.2.1 p hp').1, by omega⟩, ⟨(hwx.2.1 p hp').2, by omega⟩⟩
          have hqs : ∀ p ∈ qs, (WF h hp p.1 ∧ sizeOf p.1 ≤ n) ∧ (WF h hp p.2 ∧ sizeOf p.2 ≤ n) :=
            fun p hp' => by
              have := sizeOf_pair hp'
              exact ⟨⟨(hwy.2.1 p hp').1, by omega⟩, ⟨(hwy.2.1 p hp').2, by omega⟩⟩
          rw [eqlPairs_eq] at he
          obtain ⟨qs', hperm, hf⟩ := match_pairs ih (fun p hp' => (hps p hp').1)
            (fun p hp' => (hqs p hp').1) hwx.2.2.1 hl (R := fun v w => eql h v w = true)
            (fun p hp' => by
              obtain ⟨q, hfd, hv⟩ := he p hp'
              exact ⟨q, List.mem_of_find?_eq_some hfd, List.find?_some hfd, hv⟩)
          refine .hash _ _ _ _ _ hl.symm (eqlPairs_eq.2 ?_)
          intro q hq
          obtain ⟨p, hp', _, _, hh, hv⟩ := forall₂_mem hf q (hperm.mem_iff.2 hq)
          have hh' : hit h ident q.1 (p.1, p.2) = true := hit_symm ih (hps p hp').1 (hqs q hq).1 hh
          exact ⟨p, find_hit ih (fun p hp' => (hps p hp').1) hwx.2.2.1 (hqs q hq).1 hp' hh',
            ih.1 _ _ (hps p hp').2 (hqs q hq).2 hv⟩
        | range _ _ _ h1 h2 =>
          rw [WF] at hwx hwy
          simp only [Val.range.sizeOf_spec] at hsx hsy
          exact .range _ _ _ (ih.1 _ _ ⟨hwx.2.1, by omega⟩ ⟨hwy.2.1, by omega⟩ h1)
            (ih.1 _ _ ⟨hwx.2.2, by omega⟩ ⟨hwy.2.2, by omega⟩ h2)
    · rintro x y z ⟨hwx, hsx⟩ ⟨hwy, hsy⟩ ⟨hwz, hsz⟩ he he'
      rw [eql_iff] at he he'
      rcases he with hi | hc
      · rw [eq_of_id hwx hwy hi]
        exact eql_iff.2 he'
      rcases he' with hi' | hc'
      · rw [← eq_of_id hwy hwz hi']
        exact eql_iff.2 (.inr hc)
      refine eql_iff.2 (.inr ?_)
      cases hc with
      | big => cases hc'; constructor
      | hflo _ _ he => cases hc' with | hflo _ _ he' => exact .hflo _ _ (fEq_trans he he')
      | str => cases hc'; constructor
      | arr _ _ hl he =>
        cases hc' with
        | arr _ _ hl' he' =>
          rw [WF, wfList_iff] at hwx hwy hwz
          refine .arr _ _ (hl.trans hl') ((eqlList_iff (hl.trans hl')).2
            (forall₂_trans ?_ ((eqlList_iff hl).1 he) ((eqlList_iff hl').1 he')))
          intro x hx y hy z hz
          have h1 := List.sizeOf_lt_of_mem hx
          have h2 := List.sizeOf_lt_of_mem hy
          have h3 := List.sizeOf_lt_of_mem hz
          simp only [Val.arr.sizeOf_spec] at hsx hsy hsz
          exact ih.2 x y z ⟨hwx.2 x hx, by omega⟩ ⟨hwy.2 y hy, by omega⟩ ⟨hwz.2 z hz, by omega⟩
      | @hash ps qs _ _ _ _ ident hl he =>
        cases hc' with
        | @hash _ rs _ _ _ _ _ hl' he' =>
          rw [WF, wfPairs_iff] at hwx hwy hwz
          simp only [Val.hash.sizeOf_spec] at hsx hsy hsz
          have hps : ∀ p ∈ ps, (WF h hp p.1 ∧ sizeOf p.1 ≤ n) ∧ (WF h hp p.2 ∧ sizeOf p.2 ≤ n) :=
            fun p hp' => by
              have := sizeOf_pair hp'
              exact ⟨⟨(hwx.2.1 p hp').1, by omega⟩, ⟨(hwx.2.1 p hp').2, by omega⟩⟩
          have hqs : ∀ p ∈ qs, (WF h hp p.1 ∧ sizeOf p.1 ≤ n) ∧ (WF h hp p.2 ∧ sizeOf p.2 ≤ n) :=
            fun p hp' => by
              have := sizeOf_pair hp'
              exact ⟨⟨(hwy.2.1 p hp').1, by omega⟩, ⟨(hwy.2.1 p hp').2, by omega⟩⟩
          have hrs : ∀ p ∈ rs, (WF h hp p.1 ∧ sizeOf p.1 ≤ n) ∧ (WF h hp p.2 ∧ sizeOf p.2 ≤ n) :=
            fun p hp' => by
              have := sizeOf_pair hp'
              exact ⟨⟨(hwz.2.1 p hp').1, by omega⟩, ⟨(hwz.2.1 p hp').2, by omega⟩⟩
          rw [eqlPairs_eq] at he he'
          refine .hash _ _ _ _ _ (hl.trans hl') (eqlPairs_eq.2 ?_)
          intro p hp'
          obtain ⟨q, hfd, hv⟩ := he p hp'
          have hq := List.mem_of_find?_eq_some hfd
          obtain ⟨r, hfd', hv'⟩ := he' q hq
          have hr := List.mem_of_find?_eq_some hfd'
          have hh := hit_trans ih (hps p hp').1 (hqs q hq).1 (hrs r hr).1
            (List.find?_some hfd) (List.find?_some hfd')
          exact ⟨r, find_hit ih (fun p hp' => (hrs p hp').1) hwz.2.2.1 (hps p hp').1 hr hh,
            ih.2 _ _ _ (hps p hp').2 (hqs q hq).2 (hrs r hr).2 hv hv'⟩
      | range _ _ _ h1 h2 =>
        cases hc' with
        | range _ _ _ h3 h4 =>
          rw [WF] at hwx hwy hwz
          simp only [Val.range.sizeOf_spec] at hsx hsy hsz
          exact .range _ _ _
            (ih.2 _ _ _ ⟨hwx.2.1, by omega⟩ ⟨hwy.2.1, by omega⟩ ⟨hwz.2.1, by omega⟩ h1 h3)
            (ih.2 _ _ _ ⟨hwx.2.2, by omega⟩ ⟨hwy.2.2, by omega⟩ ⟨hwz.2.2, by omega⟩ h2 h4)

theorem equiv_wf : Equiv h (WF h hp) :=
  ⟨fun x y hx hy => (equiv_bound (sizeOf x + sizeOf y)).1 x y ⟨hx, by omega⟩ ⟨hy, by omega⟩,
   fun x y z hx hy hz => (equiv_bound (sizeOf x + sizeOf y + sizeOf z)).2 x y z
    ⟨hx, by omega⟩ ⟨hy, by omega⟩ ⟨hz, by omega⟩⟩

end Verif.Eql
