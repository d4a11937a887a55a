import Verif.Spawn.Model
/-!
# Redirections of spawn mean what they say (C166)
-/

namespace Verif.Spawn

/-- The file behind a descriptor of the parent. -/
def src (t : T) (n : Nat) : Option Nat := (t n).map (·.1)

def base (t : T) : Target → Option Nat
  | .fd s => src t s
  | .file f => some f
  | .close => none
  | .child n => src t n

/-- The redirection of a descriptor. -/
def find : List Redirect → Nat → Option Target
  | [], _ => none
  | r :: rs, fd => if fd ∈ r.fds then some r.target else find rs fd

/-- What the child should find behind a redirected descriptor: sources are those of
the parent, those of `[:child, n]` are those of the child. -/
def wanted (t : T) (rs : List Redirect) : Target → Option Nat
  | .child n =>
    match find rs n with
    | some g => base t g
    | none => src t n
  | g => base t g

/-- What holds between a redirection and a later one for the order not to matter. -/
def Apart (r r' : Redirect) : Prop :=
  (∀ x ∈ r.fds, x ∉ r'.fds) ∧
  (∀ s, r'.target = .fd s → s ∉ r.fds) ∧
  (∀ n, r.target = .child n → n ∉ r'.fds) ∧
  (∀ n m, r'.target = .child n → r.target = .child m → n ∉ r.fds)

def Simple (rs : List Redirect) : Prop :=
  rs.Pairwise Apart ∧ ∀ r ∈ rs, ∀ n, r.target = .child n → n ∉ r.fds

theorem dup_spec (clear : Bool) (s : Nat) : ∀ (cs : List Nat) (t t' : T),
    (clear = false → s ∈ cs → ∃ o, t s = some (o, false)) → dupLoop clear s t cs = some t' →
    ∀ x, t' x = if x ∈ cs then (t s).map (fun e => (e.1, false)) else t x := by
  intro cs
  induction cs with
  | nil =>
    intro t t' _ h x
    simp only [dupLoop, Option.some.injEq] at h
    subst h; simp
  | cons c cs ih =>
    intro t t' hc h x
    simp only [dupLoop] at h
    by_cases hs : s = c
    · subst hs
      rw [if_pos rfl] at h
      cases clear with
      | true =>
        simp only [if_true] at h
        have q := ih _ _ (by intro z; cases z) h x
        rw [q]
        by_cases hx : x ∈ cs
        · cases hts : t s <;> simp [hx, upd, hts]
        · by_cases hxs : x = s
          · subst hxs; simp [hx, upd]
          · simp [hx, hxs, upd]
      | false =>
        simp only [Bool.false_eq_true, if_false] at h
        obtain ⟨o, ho⟩ := hc rfl List.mem_cons_self
        have q := ih _ _ (fun _ _ => ⟨o, ho⟩) h x
        rw [q]
        by_cases hx : x ∈ cs
        · simp [hx]
        · by_cases hxs : x = s
          · subst hxs; simp [hx, ho]
          · simp [hx, hxs]
    · rw [if_neg hs] at h
      cases hts : t s with
      | none => rw [hts] at h; cases h
      | some e =>
        rw [hts] at h
        simp only at h
        have q := ih _ _ (by
          intro hcl hm
          obtain ⟨o, ho⟩ := hc hcl (List.mem_cons_of_mem _ hm)
          exact ⟨o, by simp [upd, hs, ho]⟩) h x
        rw [q]
        by_cases hx : x ∈ cs
        · simp [hx, upd, hs, hts]
        · by_cases hxs : x = c
          · subst hxs; simp [hx, upd]
          · simp [hx, hxs, upd]

theorem close_spec : ∀ (cs : List Nat) (t : T) (x : Nat),
    cs.foldl (fun t c => upd t c none) t x = if x ∈ cs then none else t x := by
  intro cs
  induction cs with
  | nil => intro t x; simp
  | cons c cs ih =>
    intro t x
    rw [List.foldl_cons, ih]
    by_cases h1 : x ∈ cs <;> by_cases h2 : x = c <;> simp [h1, h2, upd]

/-- One redirection changes its own descriptors and no others. -/
theorem apply_spec {free : T → Option Nat} (hf : ∀ (t : T) n, free t = some n → t n = none) {t t' : T} {r : Redirect}
    (hr : ∀ n, r.target = .child n → n ∉ r.fds) (h : apply free t r = some t') (x : Nat) :
    t' x = if x ∈ r.fds then (base t r.target).map (fun o => (o, false)) else t x := by
  obtain ⟨fds, tg⟩ := r
  cases tg with
  | fd s =>
    rw [dup_spec true s fds t t' (by intro z; cases z) h x]
    simp only [base, src, Option.map_map]
    rfl
  | file f =>
    simp only [apply] at h
    cases hfr : free t with
    | none => rw [hfr] at h; cases h
    | some n =>
    rw [hfr] at h
    simp only at h
    have hn := hf t n hfr
    cases hd : dupLoop false n (upd t n (some (f, false))) fds with
    | none => rw [hd] at h; cases h
    | some t1 =>
      rw [hd] at h
      simp only [Option.some.injEq] at h
      have q := dup_spec false n fds _ t1 (fun _ _ => ⟨f, by simp [upd]⟩) hd
      subst h
      by_cases hm : n ∈ fds
      · simp only [List.contains_eq_mem, hm, decide_true, if_true]
        rw [q]
        by_cases hx : x ∈ fds
        · simp [hx, upd, base]
        · have : x ≠ n := fun z => hx (z ▸ hm)
          simp [hx, upd, this]
      · simp only [List.contains_eq_mem, hm, decide_false, Bool.false_eq_true, if_false]
        by_cases hx : x ∈ fds
        · have : x ≠ n := fun z => hm (z ▸ hx)
          simp [hx, upd, this, q, base]
        · by_cases hxf : x = n
          · subst hxf; simp [hx, upd, hn]
          · simp [hx, upd, hxf, q]
  | close =>
    simp only [apply, Option.some.injEq] at h
    subst h
    rw [close_spec]
    rfl
  | child n =>
    rw [dup_spec false n fds t t' (fun _ hm => absurd hm (hr n rfl)) h x]
    simp only [base, src, Option.map_map]
    rfl

theorem find_none {rs : List Redirect} {x : Nat} (h : ∀ r ∈ rs, x ∉ r.fds) : find rs x = none := by
  induction rs with
  | nil => rfl
  | cons r rs ih =>
    rw [find, if_neg (h r List.mem_cons_self)]
    exact ih fun q hq => h q (List.mem_cons_of_mem _ hq)

theorem find_mem {rs : List Redirect} {x : Nat} {g : Target} (h : find rs x = some g) :
    ∃ r ∈ rs, r.target = g ∧ x ∈ r.fds := by
  induction rs with
  | nil => cases h
  | cons r rs ih =>
    rw [find] at h
    split at h
    · rename_i hx
      exact ⟨r, List.mem_cons_self, by simpa using h, hx⟩
    · obtain ⟨q, hq, a, b⟩ := ih h
      exact ⟨q, List.mem_cons_of_mem _ hq, a, b⟩

theorem run_spec {free : T → Option Nat} (hf : ∀ (t : T) n, free t = some n → t n = none) : ∀ (rs : List Redirect) (t t' : T),
    Simple rs → run free t rs = some t' → ∀ x,
    t' x = match find rs x with
      | some g => (wanted t rs g).map (fun o => (o, false))
      | none => t x := by
  intro rs
  induction rs with
  | nil =>
    intro t t' _ h x
    simp only [run, Option.some.injEq] at h
    subst h; rfl
  | cons r rs ih =>
    intro t t' hs h x
    obtain ⟨hp, hc⟩ := hs
    rw [List.pairwise_cons] at hp
    obtain ⟨hp1, hp2⟩ := hp
    simp only [run] at h
    cases ha : apply free t r with
    | none => rw [ha] at h; cases h
    | some t1 =>
      rw [ha] at h
      simp only at h
      have a := apply_spec hf (hc r List.mem_cons_self) ha
      have q := ih t1 t' ⟨hp2, fun r' hr' => hc r' (List.mem_cons_of_mem _ hr')⟩ h x
      rw [q]
      by_cases hx : x ∈ r.fds
      · have hn : find rs x = none := find_none fun r' hr' => (hp1 r' hr').1 x hx
        rw [hn]
        simp only [find, hx, if_true]
        rw [a x, if_pos hx]
        cases hg : r.target with
        | child n =>
          have h1 : n ∉ r.fds := hc r List.mem_cons_self n hg
          have h2 : find rs n = none := find_none fun r' hr' => (hp1 r' hr').2.2.1 n hg
          simp [wanted, find, h1, h2, base]
        | fd s => rfl
        | file f => rfl
        | close => rfl
      · simp only [find, hx, if_false]
        cases hg : find rs x with
        | none => simp only; rw [a x, if_neg hx]
        | some g =>
          simp only
          congr 1
          obtain ⟨r', hr', e, hm⟩ := find_mem hg
          have keep : ∀ n, n ∉ r.fds → src t1 n = src t n := by
            intro n hn
            rw [src, a n, if_neg hn]; rfl
          have keepB : ∀ g', (∀ n, g' = .fd n → n ∉ r.fds) → (∀ n, g' = .child n → n ∉ r.fds) →
              base t1 g' = base t g' := by
            intro g' h1 h2
            cases g' with
            | fd n => exact keep n (h1 n rfl)
            | child n => exact keep n (h2 n rfl)
            | file f => rfl
            | close => rfl
          cases g with
          | fd s => exact keep s ((hp1 r' hr').2.1 s e)
          | file f => rfl
          | close => rfl
          | child n =>
            simp only [wanted, find]
            by_cases hn : n ∈ r.fds
            · have h2 : find rs n = none := find_none fun r2 hr2 => (hp1 r2 hr2).1 n hn
              rw [h2]
              simp only [hn, if_true]
              rw [src, a n, if_pos hn]
              cases base t r.target <;> rfl
            · simp only [hn, if_false]
              cases h2 : find rs n with
              | none => exact keep n hn
              | some g2 =>
                simp only
                obtain ⟨r2, hr2, e2, hm2⟩ := find_mem h2
                refine keepB g2 (fun k hk => (hp1 r2 hr2).2.1 k (e2.trans hk)) ?_
                intro k hk
                -- a chain of `[:child, n]` cannot be here
                by_cases hrr : r2 = r'
                · subst hrr
                  exact absurd hm2 (hc r2 (List.mem_cons_of_mem _ hr2) n e)
                · exfalso
                  have hsym : ∀ {l : List Redirect}, l.Pairwise Apart → r2 ∈ l → r' ∈ l →
                      Apart r2 r' ∨ Apart r' r2 := by
                    intro l hl
                    induction hl with
                    | nil => intro h; cases h
                    | cons h1 _ ih2 =>
                      intro m1 m2
                      rcases List.mem_cons.1 m1 with e1 | m1
                      · rcases List.mem_cons.1 m2 with e2 | m2
                        · exact absurd (e1.trans e2.symm) hrr
                        · rw [e1]; exact .inl (h1 _ m2)
                      · rcases List.mem_cons.1 m2 with e2 | m2
                        · rw [e2]; exact .inr (h1 _ m1)
                        · exact ih2 m1 m2
                  rcases hsym hp2 hr2 hr' with z | z
                  · exact z.2.2.2 n k e (e2.trans hk) hm2
                  · exact z.2.2.1 n e hm2

/-- C166.  If no redirection disturbs the source of another one, every redirected
descriptor of the child is what its option says, and every other one what it is in
the parent.  Missing: redirections that use each other's descriptors. -/
theorem C166_redirect_partial {free : T → Option Nat} (hf : ∀ (t : T) n, free t = some n → t n = none)
    {rs : List Redirect} (hs : Simple rs) {t t' : T} (h : run free t rs = some t') (co : Bool)
    (x : Nat) :
    (∀ g, find rs x = some g → afterExec co rs t' x = wanted t rs g) ∧
    (find rs x = none → (co = false ∨ x < 3) → afterExec co rs t' x = afterExec false [] t x) ∧
    (find rs x = none → co = true → 3 ≤ x → afterExec co rs t' x = none) := by
  have q := run_spec hf rs t t' hs h x
  have anyF : ∀ {l : List Redirect}, find l x = none → (l.any fun r => r.fds.contains x) = false := by
    intro l
    induction l with
    | nil => intro _; rfl
    | cons r l ih =>
      intro hn
      rw [find] at hn
      split at hn
      · cases hn
      · rename_i hx
        rw [List.any_cons, ih hn]
        simp [hx]
  refine ⟨?_, ?_, ?_⟩
  · intro g hg
    obtain ⟨r, hr, -, hm⟩ := find_mem hg
    have : (rs.any fun r => r.fds.contains x) = true := by
      rw [List.any_eq_true]; exact ⟨r, hr, by simpa using hm⟩
    rw [hg] at q
    simp only [afterExec, this, q]
    cases wanted t rs g <;> simp
  · intro hn hco
    rw [hn] at q
    simp only [afterExec, anyF hn, q]
    rcases hco with rfl | hx
    · simp
    · have : ¬ 3 ≤ x := by omega
      simp [this]
  · intro hn hco hx
    rw [afterExec, anyF hn, hco]
    simp [hx]

theorem dup_ok (clear : Bool) (s : Nat) : ∀ (cs : List Nat) (t : T), (t s).isSome = true →
    ∃ t', dupLoop clear s t cs = some t' := by
  intro cs
  induction cs with
  | nil => intro t _; exact ⟨t, rfl⟩
  | cons c cs ih =>
    intro t h
    simp only [dupLoop]
    by_cases hs : s = c
    · subst hs
      cases clear with
      | true => simpa using ih _ (by simpa [upd] using h)
      | false => simpa using ih _ h
    · cases hts : t s with
      | none => rw [hts] at h; cases h
      | some e => simpa [hs] using ih _ (by simp [upd, hs, hts])

/-- C166.  Nothing fails if the sources are open. -/
theorem C166_succeeds {free : T → Option Nat} (hf : ∀ (t : T) n, free t = some n → t n = none) :
    ∀ (rs : List Redirect) (t : T), Simple rs →
    (∀ r ∈ rs, r.target = .close ∨ ∃ s, r.target = .fd s ∧ (t s).isSome = true) →
    ∃ t', run free t rs = some t' := by
  intro rs
  induction rs with
  | nil => intro t _ _; exact ⟨t, rfl⟩
  | cons r rs ih =>
    intro t hs ho
    obtain ⟨hp, hc⟩ := hs
    rw [List.pairwise_cons] at hp
    have hr := hc r List.mem_cons_self
    obtain ⟨t1, h1⟩ : ∃ t1, apply free t r = some t1 := by
      rcases ho r List.mem_cons_self with q | ⟨s, q, hs⟩
      · exact ⟨_, by simp only [apply, q]; rfl⟩
      · obtain ⟨t1, e⟩ := dup_ok true s r.fds t hs
        exact ⟨t1, by simp only [apply, q]; exact e⟩
    have a := apply_spec hf hr h1
    simp only [run, h1]
    refine ih t1 ⟨hp.2, fun r' hr' => hc r' (List.mem_cons_of_mem _ hr')⟩ ?_
    intro r' hr'
    rcases ho r' (List.mem_cons_of_mem _ hr') with q | ⟨s, q, hs⟩
    · exact .inl q
    · exact .inr ⟨s, q, by rw [a s, if_neg ((hp.1 r' hr').2.1 s q)]; exact hs⟩

/-- An open(2) that gives descriptor 5 or fails. -/
def five (t : T) : Option Nat := if t 5 = none then some 5 else none

theorem five_free (t : T) (n : Nat) (h : five t = some n) : t n = none := by
  simp only [five] at h
  split at h
  · rename_i q
    have : 5 = n := by simpa using h
    rw [← this]; exact q
  · cases h

/-- Exchanging stdout and stderr, `out: :err, err: :out`, sends both to stderr. -/
theorem C166_swap_fails :
    ∃ (t : T) (rs : List Redirect), t 1 = some (10, false) ∧ t 2 = some (20, false) ∧
      rs = [⟨[1], .fd 2⟩, ⟨[2], .fd 1⟩] ∧
      ∀ free, ∃ t', run free t rs = some t' ∧ wanted t rs (.fd 1) = some 10 ∧
        afterExec false rs t' 2 = some 20 :=
  ⟨fun x => if x = 1 then some (10, false) else if x = 2 then some (20, false) else none, _,
    rfl, rfl, rfl, fun _ => ⟨_, rfl, rfl, rfl⟩⟩

/-- `err: [:child, :out], out: "log"` leaves stderr on the old stdout. -/
theorem C166_child_fails :
    ∃ (t : T) (rs : List Redirect), t 1 = some (10, false) ∧ t 2 = some (20, false) ∧
      rs = [⟨[2], .child 1⟩, ⟨[1], .file 30⟩] ∧ wanted t rs (.child 1) = some 30 ∧
      ∃ t', run five t rs = some t' ∧ afterExec false rs t' 2 = some 10 :=
  ⟨fun x => if x = 1 then some (10, false) else if x = 2 then some (20, false) else none, _,
    rfl, rfl, rfl, rfl, _, rfl, rfl⟩

/-- `out: "log", err: [:child, :out], 7 => 7`, `7` being close-on-exec. -/
example : Simple [⟨[1], .file 30⟩, ⟨[2], .child 1⟩, ⟨[7], .fd 7⟩] ∧
    ∃ t', run five (fun x => if x = 1 then some (10, false) else if x = 7 then
      some (70, true) else none) [⟨[1], .file 30⟩, ⟨[2], .child 1⟩, ⟨[7], .fd 7⟩] = some t' ∧
      afterExec true [⟨[1], .file 30⟩, ⟨[2], .child 1⟩, ⟨[7], .fd 7⟩] t' 2 = some 30 ∧
      afterExec true [⟨[1], .file 30⟩, ⟨[2], .child 1⟩, ⟨[7], .fd 7⟩] t' 7 = some 70 := by
  refine ⟨⟨?_, ?_⟩, _, rfl, rfl, rfl⟩
  · simp [Apart]
  · simp

end Verif.Spawn
