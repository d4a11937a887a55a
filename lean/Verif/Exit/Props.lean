import Verif.Exit.Model

/-!
# C158, C159: catch and throw; what runs at exit
-/

namespace Verif.Exit

/-! ### catch and throw -/

/-- The catches that run are the ones around, whatever way a program ends. -/
theorem C158_balanced : ∀ (p : Prog) (s : St), (eval p s).1.tags = s.tags := by
  intro p
  induction p with
  | val v => intro s; rfl
  | emit n => intro s; rfl
  | raise => intro s; rfl
  | seq a b iha ihb =>
    intro s
    have ha := iha s
    rw [eval]
    cases he : eval a s with
    | mk s1 r =>
      rw [he] at ha
      cases r with
      | val v => simp only [ihb]; exact ha
      | _ => exact ha
  | catch' tag body ih =>
    intro s
    have hb := ih { s with tags := tag :: s.tags }
    rw [eval]
    cases he : eval body { s with tags := tag :: s.tags } with
    | mk s1 r =>
      rw [he] at hb
      have ht : s1.tags.tail = s.tags := by simp only at hb; rw [hb]; rfl
      cases r with
      | thrown t v => simp only; split <;> exact ht
      | _ => exact ht
  | throw tag v => intro s; rw [eval]; split <;> rfl
  | ensure body fin ihb ihf =>
    intro s
    have hb := ihb s
    rw [eval]
    cases he : eval body s with
    | mk s1 r =>
      rw [he] at hb
      have hf := ihf s1
      simp only
      cases he2 : eval fin s1 with
      | mk s2 r2 =>
        rw [he2] at hf
        cases r2 <;> simp only <;> exact hf.trans hb
  | rescue body handler ihb ihh =>
    intro s
    have hb := ihb s
    rw [eval]
    cases he : eval body s with
    | mk s1 r =>
      rw [he] at hb
      cases r <;> simp only [ihh] <;> exact hb
  | fiber body ih =>
    intro s
    rw [eval]

/-- A throw that is under way has a catch waiting for it; so none leaves a whole program, a Fiber or a Thread. -/
theorem C158_no_escape : ∀ (p : Prog) (s : St) (t v : Nat), (eval p s).2 = .thrown t v → t ∈ s.tags := by
  intro p
  induction p with
  | val v => intro s t v h; simp [eval] at h
  | emit n => intro s t v h; simp [eval] at h
  | raise => intro s t v h; simp [eval] at h
  | seq a b iha ihb =>
    intro s t v h
    have hbal := C158_balanced a s
    have ha := iha s t v
    rw [eval] at h
    cases he : eval a s with
    | mk s1 r =>
      rw [he] at h hbal ha
      cases r with
      | val w => rw [← hbal]; exact ihb s1 t v h
      | _ => exact ha h
  | catch' tag body ih =>
    intro s t v h
    have hb := ih { s with tags := tag :: s.tags } t v
    rw [eval] at h
    cases he : eval body { s with tags := tag :: s.tags } with
    | mk s1 r =>
      rw [he] at h hb
      cases r with
      | thrown t' v' =>
        simp only at h
        split at h
        · simp at h
        · rename_i hne
          simp only [Res.thrown.injEq] at h
          have := hb (by simp [h])
          rcases List.mem_cons.1 this with hx | hx
          · exact absurd (h.1.trans hx).symm hne
          · exact hx
      | _ => simp at h
  | throw tag v =>
    intro s t w h
    rw [eval] at h
    split at h
    · rename_i hc
      simp only [Res.thrown.injEq] at h
      rw [← h.1]; simpa using hc
    · simp at h
  | ensure body fin ihb ihf =>
    intro s t v h
    have hbal := C158_balanced body s
    have hb := ihb s t v
    rw [eval] at h
    cases he : eval body s with
    | mk s1 r =>
      rw [he] at h hbal hb
      have hf := ihf s1 t v
      simp only at h
      cases he2 : eval fin s1 with
      | mk s2 r2 =>
        rw [he2] at h hf
        cases r2 with
        | val w => exact hb h
        | _ => rw [← hbal]; exact hf h
  | rescue body handler ihb ihh =>
    intro s t v h
    have hbal := C158_balanced body s
    have hb := ihb s t v
    rw [eval] at h
    cases he : eval body s with
    | mk s1 r =>
      rw [he] at h hbal hb
      cases r with
      | raised => rw [← hbal]; exact ihh s1 t v h
      | uncaught _ _ => rw [← hbal]; exact ihh s1 t v h
      | val w => exact hb h
      | thrown a b => exact hb h
  | fiber body ih =>
    intro s t v h
    rw [eval] at h
    have := ih { s with tags := [] } t v h
    simp at this

/-- What can stand around a throw, from the inside out. -/
inductive Frame where
  | catch' (tag : Nat)
  | ensure (n : Nat)
  | before (rest : Prog)
  | rescue (handler : Prog)

def Frame.wrap : Frame → Prog → Prog
  | .catch' tag, p => .catch' tag p
  | .ensure n, p => .ensure p (.emit n)
  | .before rest, p => .seq p rest
  | .rescue h, p => .rescue p h

def plug : List Frame → Prog → Prog
  | [], p => p
  | f :: fs, p => plug fs (f.wrap p)

def ensures : List Frame → List Nat
  | [] => []
  | .ensure n :: fs => n :: ensures fs
  | _ :: fs => ensures fs

theorem plug_thrown {t v : Nat} : ∀ (fs : List Frame) (p : Prog) (o : List Nat),
    (∀ f ∈ fs, f ≠ .catch' t) →
    (∀ s : St, t ∈ s.tags → eval p s = ({ s with out := s.out ++ o }, .thrown t v)) →
    ∀ s : St, t ∈ s.tags → eval (plug fs p) s = ({ s with out := s.out ++ (o ++ ensures fs) }, .thrown t v) := by
  intro fs
  induction fs with
  | nil => intro p o _ hp s hs; simpa [plug, ensures] using hp s hs
  | cons f fs ih =>
    intro p o hf hp s hs
    have hf' : ∀ g ∈ fs, g ≠ .catch' t := fun g hg => hf g (List.mem_cons_of_mem _ hg)
    cases f with
    | catch' tag =>
      refine ih _ o hf' ?_ s hs
      intro s hs
      have hne : ¬ tag = t := fun h => hf (.catch' tag) (by simp) (by rw [h])
      rw [Frame.wrap, eval, hp _ (by simp [hs])]
      simp [hne]
    | ensure n =>
      have := ih (.ensure p (.emit n)) (o ++ [n]) hf' (by
        intro s hs
        rw [eval, hp s hs]
        simp [eval]) s hs
      simpa [plug, Frame.wrap, ensures] using this
    | before rest =>
      refine ih _ o hf' ?_ s hs
      intro s hs
      rw [Frame.wrap, eval, hp s hs]
    | rescue h =>
      refine ih _ o hf' ?_ s hs
      intro s hs
      rw [Frame.wrap, eval, hp s hs]

/-- A throw ends the innermost catch with its tag, with its value: what is left to do in between is skipped, no
rescue clause sees it, the ensure clauses run from the inside out, and the catches outside go on. -/
theorem C158_innermost (t v : Nat) (fs : List Frame) (hf : ∀ f ∈ fs, f ≠ .catch' t) (s : St) :
    eval (.catch' t (plug fs (.throw t v))) s = ({ s with out := s.out ++ ensures fs }, .val v) := by
  have := plug_thrown (t := t) (v := v) fs (.throw t v) [] hf (by
    intro s hs
    rw [eval, if_pos (by simpa using hs)]; simp) { s with tags := t :: s.tags } (by simp)
  rw [eval, this]
  simp

example : eval (.catch' 1 (.seq (.catch' 1 (.seq (.catch' 2 (.ensure (.throw 1 7) (.emit 5))) (.emit 6))) (.emit 8)))
    ⟨[], []⟩ = (⟨[], [5, 8]⟩, .val 0) := by decide

/-- Without such a catch, throw raises an error that a rescue clause handles; a catch outside of the Fiber does
not count. -/
theorem C158_uncaught (t v : Nat) (s : St) (handler : Prog) :
    (t ∉ s.tags → eval (.rescue (.throw t v) handler) s = eval handler s) ∧
    eval (.catch' t (.fiber (.throw t v))) s = (s, .uncaught t v) := by
  constructor
  · intro h
    rw [eval, eval, if_neg (by simpa using h)]
  · simp [eval]

/-! ### At exit -/

mutual
/-- A handler, then what it registered. -/
def order : Handler → List (Nat × Outcome)
  | .mk id kids out => (id, out) :: orders kids
/-- Handlers in the order of registration: the last one first. -/
def orders : List Handler → List (Nat × Outcome)
  | [] => []
  | h :: t => orders t ++ order h
end

def exitStatus : Nat × Outcome → Option Int
  | (_, .exit st) => some st
  | _ => none

def isRaise : Nat × Outcome → Bool
  | (_, .raise) => true
  | _ => false

theorem orders_flatMap : ∀ hs : List Handler, orders hs = hs.reverse.flatMap order := by
  intro hs
  induction hs with
  | nil => rfl
  | cons h t ih => simp [orders, ih, List.flatMap_append]

theorem foldl_cons (kids rest : List Handler) : kids.foldl (fun s k => k :: s) rest = kids.reverse ++ rest := by
  induction kids generalizing rest with
  | nil => rfl
  | cons k kids ih => simp [ih]

theorem sizes_append (a b : List Handler) : sizes (a ++ b) = sizes a + sizes b := by
  induction a with
  | nil => simp [sizes]
  | cons h t ih => simp [sizes, ih, Nat.add_assoc]

theorem sizes_reverse (a : List Handler) : sizes a.reverse = sizes a := by
  induction a with
  | nil => rfl
  | cons h t ih => simp [sizes_append, sizes, ih, Nat.add_comm]

/-- What the loop knows after it ran handlers. -/
def after (d : Done) (l : List (Nat × Outcome)) : Done where
  ran := d.ran ++ l.map Prod.fst
  override := (l.filterMap exitStatus).getLast?.or d.override
  failed := d.failed || l.any isRaise

theorem loop_spec : ∀ (n : Nat) (stack : List Handler) (d : Done), sizes stack ≤ n →
    loop n stack d = after d (stack.flatMap order) := by
  intro n
  induction n with
  | zero =>
    intro stack d h
    cases stack with
    | nil => cases d; simp [loop, after]
    | cons hd t =>
      cases hd with
      | mk id kids out => simp only [sizes, Handler.size] at h; omega
  | succ n ih =>
    intro stack d h
    cases stack with
    | nil => cases d; simp [loop, after]
    | cons hd t =>
      cases hd with
      | mk id kids out =>
        have hs : sizes (kids.reverse ++ t) ≤ n := by
          simp only [sizes, Handler.size] at h
          rw [sizes_append, sizes_reverse]; omega
        have hl : (Handler.mk id kids out :: t).flatMap order =
            (id, out) :: (kids.reverse ++ t).flatMap order := by
          simp [order, orders_flatMap, List.flatMap_append]
        rw [hl]
        generalize hq : (kids.reverse ++ t).flatMap order = l at ih
        have hget : ∀ (a : Int) (m : List Int) (o : Option Int),
            ((a :: m).getLast?).or o = (m.getLast?).or (some a) := by
          intro a m o
          rw [List.getLast?_cons]
          cases m.getLast? <;> rfl
        cases out with
        | ok =>
          simp only [loop, foldl_cons, ih _ _ hs, hq]
          simp [after, exitStatus, isRaise, List.filterMap_cons]
        | exit st =>
          simp only [loop, foldl_cons, ih _ _ hs, hq]
          simp only [after, exitStatus, isRaise, List.filterMap_cons, hget, List.map_cons, List.any_cons,
            Bool.false_or, List.append_assoc, List.singleton_append]
        | raise =>
          simp only [loop, foldl_cons, ih _ _ hs, hq]
          simp [after, exitStatus, isRaise, List.filterMap_cons]

/-- What ran, with the trap handler in front. -/
def ranAll (handlers : List Handler) (trap : Option Handler) : List (Nat × Outcome) :=
  (match trap with | some h => order h | none => []) ++ orders handlers

/-- Every handler runs, the last registered first, one that a handler registers right after it, whatever the
others do; the handler of `trap(:EXIT)` comes before all. -/
theorem C159_order (script : Script) (handlers : List Handler) (trap : Option Handler) :
    (finish script handlers trap).1 = (ranAll handlers trap).map Prod.fst := by
  cases trap with
  | none =>
    simp only [finish]
    rw [loop_spec _ _ _ (Nat.le_refl _)]
    simp [after, ranAll, orders_flatMap]
  | some h =>
    simp only [finish]
    rw [loop_spec _ _ _ (Nat.le_refl _)]
    simp [after, ranAll, orders_flatMap]

/-- The status is the one of the last handler that called exit, else 1 if a handler raised, else the script's. -/
theorem C159_status (script : Script) (handlers : List Handler) (trap : Option Handler) :
    (finish script handlers trap).2 =
      match ((ranAll handlers trap).filterMap exitStatus).getLast? with
      | some st => st
      | none => if (ranAll handlers trap).any isRaise then 1 else
        match script with
        | .ok => 0
        | .exit st => st
        | .error => 1 := by
  have hst : ∀ l : List (Nat × Outcome),
      ((after ⟨[], none, false⟩ l).override.or (if (after ⟨[], none, false⟩ l).failed then some 1 else none)) =
        ((l.filterMap exitStatus).getLast?).or (if l.any isRaise then some 1 else none) := by
    intro l
    simp only [after, Option.or_none]
    rfl
  cases trap with
  | none =>
    simp only [finish]
    rw [loop_spec _ _ _ (Nat.le_refl _), hst,
      show handlers.reverse.flatMap order = ranAll handlers none by simp [ranAll, orders_flatMap]]
    cases ((ranAll handlers none).filterMap exitStatus).getLast? with
    | some st => rfl
    | none => cases (ranAll handlers none).any isRaise <;> rfl
  | some h =>
    simp only [finish]
    rw [loop_spec _ _ _ (Nat.le_refl _), hst,
      show (h :: handlers.reverse).flatMap order = ranAll handlers (some h) by simp [ranAll, orders_flatMap]]
    cases ((ranAll handlers (some h)).filterMap exitStatus).getLast? with
    | some st => rfl
    | none => cases (ranAll handlers (some h)).any isRaise <;> rfl

example : finish .error [.mk 1 [] .raise, .mk 2 [.mk 3 [] .ok, .mk 4 [] (.exit 7)] .ok] (some (.mk 5 [] .ok)) =
    ([5, 2, 4, 3, 1], 7) := by
  simp [finish, loop, sizes, Handler.size]

/-- Handlers that register none run in the reverse order of registration. -/
theorem C159_reverse (script : Script) (ids : List (Nat × Outcome)) :
    (finish script (ids.map fun p => .mk p.1 [] p.2) none).1 = (ids.map Prod.fst).reverse := by
  rw [C159_order]
  simp only [ranAll, List.nil_append]
  induction ids with
  | nil => rfl
  | cons p ids ih => simp [orders, order, ih]

end Verif.Exit
