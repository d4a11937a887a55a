import Verif.Ensure.Det

/-!
# Leaving `begin … rescue … else … ensure … end`

* C81: whatever way control leaves a region with an ensure clause, the clause runs once, then
  control goes on as it was going.
* C82: the first rescue clause that matches handles the exception; `else`, `retry`, no match.
* C83: a `return` out of a block and a `throw` run the ensure clauses they pass, innermost first.
* C84: the value of `return` is the value of its operand when `return` is reached.

`Ev` (Spec.lean) is the meaning by the language; `Star` runs the generated code.
-/

namespace Verif.Ensure

variable {σ : Type}

/-! ## What holds -/

/-- C81, partial (C82, C83, C84 are the instances below).  For every method body of the fragment
`Ok`, every interpretation of its primitives, every state, and every stack of deferred unwindings
of other frames: if the body ends, the generated code ends the same way, in the same state, and
the stack of deferred unwindings is as before. -/
theorem C81_method_partial (I : Interp σ) (s : Stmt) (hok : Ok I false s) (f : Nat)
    (D : List (Nat × Unw)) (hD : ∀ u r, D ≠ (f, u) :: r) (st st' : σ) (o : Outc)
    (h : Ev I s st o st') (r : Fin) (hr : o.fin = some r) :
    Star I f (compMethod s) (start D st) (.inr (r, D, st')) ∧
    ∀ x, Star I f (compMethod s) (start D st) (.inr x) → x = (r, D, st') := by
  have k := method_sim hok hD h hr
  exact ⟨k, fun x hx => (star_det k rfl hx).symm⟩

/-- The meaning of a statement is one: at most one outcome and one state. -/
theorem C81_meaning_unique (I : Interp σ) (s : Stmt) (st st1 st2 : σ) (o1 o2 : Outc)
    (h1 : Ev I s st o1 st1) (h2 : Ev I s st o2 st2) : o1 = o2 ∧ st1 = st2 :=
  ev_det h1 h2

/-- C81, partial: a method that is one region.  However the body ends — normally, by `return`, by
an exception, by an unwinding — the ensure clause is run once from the state the body left, and
the method ends as the body did, in the state the ensure clause left. -/
theorem C81_once_partial (I : Interp σ) (b n : Stmt) (hok : Ok I false (.ens b n)) (f : Nat)
    (D : List (Nat × Unw)) (hD : ∀ u r, D ≠ (f, u) :: r) (st s1 s2 : σ) (o : Outc)
    (hb : Ev I b st o s1) (hn : Ev I n s1 .norm s2) (r : Fin) (hr : o.fin = some r) :
    Star I f (compMethod (.ens b n)) (start D st) (.inr (r, D, s2)) := by
  have h := Ev.ens b n st o s1 .norm s2 hb hn
  rw [show after o .norm = o by simp [after]] at h
  exact method_sim hok hD h hr

/-- C81, partial: a loop whose body is a region left by `break`: the ensure clause runs, then the
statement after the loop. -/
theorem C81_break_partial (I : Interp σ) (k : Nat) (b n t : Stmt)
    (hok : Ok I false (.seq (.loop k (.ens b n)) t)) (f : Nat)
    (D : List (Nat × Unw)) (hD : ∀ u r, D ≠ (f, u) :: r) (st s0 s1 s2 s3 : σ) (o : Outc)
    (hk : I.cond k st = (true, s0)) (hb : Ev I b s0 .brk s1) (hn : Ev I n s1 .norm s2)
    (ht : Ev I t s2 o s3) (r : Fin) (hr : o.fin = some r) :
    Star I f (compMethod (.seq (.loop k (.ens b n)) t)) (start D st) (.inr (r, D, s3)) := by
  have h := Ev.ens b n s0 .brk s1 .norm s2 hb hn
  exact method_sim hok hD (.seq _ _ _ _ _ _ (.loopBrk _ _ _ _ _ hk h) ht) hr

/-- C82, partial: the body raised `x`; the first clause does not match, the second does: the
method ends as the second clause's body does. -/
theorem C82_first_match_partial (I : Interp σ) (b b1 b2 el n : Stmt) (m1 m2 : Nat) (v1 : Option Nat)
    (rest : Clauses)
    (hok : Ok I false (.beg false b (.cons m1 v1 b1 (.cons m2 none b2 rest)) el n))
    (f : Nat) (D : List (Nat × Unw)) (hD : ∀ u r, D ≠ (f, u) :: r) (st s1 s2 s3 s4 : σ) (x : Nat)
    (o : Outc) (hb : Ev I b st (.exc x) s1) (h1 : I.test m1 x s1 = (.ok false, s2))
    (h2 : I.test m2 x s2 = (.ok true, s3)) (h3 : Ev I b2 s3 o s4) (r : Fin) (hr : o.fin = some r) :
    Star I f (compMethod (.beg false b (.cons m1 v1 b1 (.cons m2 none b2 rest)) el n))
      (start D st) (.inr (r, D, s4)) := by
  refine method_sim hok hD (.beg _ _ _ _ _ _ _ (.caught _ _ _ _ _ _ _ _ hb
    (.miss _ _ _ _ _ _ _ _ _ h1 (.hit _ _ _ _ _ _ _ _ h2 h3)) ?_)) hr
  rintro rfl; cases hr

/-- C82, partial: with an ensure clause and `retry`: the body raised, the clause ended with
`retry`, the body ran again to its end: the ensure clause runs once, after the second run. -/
theorem C82_retry_partial (I : Interp σ) (b c n : Stmt) (m : Nat)
    (hok : Ok I false (.beg true b (.cons m none c .nil) .skip n))
    (f : Nat) (D : List (Nat × Unw)) (hD : ∀ u r, D ≠ (f, u) :: r) (st s1 s2 s3 s4 s5 : σ) (x : Nat)
    (hb : Ev I b st (.exc x) s1) (ht : I.test m x s1 = (.ok true, s2)) (hc : Ev I c s2 .retry s3)
    (hb2 : Ev I b s3 .norm s4) (hn : Ev I n s4 .norm s5) :
    Star I f (compMethod (.beg true b (.cons m none c .nil) .skip n)) (start D st)
      (.inr (.ret 0, D, s5)) :=
  method_sim hok hD (.begEns _ _ _ _ _ _ _ _ _ (.again _ _ _ _ _ _ _ _ _ hb
    (.hit _ _ _ _ _ _ _ _ ht hc) (.els _ _ _ _ _ _ _ hb2 (.skip _))) hn) rfl

/-- C83, partial: two regions, one in the other; in the inner body a block returns from the method
with `v`.  Both ensure clauses run, the inner one first, and the method returns `v`; no deferred
unwinding is left behind. -/
theorem C83_nonlocal_partial (I : Interp σ) (b n1 n2 : Stmt) (hok : Ok I false (.ens (.ens b n1) n2))
    (f : Nat) (D : List (Nat × Unw)) (hD : ∀ u r, D ≠ (f, u) :: r) (st s1 s2 s3 : σ) (v : Nat)
    (hb : Ev I b st (.unw (.mret v)) s1) (h1 : Ev I n1 s1 .norm s2) (h2 : Ev I n2 s2 .norm s3) :
    Star I f (compMethod (.ens (.ens b n1) n2)) (start D st) (.inr (.ret v, D, s3)) := by
  have h := Ev.ens (.ens b n1) n2 st _ s2 .norm s3 (.ens b n1 st _ s1 .norm s2 hb h1) h2
  exact method_sim hok hD h rfl

/-- C84, partial: `return e` in a region: the value is that of `e` when it was evaluated, whatever
the ensure clause does to the state. -/
theorem C84_value_partial (I : Interp σ) (a : Nat) (n : Stmt)
    (hok : Ok I false (.ens (.ret (.val a)) n))
    (f : Nat) (D : List (Nat × Unw)) (hD : ∀ u r, D ≠ (f, u) :: r) (st s1 s2 : σ) (v : Nat)
    (ha : I.act a st = (.ok v, s1)) (hn : Ev I n s1 .norm s2) :
    Star I f (compMethod (.ens (.ret (.val a)) n)) (start D st) (.inr (.ret v, D, s2)) := by
  have h0 := Ev.ret (I := I) (.val a) st
  simp only [retOut, ha] at h0
  exact method_sim hok hD (.ens _ _ _ _ _ _ _ h0 hn) rfl

/-! ## A concrete interpretation

The state is the list of events so far.  A primitive below 100 finishes; from 100 it raises, from
200 it is a call in which a block returns from this method, from 300 a `throw`.  A condition `k`
holds while fewer than `k` events happened.  A clause `m` matches the exception `m`, the clause 0
matches everything.  The value of a local variable is the number of events: the variable is
assigned by every primitive. -/
def J : Interp (List Nat) where
  act a l :=
    if a < 100 then (.ok a, l ++ [a]) else if a < 200 then (.exc a, l ++ [a])
    else if a < 300 then (.unw (.mret a), l ++ [a]) else (.unw (.thr a), l ++ [a])
  cond k l := (decide (l.length < k), l)
  test m x l := (.ok (decide (m = 0 ∨ m = x)), l)
  bind v _ l := l ++ [1000 + v]
  loc _ l := l.length

theorem J_fin (a : Nat) (h : a < 100) : Finishes J (.act a) := by
  intro s o s' hev
  cases hev
  simp [J, h, Res.out]

theorem J_act (a : Nat) (l : List Nat) : Ev J (.act a) l (J.act a l).1.out (J.act a l).2 := .act a l

/-- A body of the fragment: a loop with a region that raises, handles with `retry` or leaves the
loop, and a return out of a block in a nested region. -/
def demo : Stmt :=
  .ens
    (.seq
      (.loop 9 (.beg true (.seq (.act 1) (.ite 3 (.act 100) .brk)) (.cons 100 none .retry .nil)
        .skip (.act 2)))
      (.ens (.act 200) (.act 3)))
    (.act 4)

theorem J_skip : NoExc J .skip ∧ NoUnw J .skip := by
  constructor <;> intro s x s' h <;> cases h

theorem demo_ok : Ok J false demo := by
  simp [demo, Ok, OkC, hasEns, freeRetry, J_fin, J_skip]

/-- The machine on that body: it raises at the first round, retries, breaks out, the block returns
200, and each ensure clause that was entered has run once. -/
example : Star J 7 (compMethod demo) (start [(3, .thr 5)] [])
    (.inr (.ret 200, [(3, .thr 5)], [1, 100, 1, 2, 200, 3, 4])) :=
  star_run 40 _

example : ∃ o st', Ev J (.act 200) [] o st' ∧ o.fin = some (.ret 200) :=
  ⟨_, _, .act 200 [], by simp [J, Res.out, Outc.fin]⟩

example : Ok J false (.ens (.act 100) (.act 2)) := by
  simp only [Ok, hasEns, freeRetry]
  exact ⟨trivial, trivial, trivial, J_fin 2 (by omega), trivial⟩

example : Star J 0 (compMethod (.ens (.act 100) (.act 2))) (start [] [])
    (.inr (.exc 100, [], [100, 2])) :=
  C81_once_partial J (.act 100) (.act 2)
    (by simp only [Ok, hasEns, freeRetry]; exact ⟨trivial, trivial, trivial, J_fin 2 (by omega), trivial⟩)
    0 [] (by intro u r h; cases h) [] [100] [100, 2] (.exc 100) (J_act 100 []) (J_act 2 [100]) _ rfl

example : Star J 0 (compMethod (.ens (.ens (.act 200) (.act 2)) (.act 3))) (start [] [])
    (.inr (.ret 200, [], [200, 2, 3])) :=
  C83_nonlocal_partial J (.act 200) (.act 2) (.act 3)
    (by simp only [Ok, hasEns, freeRetry]
        exact ⟨⟨trivial, trivial, trivial, J_fin 2 (by omega), trivial⟩, trivial, trivial,
          J_fin 3 (by omega), rfl⟩)
    0 [] (by intro u r h; cases h) [] [200] [200, 2] [200, 2, 3] 200 (J_act 200 []) (J_act 2 _)
    (J_act 3 _)

example : Star J 0 (compMethod (.beg false (.act 105) (.cons 104 none (.act 1)
      (.cons 105 none (.ret (.val 6)) .nil)) .skip .skip)) (start [] [])
    (.inr (.ret 6, [], [105, 6])) :=
  C82_first_match_partial J (.act 105) (.act 1) (.ret (.val 6)) .skip .skip 104 105 none .nil
    (by simp [Ok, OkC]) 0 [] (by intro u r h; cases h) [] [105] [105] [105] [105, 6] 105 (.ret 6)
    (J_act 105 []) rfl rfl (.ret (.val 6) [105]) _ rfl

example : Star J 0 (compMethod (.ens (.ret (.val 6)) (.act 2))) (start [] [])
    (.inr (.ret 6, [], [6, 2])) :=
  C84_value_partial J 6 (.act 2)
    (by simp only [Ok, hasEns, freeRetry]; exact ⟨trivial, trivial, trivial, J_fin 2 (by omega), trivial⟩)
    0 [] (by intro u r h; cases h) [] [6] [6, 2] 6 rfl (J_act 2 [6])

example : Star J 0 (compMethod (.seq (.loop 5 (.ens (.seq (.act 1) .brk) (.act 2))) (.ret (.val 3))))
    (start [] []) (.inr (.ret 3, [], [1, 2, 3])) :=
  C81_break_partial J 5 (.seq (.act 1) .brk) (.act 2) (.ret (.val 3))
    (by simp [Ok, hasEns, freeRetry, J_fin]) 0 [] (by intro u r h; cases h) [] [] [1] [1, 2] [1, 2, 3]
    (.ret 3) rfl (.seq _ _ _ _ _ _ (J_act 1 []) (.brk _)) (J_act 2 _) (.ret (.val 3) _) _ rfl

example : Star J 0 (compMethod (.beg true (.ite 1 (.act 100) (.act 1)) (.cons 0 none .retry .nil)
      .skip (.act 2))) (start [] []) (.inr (.ret 0, [], [100, 1, 2])) :=
  C82_retry_partial J (.ite 1 (.act 100) (.act 1)) .retry (.act 2) 0
    (by simp [Ok, OkC, hasEns, freeRetry, J_fin, J_skip]) 0 [] (by intro u r h; cases h) [] [100]
    [100] [100] [100, 1] [100, 1, 2] 100 (.iteT 1 _ _ [] [] _ _ rfl (J_act 100 [])) rfl (.retry _)
    (.iteF 1 _ _ [100] [100] _ _ rfl (J_act 1 _)) (J_act 2 _)

/-! ## What does not hold

Each theorem names a method body, what it means, and what the code does.  Every one of them drops
one condition of the fragment. -/

/-- The code of a method ends otherwise than its body means. -/
def Wrong (s : Stmt) (should is : Fin × List Nat) : Prop :=
  (∃ o st', Ev J s [] o st' ∧ o.fin = some should.1 ∧ st' = should.2) ∧
  (∃ D, Star J 7 (compMethod s) (start [] []) (.inr (is.1, D, is.2))) ∧ should ≠ is

/-- C81 fails for an exception raised in `else`: the ensure clause does not run.
`begin; act 1; rescue; else; raise; ensure; act 2; end` -/
theorem C81_else_fails :
    Wrong (.beg true (.act 1) (.cons 0 none .skip .nil) (.act 100) (.act 2))
      (.exc 100, [1, 100, 2]) (.exc 100, [1, 100]) :=
  ⟨⟨.exc 100, _, .begEns _ _ _ _ _ _ _ _ _ (.els _ _ _ _ _ _ _ (J_act 1 []) (J_act 100 [1]))
    (J_act 2 _), rfl, rfl⟩, ⟨[], star_run 10 _⟩, by decide⟩

/-- C81 fails for an ensure clause that raises while `return` leaves the region: it runs twice.
`begin; return 6; ensure; act 2; raise; end` -/
theorem C81_raise_on_return_fails :
    Wrong (.ens (.ret (.val 6)) (.seq (.act 2) (.act 100)))
      (.exc 100, [6, 2, 100]) (.exc 100, [6, 2, 100, 2, 100]) :=
  ⟨⟨.exc 100, _, .ens _ _ _ _ _ _ _ (.ret (.val 6) []) (.seq _ _ _ _ _ _ (J_act 2 _) (J_act 100 _)),
    rfl, rfl⟩, ⟨[], star_run 10 _⟩, by decide⟩

/-- C82 fails for the same reason: a rescue clause catches what the ensure clause of the same
region raises. `begin; return 6; rescue; act 1; ensure; raise; end` calls `act 1`. -/
theorem C82_own_ensure_fails :
    Wrong (.beg true (.ret (.val 6)) (.cons 100 none (.act 1) .nil) .skip (.act 100))
      (.exc 100, [6, 100]) (.exc 100, [6, 100, 1, 100]) :=
  ⟨⟨.exc 100, _, .begEns _ _ _ _ _ _ _ _ _ (.out _ _ _ _ _ _ (.ret (.val 6) []) (by decide)
    (by intro x h; cases h)) (J_act 100 _), rfl, rfl⟩, ⟨[], star_run 12 _⟩, by decide⟩

/-- C81 fails for `retry` inside a region inside a rescue clause: the ensure clause of the inner
region is skipped.
`begin; raise while events < 2; rescue; begin; retry; ensure; act 2; end; end` -/
theorem C81_retry_fails :
    Wrong (.beg false (.ite 2 (.act 100) .skip) (.cons 0 none (.ens .retry (.act 2)) .nil) .skip
        .skip)
      (.ret 0, [100, 2]) (.ret 0, [100, 100]) :=
  ⟨⟨.norm, [100, 2], .beg _ _ _ _ _ _ _ (.again _ _ _ _ _ _ _ _ _
    (.iteT 2 _ _ [] [] _ _ rfl (J_act 100 []))
    (.hit 0 _ _ 100 [100] [100] _ _ rfl (.ens _ _ _ _ _ _ _ (.retry [100]) (J_act 2 [100])))
    (.els _ _ _ _ _ _ _ (.iteF 2 _ _ [100, 2] [100, 2] _ _ rfl (.skip _)) (.skip _))), rfl, rfl⟩,
    ⟨[], star_run 20 _⟩, by decide⟩

/-- C81 fails for `break` in an ensure clause when `return` left the region from inside another
loop: the copy breaks the inner loop, the `return` is lost and the clause runs again.
`while …; begin; while …; return 6; end; ensure; act 2; break; end; end` -/
theorem C81_break_in_ensure_fails :
    Wrong (.loop 5 (.ens (.loop 5 (.ret (.val 6))) (.seq (.act 2) .brk)))
      (.ret 0, [6, 2]) (.ret 0, [6, 2, 2]) :=
  ⟨⟨.norm, [6, 2], .loopBrk 5 _ [] [] _ rfl (.ens _ _ [] (.ret 6) [6] .brk [6, 2]
    (.loopOut 5 _ [] [] (.ret 6) [6] rfl (.ret (.val 6) []) (by decide) (by decide) (by decide))
    (.seq _ _ _ _ _ _ (J_act 2 [6]) (.brk _))), rfl, rfl⟩, ⟨[], star_run 20 _⟩, by decide⟩

/-- C82 fails for `rescue A => e`: the variable is assigned although the clause does not match.
`begin; raise 100; rescue 104 => v; rescue; end` -/
theorem C82_bind_fails :
    Wrong (.beg false (.act 100) (.cons 104 (some 1) .skip (.cons 0 none .skip .nil)) .skip .skip)
      (.ret 0, [100]) (.ret 0, [100, 1001]) :=
  ⟨⟨.norm, [100], .beg _ _ _ _ _ _ _ (.caught _ _ _ _ _ _ _ _ (J_act 100 [])
    (.miss 104 _ _ _ 100 [100] [100] _ _ rfl (.hit 0 _ _ 100 [100] [100] _ _ rfl (.skip _)))
    (by decide)), rfl, rfl⟩, ⟨[], star_run 12 _⟩, by decide⟩

/-- C83 fails for a region without ensure clause inside one with: a block that returns from the
method (200), or a `throw`, skips the ensure clause around.
`begin; begin; [1].each { return 200 }; rescue; end; ensure; act 2; end` -/
theorem C83_rescue_inside_fails :
    Wrong (.ens (.beg false (.act 200) (.cons 0 none .skip .nil) .skip .skip) (.act 2))
      (.ret 200, [200, 2]) (.ret 200, [200]) ∧
    Wrong (.ens (.beg false (.act 300) (.cons 0 none .skip .nil) .skip .skip) (.act 2))
      (.thr 300, [300, 2]) (.thr 300, [300]) :=
  ⟨⟨⟨.unw (.mret 200), _, .ens _ _ _ _ _ _ _ (.beg _ _ _ _ _ _ _ (.out _ _ _ _ _ _ (J_act 200 [])
    (by decide) (by intro x h; cases h))) (J_act 2 _), rfl, rfl⟩, ⟨[], star_run 12 _⟩, by decide⟩,
   ⟨⟨.unw (.thr 300), _, .ens _ _ _ _ _ _ _ (.beg _ _ _ _ _ _ _ (.out _ _ _ _ _ _ (J_act 300 [])
    (by decide) (by intro x h; cases h))) (J_act 2 _), rfl, rfl⟩, ⟨[], star_run 12 _⟩, by decide⟩⟩

/-- C83 fails for a region inside an ensure clause: when a block returns from the method, the
`EnsureEnd` of the inner region takes up the return, and the rest of the outer clause is skipped.
`begin; [1].each { return 200 }; ensure; begin; act 1; ensure; act 2; end; act 3; end` -/
theorem C83_nested_fails :
    Wrong (.ens (.act 200) (.seq (.ens (.act 1) (.act 2)) (.act 3)))
      (.ret 200, [200, 1, 2, 3]) (.ret 200, [200, 1, 2]) :=
  ⟨⟨.unw (.mret 200), _, .ens _ _ _ _ _ _ _ (J_act 200 []) (.seq _ _ _ _ _ _
    (.ens _ _ _ _ _ _ _ (J_act 1 _) (J_act 2 _)) (J_act 3 _)), rfl, rfl⟩, ⟨[], star_run 14 _⟩,
    by decide⟩

/-- C83 fails for an ensure clause that leaves by `break`: the return that it overrode comes back
at the next `EnsureEnd` of the frame.
`while …; begin; [1].each { return 200 }; ensure; break; end; end; begin; act 1; ensure; act 2; end;
return 3` -/
theorem C83_override_fails :
    Wrong (.seq (.loop 5 (.ens (.act 200) .brk)) (.seq (.ens (.act 1) (.act 2)) (.ret (.val 3))))
      (.ret 3, [200, 1, 2, 3]) (.ret 200, [200, 1, 2]) :=
  ⟨⟨.ret 3, _, .seq _ _ _ _ _ _ (.loopBrk 5 _ [] [] [200] rfl (.ens _ _ _ _ _ _ _ (J_act 200 [])
    (.brk _))) (.seq _ _ _ _ _ _ (.ens _ _ _ _ _ _ _ (J_act 1 _) (J_act 2 _)) (.ret (.val 3) _)),
    rfl, rfl⟩, ⟨[], star_run 20 _⟩, by decide⟩

/-- C83 fails across calls: a method whose ensure clause returns leaves the overridden return on
the stack, and a later method whose frame has the same address takes it up: it returns 200 where
its body returns 3.
`def f; [1].each { return 200 }; ensure; return 5; end`, then
`def g; begin; act 1; ensure; act 2; end; return 3; end` -/
theorem C83_other_frame_fails :
    Star J 7 (compMethod (.ens (.act 200) (.ret (.val 5)))) (start [] [])
      (.inr (.ret 5, [(7, .mret 200)], [200, 5])) ∧
    Ok J false (.seq (.ens (.act 1) (.act 2)) (.ret (.val 3))) ∧
    Ev J (.seq (.ens (.act 1) (.act 2)) (.ret (.val 3))) [200, 5] (.ret 3) [200, 5, 1, 2, 3] ∧
    Star J 7 (compMethod (.seq (.ens (.act 1) (.act 2)) (.ret (.val 3))))
      (start [(7, .mret 200)] [200, 5]) (.inr (.ret 200, [], [200, 5, 1, 2])) := by
  refine ⟨star_run 10 _, ?_, ?_, star_run 10 _⟩
  · simp only [Ok, hasEns, freeRetry]
    exact ⟨⟨trivial, trivial, trivial, J_fin 2 (by omega), trivial⟩, trivial⟩
  · exact .seq _ _ _ _ _ _ (.ens _ _ _ _ _ _ _ (J_act 1 _) (J_act 2 _)) (.ret (.val 3) _)

/-- C84 fails for `return x` with a local variable that the ensure clause assigns: the new value
is returned. -/
theorem C84_local_fails :
    Wrong (.seq (.act 1) (.ens (.ret (.loc 0)) (.act 2))) (.ret 1, [1, 2]) (.ret 2, [1, 2]) :=
  ⟨⟨.ret 1, _, .seq _ _ _ _ _ _ (J_act 1 []) (.ens _ _ _ _ _ _ _ (.ret (.loc 0) [1]) (J_act 2 _)),
    rfl, rfl⟩, ⟨[], star_run 10 _⟩, by decide⟩

/-- C84 fails for `return @v = 6`: the value lies in a temporary that the ensure clause uses again;
a value from the ensure clause is returned. -/
theorem C84_assign_fails :
    Wrong (.ens (.ret (.asg 6)) (.act 2)) (.ret 6, [6, 2]) (.ret 2, [6, 2]) :=
  ⟨⟨.ret 6, _, .ens _ _ _ _ _ _ _ (.ret (.asg 6) []) (J_act 2 _), rfl, rfl⟩, ⟨[], star_run 10 _⟩,
    by decide⟩

end Verif.Ensure
