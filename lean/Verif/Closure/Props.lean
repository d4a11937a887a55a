import Verif.Closure.Kept

/-!
# Theorems about variables, blocks and closures (C89, C90, C91)

`run fw St.init ops` is the machine of `Model.lean`, `World.init.run ops` is Ruby (`Spec.lean`):
environments that never move and never go away.  The machine, in contrast, keeps the variables of
a call in the stack until a closure is made, copies them to the heap then, and names a block by
the number of control frames to walk.
-/

namespace Verif.Closure

/-- Every operation of the run is plain (`World.Plain`: no Integer as block, `binding` only where
no method around has been given a block) and there are fewer than 65536 calls in progress. -/
def World.Fits : World → List Op → Prop
  | _, [] => True
  | w, op :: ops => w.calls.length < 65536 ∧ w.Plain op ∧ World.Fits (w.step op).1 ops

theorem run_sim : ∀ (ops : List Op) {σ : St} {W : World}, WF σ → Sim σ W → W.Fits ops →
    WF (run true σ ops).1 ∧ Sim (run true σ ops).1 (W.run ops).1 ∧
      (run true σ ops).2 = (W.run ops).2 := by
  intro ops
  induction ops with
  | nil => intro σ W w s _; exact ⟨w, s, rfl⟩
  | cons op ops ih =>
    intro σ W w s h
    obtain ⟨h1, h2, h3⟩ := h
    obtain ⟨w', s', e⟩ := step_sim w s h1 op h2
    obtain ⟨a, b, c⟩ := ih w' s' h3
    exact ⟨a, b, by simp only [run, World.run, e, c]⟩

theorem run_append (fw : Bool) (σ : St) (a b : List Op) :
    (run fw σ (a ++ b)).2 = (run fw σ a).2 ++ (run fw (run fw σ a).1 b).2 := by
  induction a generalizing σ with
  | nil => rfl
  | cons op a ih => simp only [List.cons_append, run, ih]

/-! ## C89: closures share the variables of the calls around them -/

/-- Whatever the program does — nested blocks, closures made while blocks are running, blocks
called after the method that made them has ended, blocks forwarded from method to method, builtin
methods iterating while their block makes closures — every variable reads as if each call had one
environment for ever, and every `yield` and `Proc` call enters the code it should.
Partial: without Integers as blocks, and with `binding` only where no block has been given to the
methods around it (`C89_binding_fails`); x86-64 only (`C89_aarch64_fails`). -/
theorem C89_shared_partial (ops : List Op) (h : World.init.Fits ops) :
    (run true St.init ops).2 = (World.init.run ops).2 :=
  (run_sim ops .init .init h).2.2

/-- A counter made by a method that has ended, shared by two closures; `x` is incremented through
one and read through the other; a third call of the method has its own `x`. -/
example : World.init.Fits [.call none, .set 0 0 5, .lambda 1, .lambda 2, .ret, .call none,
      .procBody 0 false, .set 1 0 6, .ret, .procBody 1 false, .get 1 0] ∧
    (run true St.init [.call none, .set 0 0 5, .lambda 1, .lambda 2, .ret, .call none,
      .procBody 0 false, .set 1 0 6, .ret, .procBody 1 false, .get 1 0]).2 =
      [.unit, .unit, .unit, .unit, .unit, .unit, .code 1, .unit, .unit, .code 2, .val 6] := by
  refine ⟨?_, by decide⟩
  simp [World.Fits, World.Plain, World.step, World.top, World.init, World.enter, World.give,
    World.given, World.scope, World.assign]

/-- `def t; $b = binding; yield; end;  def m; x = 0; t { $b.eval("proc {}"); x = 1 }; x; end`
gives 0: `binding` leaves the block handler of `t` as it is, the closure made in the `eval` then
moves the frame of `m`, and the running block goes on writing to the copy in the stack. -/
theorem C89_binding_fails :
    ∃ ops : List Op, (∀ n, .callInt n ∉ ops) ∧ ops.length < 65535 ∧
      (run true St.init ops).2 ≠ (World.init.run ops).2 ∧
      (run true St.init ops).2.getLast? = some (.val 0) ∧
      (World.init.run ops).2.getLast? = some (.val 1) :=
  ⟨[.call none, .call (some 7), .binding, .yield, .evalIn 0, .lambda 3, .ret, .set 1 0 1, .ret,
    .ret, .get 0 0], by simp, by decide, by decide, by decide, by decide⟩

/-- On aarch64 the second iteration of `def m; x = 0; 2.times { |i| ->{} ; x = i }; x; end` writes
to the copy of `x` left in the stack: the block invoker does not follow a tombstone. -/
theorem C89_aarch64_fails :
    ∃ ops : List Op, World.init.Fits ops ∧
      (run true St.init ops).2 = (World.init.run ops).2 ∧
      (run false St.init ops).2.getLast? = some (.val 0) ∧
      (World.init.run ops).2.getLast? = some (.val 1) := by
  refine ⟨[.call none, .call (some 7), .cache, .invoke, .lambda 3, .ret, .invoke, .set 1 0 1, .ret,
    .ret, .get 0 0], ?_, by decide, by decide, by decide⟩
  simp [World.Fits, World.Plain, World.step, World.top, World.init, World.enter, World.give,
    World.given, World.scope, World.assign, World.iterate]

/-! ## C90: the block given to a method -/

theorem top_enter (w : World) (p : Option Nat) (b : Option (Nat × Nat)) :
    (w.enter p b).top = some w.envs.length := by
  simp [World.top, World.enter]

/-- A method called with the block `fid`, doing whatever it likes in between (`mid`: closures,
iterations, calls with other blocks), then `yield`s: the block's code runs, and variable `i` of the
scope around it is what the caller itself reads when the method returns instead. -/
theorem C90_yield_partial (ops mid : List Op) (fid i : Nat) (p : List Op)
    (hp : p = ops ++ .call (some fid) :: mid)
    (hfit : World.init.Fits p)
    (hdeep : (World.init.run p).1.calls.length + 1 < 65536)
    (hmid : (World.init.run (ops ++ [.call (some fid)])).1.Within
      ((World.init.run ops).1.calls.length + 1) mid) :
    ∃ x, (run true St.init (p ++ [.yield, .get 1 i])).2 =
        (run true St.init p).2 ++ [.code fid, .val x] ∧
      (run true St.init (p ++ [.ret, .get 0 i])).2 =
        (run true St.init p).2 ++ [.unit, .val x] := by
  obtain ⟨wp, sp, _⟩ := run_sim p .init .init hfit
  -- the world when the method is called
  have hf0 : World.init.Fits ops := by
    have : ∀ (a b : List Op) (w : World), w.Fits (a ++ b) → w.Fits a := by
      intro a
      induction a with
      | nil => intros; trivial
      | cons op a ih => intro b w h; exact ⟨h.1, h.2.1, ih b _ h.2.2⟩
    exact this ops _ _ (hp ▸ hfit)
  obtain ⟨w0, s0, _⟩ := run_sim ops .init .init hf0
  obtain ⟨a, ha, _, ok, he, hw, _, _⟩ := top_sim w0 s0
  obtain ⟨f, k, _, _, hwe, _⟩ := s0.frame w0 ok
  have hstep : (World.init.run (ops ++ [.call (some fid)])).1 =
      (World.init.run ops).1.enter none (some (fid, envOf (run true St.init ops).1 a.lfp)) := by
    rw [(World.run_append _ _ _).1]
    simp only [World.run, World.step, hw]
  have hrun : (World.init.run p).1 = ((World.init.run (ops ++ [.call (some fid)])).1.run mid).1 := by
    rw [hp, show ops ++ .call (some fid) :: mid = (ops ++ [.call (some fid)]) ++ mid by simp]
    exact (World.run_append _ _ _).1
  generalize envOf (run true St.init ops).1 a.lfp = e at hw hwe hstep
  generalize (World.init.run ops).1 = W0 at *
  have hn : W0.calls.length + 1 ≤ (World.init.run (ops ++ [.call (some fid)])).1.calls.length := by
    rw [hstep]; simp [World.enter]
  obtain ⟨K, hlen⟩ := wkeep_run mid hmid hn
  rw [← hrun] at K hlen
  rw [hstep] at K
  -- the world before the `yield`
  generalize (World.init.run p).1 = Wp at *
  have hpos : 0 < W0.calls.length := by
    simp only [World.top] at hw
    obtain ⟨c, hc, _⟩ := Option.map_eq_some_iff.mp hw
    have := getElem?_lt hc
    omega
  obtain ⟨c', hc'⟩ := exists_getElem? (show W0.calls.length < Wp.calls.length by omega)
  have hcenv : c'.env = W0.envs.length :=
    K.call _ ⟨W0.envs.length, none⟩ c' (by omega)
      ((append_get _ _ _ _).mpr (.inr ⟨rfl, rfl⟩)) hc'
  have htop : Wp.top = some W0.envs.length := by
    show (Wp.calls[Wp.calls.length - 1]?).map (·.env) = _
    rw [hlen, Nat.add_sub_cancel, hc', Option.map_some, hcenv]
  obtain ⟨v', hv', hpar, hblk⟩ := K.env W0.envs.length
    ⟨fun _ => 0, none, some (fid, e)⟩ ((append_get _ _ _ _).mpr (.inr ⟨rfl, rfl⟩))
  obtain ⟨ve, hve, _, _⟩ := K.env e _ (enter_envs _ _ _ _ _ hwe)
  have hyields : Wp.yields W0.envs.length = some (fid, e) := by
    simp only at hpar hblk
    simp [World.yields, World.method, hv', hpar, hblk]
  refine ⟨ve.slots i, ?_, ?_⟩
  · rw [run_append]
    have F : Wp.Fits [.yield, .get 1 i] := by
      have hs : (Wp.step .yield).1 = Wp.enter (some e) none := by
        simp only [World.step, htop, hyields]
      refine ⟨by omega, trivial, ?_, trivial, trivial⟩
      rw [hs]
      show (Wp.calls ++ _).length < 65536
      rw [List.length_append]
      exact hdeep
    rw [(run_sim _ wp sp F).2.2]
    have hsc : (Wp.enter (some e) none).scope 1 Wp.envs.length = some e := by
      simp [World.scope, World.enter]
    simp only [World.run, World.step, htop, hyields, top_enter, hsc, enter_envs _ _ _ _ _ hve]
  · rw [run_append]
    have F : Wp.Fits [.ret, .get 0 i] := by
      refine ⟨by omega, trivial, ?_, trivial, trivial⟩
      simp only [World.step, htop]
      split <;> simp <;> omega
    rw [(run_sim _ wp sp F).2.2]
    obtain ⟨c0, hc0, he0⟩ := Option.map_eq_some_iff.mp hw
    obtain ⟨c1, hc1⟩ := exists_getElem? (show W0.calls.length - 1 < Wp.calls.length by omega)
    have hce : c1.env = e := by
      rw [← he0]
      exact K.call _ c0 c1 (by omega) ((append_get _ _ _ _).mpr (.inl hc0)) hc1
    have htop2 : ({ Wp with calls := Wp.calls.dropLast } : World).top = some e := by
      show (Wp.calls.dropLast[Wp.calls.dropLast.length - 1]?).map (·.env) = some e
      rw [List.length_dropLast, hlen, List.dropLast_eq_take, List.getElem?_take, hlen,
        Nat.add_sub_cancel, if_pos (by omega), hc1]
      simp [hce]
    simp only [World.run, World.step, htop, if_neg (show ¬ Wp.calls.length ≤ 1 by omega), htop2,
      World.scope, hve]

/-- The method makes a closure over its own frame, iterates a block of its own that makes another,
and then yields. -/
example : ∃ x, (run true St.init ([.set 0 3 8, .call (some 7), .lambda 1, .call (some 9), .cache,
      .invoke, .lambda 2, .ret, .ret] ++ [.yield, .get 1 3])).2 =
    (run true St.init [.set 0 3 8, .call (some 7), .lambda 1, .call (some 9), .cache,
      .invoke, .lambda 2, .ret, .ret]).2 ++ [.code 7, .val x] ∧ x = 8 := by
  refine ⟨8, by decide, rfl⟩

example : World.init.Fits [.set 0 3 8, .call (some 7), .lambda 1, .call (some 9), .cache,
      .invoke, .lambda 2, .ret, .ret] := by
  simp [World.Fits, World.Plain, World.step, World.top, World.init, World.enter, World.give,
    World.given, World.scope, World.assign, World.iterate]

/-- The middle part above never ends the method's call and ends with it running. -/
example : (World.init.run ([.set 0 3 8] ++ [.call (some 7)])).1.Within 2
    [.lambda 1, .call (some 9), .cache, .invoke, .lambda 2, .ret, .ret] := by
  simp [World.Within, World.run, World.step, World.top, World.init, World.enter, World.give,
    World.given, World.scope, World.assign, World.iterate]

/-- `f(&65537)` raises no TypeError: the Integer is taken for a block handler, and `yield` in `f`
runs whatever function has number 1, as a block of the caller. -/
theorem C90_integer_fails :
    (run true St.init [.callInt 65537, .yield]).2 = [.unit, .code 1] ∧
      (World.init.run [.callInt 65537]).2 = [.typeErr] := by
  refine ⟨by decide, by decide⟩

/-- `def m; binding; end;  b = m { 42 };  b.eval("yield")`: "no block given". -/
theorem C90_binding_yield_fails :
    (run true St.init [.call (some 7), .binding, .ret, .evalIn 0, .yield]).2.getLast? =
      some .noBlock ∧
    (World.init.run [.call (some 7), .binding, .ret, .evalIn 0, .yield]).2.getLast? =
      some (.code 7) := by
  refine ⟨by decide, by decide⟩

/-! ## C91: `return` in a block -/

/-- The method around the running call. -/
def World.home (w : World) : Option Nat :=
  match w.top with
  | some e => w.method (w.envs.length + 1) e
  | none => none

/-- A `return` in a block ends the calls from the running one down to that of the method the block
is written in, running their `ensure` clauses, and goes on there with all variables as they should
be; `LocalJumpError` if that method's call is not in progress.
Partial: the `ensure` clauses make no closure and call no `binding` (`C91_ensure_fails`,
`C91_target_fails`), and are plain. -/
theorem C91_return_partial (ops : List Op) (ens : Nat → Option (List Op))
    (h : World.init.Fits ops)
    (hcalm : ∀ m, (World.init.run ops).1.home = some m →
      (World.init.run ops).1.CalmAll ens m (World.init.run ops).1.calls.length) :
    (nonlocalReturn true ens (run true St.init ops).1).2 =
      ((World.init.run ops).1.nonlocalReturn ens).2 ∧
    ∀ j, (nonlocalReturn true ens (run true St.init ops).1).2 = .returned j → 0 < j →
      ∀ rest, ((World.init.run ops).1.nonlocalReturn ens).1.Fits rest →
        (run true (nonlocalReturn true ens (run true St.init ops).1).1 rest).2 =
          (((World.init.run ops).1.nonlocalReturn ens).1.run rest).2 := by
  obtain ⟨w, s, _⟩ := run_sim ops .init .init h
  generalize (run true St.init ops).1 = σ at *
  generalize (World.init.run ops).1 = W at *
  obtain ⟨a, ha, ht, ok, he, hw, sh, _⟩ := top_sim w s
  rcases home_sim w s (σ.next + 1) _ ok sh with ⟨q, h1, h2, okq, _⟩ | ⟨h1, h2⟩
  · have hhome : W.home = some (envOf σ q) := by simp [World.home, hw, s.next, h2]
    have hc := hcalm _ hhome
    by_cases hin : ∃ (i : Nat) (b : Act), σ.acts[i]? = some b ∧ b.cell.env = envOf σ q
    · obtain ⟨i, b, hb, hbe⟩ := hin
      have hlf : b.lfp = q := by
        obtain ⟨o1, o2⟩ := w.lfp_ok hb
        exact w.ok_inj o1 okq (o2.trans hbe)
      obtain ⟨k', hk'⟩ := findOwner_exists (getElem?_lt hb) hb hlf
      have hany : W.calls.any (fun c => c.env == envOf σ q) = true := by
        rw [List.any_eq_true]
        exact ⟨_, List.mem_of_getElem? (s.calls i b hb), by simp [hbe]⟩
      have e1 : nonlocalReturn true ens σ = unwind true ens σ q σ.acts.length := by
        simp [nonlocalReturn, ht, h1, hk']
      have e2 : W.nonlocalReturn ens = W.unwind ens (envOf σ q) σ.acts.length := by
        simp only [World.nonlocalReturn, hw, s.next, h2, hany, if_true, s.ncalls]
      rw [s.ncalls] at hc
      have U := unwind_sim ens σ.acts.length w s rfl okq hc ⟨i, b, hb, hbe⟩
      rw [e1, e2]
      refine ⟨U.1, ?_⟩
      intro j hj hj0 rest hrest
      obtain ⟨u1, u2⟩ := U.2 j hj hj0
      exact (run_sim rest u1 u2 hrest).2.2
    · have hfo : findOwner σ.acts q σ.acts.length = none := by
        cases hf : findOwner σ.acts q σ.acts.length with
        | none => rfl
        | some k =>
          obtain ⟨_, b, hb, hbl⟩ := findOwner_some hf
          exact absurd ⟨k, b, hb, by rw [← (w.lfp_ok hb).2, hbl]⟩ hin
      have hany : W.calls.any (fun c => c.env == envOf σ q) = false := by
        rw [List.any_eq_false]
        intro c hc
        obtain ⟨i, hi⟩ := List.getElem?_of_mem hc
        obtain ⟨b, hb⟩ := exists_getElem? (show i < σ.acts.length by
          rw [← s.ncalls]; exact getElem?_lt hi)
        rw [s.calls i b hb] at hi
        cases hi
        intro e
        exact hin ⟨i, b, hb, by simpa using e⟩
      have e1 : nonlocalReturn true ens σ = (σ, .localJump) := by
        simp [nonlocalReturn, ht, h1, hfo]
      have e2 : W.nonlocalReturn ens = (W, .localJump) := by
        simp [World.nonlocalReturn, hw, s.next, h2, hany]
      rw [e1, e2]
      exact ⟨rfl, fun j hj => (by cases hj)⟩
  · have e1 : nonlocalReturn true ens σ = (σ, .localJump) := by
      simp [nonlocalReturn, ht, h1]
    have e2 : W.nonlocalReturn ens = (W, .localJump) := by
      simp [World.nonlocalReturn, hw, s.next, h2]
    rw [e1, e2]
    exact ⟨rfl, fun j hj => (by cases hj)⟩

/-- It ends exactly at the call of the method the block is written in; it never escapes and is
never lost. -/
theorem C91_lands_partial (ops : List Op) (ens : Nat → Option (List Op))
    (h : World.init.Fits ops)
    (hcalm : ∀ m, (World.init.run ops).1.home = some m →
      (World.init.run ops).1.CalmAll ens m (World.init.run ops).1.calls.length) :
    (∃ (m j : Nat) (c : Call), (World.init.run ops).1.home = some m ∧
      (World.init.run ops).1.calls[j]? = some c ∧ c.env = m ∧
      (nonlocalReturn true ens (run true St.init ops).1).2 = .returned j) ∨
    ((∀ m c, (World.init.run ops).1.home = some m → c ∈ (World.init.run ops).1.calls → c.env ≠ m) ∧
      (nonlocalReturn true ens (run true St.init ops).1).2 = .localJump) := by
  rw [(C91_return_partial ops ens h hcalm).1]
  obtain ⟨w, s, _⟩ := run_sim ops .init .init h
  obtain ⟨_, _, _, _, _, hw, _⟩ := top_sim w s
  generalize (World.init.run ops).1 = W at *
  generalize envOf _ _ = e at hw
  unfold World.home at *
  simp only [World.nonlocalReturn, hw] at *
  cases hm : W.method (W.envs.length + 1) e with
  | none => right; exact ⟨fun m c h => (by cases h), rfl⟩
  | some m =>
    simp only
    cases ha : W.calls.any (fun c => c.env == m) with
    | true =>
      left
      obtain ⟨c, hc, hce⟩ := List.any_eq_true.mp ha
      obtain ⟨i, hi⟩ := List.getElem?_of_mem hc
      obtain ⟨j, c', h1, h2, h3⟩ := unwind_lands ens m W.calls.length rfl (hcalm m hm)
        ⟨i, c, hi, by simpa using hce⟩
      exact ⟨m, j, c', rfl, h2, h3, by simpa using h1⟩
    | false =>
      right
      refine ⟨?_, rfl⟩
      intro m' c e hc
      cases e
      have := List.any_eq_false.mp ha c hc
      simpa using this

/-- `def t; yield; ensure; x = 4; end;  def m; t { return 1 }; end`: the call of `m` returns. -/
example : (nonlocalReturn true (fun k => if k = 2 then some [.set 0 0 4] else none)
    (run true St.init [.call none, .call (some 7), .yield]).1).2 = .returned 1 := by decide

/-- The hypotheses of `C91_return_partial` hold for it. -/
example : World.init.Fits [.call none, .call (some 7), .yield] ∧
    (World.init.run [.call none, .call (some 7), .yield]).1.home = some 1 ∧
    (World.init.run [.call none, .call (some 7), .yield]).1.CalmAll
      (fun k => if k = 2 then some [.set 0 0 4] else none) 1 4 := by
  refine ⟨?_, by decide, ?_⟩
  · simp [World.Fits, World.Plain, World.step, World.top, World.init, World.enter, World.yields,
      World.method]
  · simp [World.CalmAll, World.Calm, World.after, World.Plain, Op.still, World.run, World.step,
      World.top, World.init, World.enter, World.yields, World.method, World.scope, World.assign]

/-- `def m; proc { return }; end;  m.call`: `LocalJumpError`. -/
example : (nonlocalReturn true (fun _ => none)
    (run true St.init [.call none, .call (some 7), .genProc, .ret, .ret, .procBody 0 false]).1).2 =
      .localJump := by decide

/-- `def t; yield; ensure; ->{}; end;  def m; t { return 1 }; 2; end` gives 2: the closure made in
the `ensure` clause moves the frame of `t`, and the `return` on hold is not found again at the end
of the clause. -/
theorem C91_ensure_fails :
    ∃ (ops : List Op) (ens : Nat → Option (List Op)),
      (nonlocalReturn true ens (run true St.init ops).1).2 = .swallowed 2 ∧
      ((World.init.run ops).1.nonlocalReturn ens).2 = .returned 1 :=
  ⟨[.call none, .call (some 7), .yield], fun k => if k = 2 then some [.lambda 9] else none,
    by decide, by decide⟩

/-- `def t(&b); u(&b); ensure; end`, where the `ensure` clause of a method further up reads its
block parameter: the frame the `return` is going to moves, and the `return` passes every call. -/
theorem C91_target_fails :
    ∃ (ops : List Op) (ens : Nat → Option (List Op)),
      (nonlocalReturn true ens (run true St.init ops).1).2 = .escaped ∧
      ((World.init.run ops).1.nonlocalReturn ens).2 = .returned 1 :=
  ⟨[.call none, .call (some 7), .callFwd, .yield],
    fun k => if k = 2 then some [.blockArg 0] else none, by decide, by decide⟩

end Verif.Closure
