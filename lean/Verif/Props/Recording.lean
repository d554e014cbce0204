import Verif.Proofs.SessionRun

/-!
# Properties of recording and replaying

* `replay_fidelity` (C01): evaluating a reduced functional gives the value of the program, as written,
  with the control objects given new values — after any history of recording, pausing, evaluations
  (complete or interrupted by exceptions), derivatives and garbage collection.
* `recorded_tape_wf` (C11): every tape a program can record is in single-assignment form.
* `values_independent_of_annotation`, `paused_records_nothing`, `one_block_per_operation` (C12).
-/

namespace Pyadjoint
open Source

namespace Session

/-- C01.  Run any program.  Then `ReducedFunctional(J, cs, scale)(xs)` returns exactly when `J` and `cs`
are `AdjFloat`s and the lengths agree, and then it returns `scale` times the value `J` has when the
program is evaluated with `xs` for `cs`; afterwards every object's tape value is its value in that
evaluation.  `State.run` and `State.valueAt` are the source-level reading of `Verif.Spec.Program`. -/
theorem replay_fidelity (p : List Instr) (S : Session) (hS : run p {} = some S) (J : Nat)
    (cs : List Nat) (scale : ℝ) (xs : List ℝ) :
    ∃ A, State.run p {} = some A ∧
      ((S.call J cs scale xs).isSome = true ↔ A.AreAdj (J :: cs) ∧ xs.length = cs.length) ∧
      ∀ y S', S.call J cs scale xs = some (y, S') →
        y = A.valueAt cs xs J * scale ∧
        (∀ i o v, S'.objs[i]? = some o → o.ref = some v → saved S'.heap v = A.valueAt cs xs i) := by
  have h := refines_init.run p
  rw [hS] at h
  cases hA : State.run p {} with
  | none => rw [hA] at h; exact h.elim
  | some A =>
    rw [hA] at h
    have R : Refines S A := h
    refine ⟨A, rfl, ?_, ?_⟩
    · have := R.call J cs scale xs
      split at this
      · rename_i hc
        obtain ⟨s', v, h1, _⟩ := this
        rw [h1]; simp [hc]
      · rename_i hc
        rw [this]; simp only [Option.isSome_none, Bool.false_eq_true, false_iff]; exact hc
    · intro y S' hy
      have := R.call J cs scale xs
      split at this
      · obtain ⟨s', v, h1, _, _, _, h2⟩ := this
        rw [h1] at hy
        cases hy
        exact ⟨rfl, fun i o v ho hv => h2 i v ⟨o, ho, hv⟩⟩
      · rw [this] at hy; cases hy

/-- A program may fail only where its source-level reading fails: on objects that do not exist or are
not `AdjFloat`s, or a wrong number of control values. -/
theorem run_isSome_iff (p : List Instr) : (run p {}).isSome = (State.run p {}).isSome := by
  have h := refines_init.run p
  cases hs : run p {} <;> cases hA : State.run p {} <;> rw [hs, hA] at h
  · rfl
  · exact h.elim
  · exact h.elim
  · rfl

/-- C11.  Recorded tapes are in single-assignment form. -/
theorem recorded_tape_wf (p : List Instr) (S : Session) (hS : run p {} = some S) :
    WF S.tape.blocks := by
  have h := refines_init.run p
  rw [hS] at h
  cases hA : State.run p {} with
  | none => rw [hA] at h; exact h.elim
  | some A => rw [hA] at h; exact Refines.wf h

/-- The instructions that create objects. -/
def _root_.Pyadjoint.Instr.creates : Instr → Bool
  | .const _ | .plain _ | .un _ _ | .bin _ _ _ => true
  | _ => false

/-- The Python values of all objects, and which of them are `AdjFloat`s. -/
def observable (s : Session) : List (ℝ × Bool) := s.objs.map fun o => (o.value, o.adj)

/-- The values a program computes in plain Python. -/
noncomputable def plainStep (env : List (ℝ × Bool)) : Instr → List (ℝ × Bool)
  | .const r => env ++ [(r, true)]
  | .plain r => env ++ [(r, false)]
  | .un op i => match env[i]? with
    | some x => env ++ [(op.val x.1, !(op = .neg) || x.2)]
    | none => env
  | .bin op i j => match env[i]?, env[j]? with
    | some x, some y => env ++ [(op.val x.1 y.1, overloaded op x.2 y.2)]
    | _, _ => env
  | _ => env

theorem plainStep_of_not_creates (env : List (ℝ × Bool)) (ins : Instr) (h : ins.creates = false) :
    plainStep env ins = env := by
  cases ins <;> simp_all [Instr.creates, plainStep]

theorem refines_observable {s : Session} {A : State} (R : Refines s A) :
    s.observable = A.regs.map fun r => (r.value, r.adj) := by
  apply List.ext_getElem?
  intro i
  unfold observable
  rw [List.getElem?_map, List.getElem?_map]
  cases hi : s.objs[i]? with
  | none => rw [(R.none_iff i).1 hi]; rfl
  | some o =>
    obtain ⟨r, hr⟩ := R.regs_some hi
    rw [hr]
    obtain ⟨h1, h2⟩ := R.val hi hr
    simp [h1, h2]

theorem state_step_plain {A A' : State} {ins : Instr} (h : A.step ins = some A') :
    (A'.regs.map fun r => (r.value, r.adj)) = plainStep (A.regs.map fun r => (r.value, r.adj)) ins := by
  cases ins with
  | const r => simp only [State.step, Option.some.injEq] at h; subst h; simp [State.push, plainStep]
  | plain r => simp only [State.step, Option.some.injEq] at h; subst h; simp [State.push, plainStep]
  | un op i =>
    simp only [State.step, Option.map_eq_some_iff] at h
    obtain ⟨r, hr, rfl⟩ := h
    simp [State.push, plainStep, hr]
  | bin op i j =>
    simp only [State.step, Option.bind_eq_some_iff, Option.map_eq_some_iff] at h
    obtain ⟨r, hr, q, hq, rfl⟩ := h
    simp [State.push, plainStep, hr, hq]
  | pause => simp only [State.step, Option.some.injEq] at h; subst h; rfl
  | cont => simp only [State.step, Option.some.injEq] at h; subst h; rfl
  | control i => simp only [State.step] at h; split at h <;> cases h; rfl
  | collect i => simp only [State.step] at h; split at h <;> cases h; rfl
  | call J cs scale xs =>
    simp only [State.step] at h; split at h <;> cases h
    apply List.ext_getElem?
    intro i
    simp [State.assign, plainStep, List.getElem?_mapIdx, Function.comp_def]
  | interrupted cs xs k =>
    simp only [State.step] at h; split at h <;> cases h
    apply List.ext_getElem?
    intro i
    simp [State.assign, plainStep, List.getElem?_mapIdx, Function.comp_def]
  | derivative J cs seed => simp only [State.step] at h; split at h <;> cases h; rfl
  | crashedDerivative J cs seed k j => simp only [State.step] at h; split at h <;> cases h; rfl
  | hessian J cs ds k junk => simp only [State.step] at h; split at h <;> cases h; rfl

theorem run_plain (p : List Instr) {s : Session} {A : State} (R : Refines s A) {S : Session}
    (hS : run p s = some S) : S.observable = p.foldl plainStep s.observable := by
  induction p generalizing s A with
  | nil => simp only [run, List.foldlM_nil, Option.pure_def, Option.some.injEq] at hS; subst hS; rfl
  | cons ins p ih =>
    unfold run at hS
    rw [List.foldlM_cons] at hS
    have h := R.step ins
    cases hs : s.step ins with
    | none => rw [hs] at hS; simp at hS
    | some s' =>
      rw [hs] at h hS
      cases hA : A.step ins with
      | none => rw [hA] at h; exact h.elim
      | some A' =>
        rw [hA] at h
        have R' : Refines s' A' := h
        rw [ih R' hS, List.foldl_cons, refines_observable R', state_step_plain hA, refines_observable R]

/-- C12.  The Python values a program computes do not depend on when annotation is paused, which
controls exist, which reduced functionals and derivatives are evaluated in between, and when the
garbage collector runs: programs that create their objects by the same instructions have the same
objects. -/
theorem values_independent_of_annotation (p q : List Instr) (S S' : Session)
    (hS : run p {} = some S) (hS' : run q {} = some S')
    (hpq : p.filter Instr.creates = q.filter Instr.creates) : S.observable = S'.observable := by
  have key : ∀ (l : List Instr) (env : List (ℝ × Bool)),
      l.foldl plainStep env = (l.filter Instr.creates).foldl plainStep env := by
    intro l
    induction l with
    | nil => intro env; rfl
    | cons a l ih =>
      intro env
      rw [List.foldl_cons, List.filter_cons]
      cases h : a.creates with
      | true => rw [if_pos rfl, List.foldl_cons, ih]
      | false => rw [if_neg (by simp), plainStep_of_not_creates _ _ h, ih]
  rw [run_plain p refines_init hS, run_plain q refines_init hS', key p, key q, hpq]

theorem touch_tape (s : Session) (i : Nat) (o : Obj) : (s.touch i o).2.tape = s.tape :=
  (touch_fields s i o).1

theorem controls_keeps (cs : List Nat) {s s' : Session} {vs : List BV}
    (h : controls cs s = some (vs, s')) : s'.tape = s.tape ∧ s'.annotate = s.annotate := by
  induction cs generalizing s vs s' with
  | nil =>
    simp only [controls, Option.some.injEq, Prod.mk.injEq] at h
    rw [← h.2]; exact ⟨rfl, rfl⟩
  | cons c cs ih =>
    unfold controls at h
    simp only [Option.bind_eq_bind, Option.bind_eq_some_iff] at h
    obtain ⟨o, _, h⟩ := h
    split at h
    · simp only [Option.bind_eq_some_iff, Option.pure_def] at h
      obtain ⟨⟨vs', s''⟩, h1, h2⟩ := h
      cases h2
      obtain ⟨h3, h4⟩ := ih h1
      exact ⟨h3.trans (touch_fields s c o).1, h4.trans (touch_fields s c o).2.1⟩
    · cases h

theorem functional_keeps {s s' : Session} {J : Nat} {cs : List Nat} {r : BV × List BV}
    (h : s.functional J cs = some (r, s')) : s'.tape = s.tape ∧ s'.annotate = s.annotate := by
  simp only [functional, Option.bind_eq_bind, Option.bind_eq_some_iff] at h
  obtain ⟨⟨vs, s₂⟩, h1, j, _, h⟩ := h
  split at h
  · cases h
    exact ⟨(touch_fields _ _ _).1.trans (controls_keeps _ h1).1, (touch_fields _ _ _).2.1.trans (controls_keeps _ h1).2⟩
  · cases h

theorem step_paused {s s' : Session} {ins : Instr} (ha : s.annotate = false) (hc : ins ≠ .cont)
    (h : s.step ins = some s') : s'.tape = s.tape ∧ s'.annotate = false := by
  cases ins with
  | const r => cases h; exact ⟨rfl, ha⟩
  | plain r => cases h; exact ⟨rfl, ha⟩
  | un op i =>
    simp only [step, Option.bind_eq_bind, Option.bind_eq_some_iff, ha, Bool.false_eq_true, if_false,
      Option.pure_def] at h
    obtain ⟨o, _, h⟩ := h
    split at h <;> cases h <;> exact ⟨rfl, ha⟩
  | bin op i j =>
    simp only [step, Option.bind_eq_bind, Option.bind_eq_some_iff, ha, Bool.false_eq_true, if_false,
      Option.pure_def] at h
    obtain ⟨o, _, q, _, h⟩ := h
    split at h <;> cases h <;> exact ⟨rfl, ha⟩
  | pause => cases h; exact ⟨rfl, rfl⟩
  | cont => exact absurd rfl hc
  | control i =>
    simp only [step, Option.bind_eq_bind, Option.bind_eq_some_iff, Option.pure_def] at h
    obtain ⟨⟨vs, s₁⟩, h1, h2⟩ := h
    cases h2
    exact ⟨(controls_keeps _ h1).1, (controls_keeps _ h1).2.trans ha⟩
  | collect i =>
    simp only [step, Option.bind_eq_bind, Option.bind_eq_some_iff, Option.pure_def] at h
    obtain ⟨o, _, h⟩ := h
    split at h
    · cases h; exact ⟨rfl, ha⟩
    · split at h <;> cases h <;> exact ⟨rfl, ha⟩
  | call J cs scale xs =>
    simp only [step, Option.map_eq_some_iff] at h
    obtain ⟨⟨y, s₁⟩, h, rfl⟩ := h
    simp only [call, Option.bind_eq_bind, Option.bind_eq_some_iff] at h
    obtain ⟨⟨vs, s₂⟩, h1, j, _, h⟩ := h
    split at h
    · simp only [Option.bind_eq_some_iff, Option.pure_def] at h
      obtain ⟨⟨y', h'⟩, _, h⟩ := h
      cases h
      exact ⟨(touch_fields _ _ _).1.trans (controls_keeps _ h1).1,
        ((touch_fields _ _ _).2.1.trans (controls_keeps _ h1).2).trans ha⟩
    · cases h
  | interrupted cs xs k =>
    simp only [step, interruptedCall, Option.bind_eq_bind, Option.bind_eq_some_iff] at h
    obtain ⟨⟨vs, s₂⟩, h1, h⟩ := h
    split at h
    · cases h
    · cases h
      exact ⟨(controls_keeps _ h1).1, (controls_keeps _ h1).2.trans ha⟩
  | derivative J cs seed =>
    simp only [step, Option.map_eq_some_iff] at h
    obtain ⟨⟨y, s₁⟩, h, rfl⟩ := h
    simp only [derivative, Option.bind_eq_bind, Option.bind_eq_some_iff] at h
    obtain ⟨⟨vs, s₂⟩, h1, j, _, h⟩ := h
    split at h
    · cases h
      exact ⟨(touch_fields _ _ _).1.trans (controls_keeps _ h1).1,
        ((touch_fields _ _ _).2.1.trans (controls_keeps _ h1).2).trans ha⟩
    · cases h
  | crashedDerivative J cs seed k j =>
    simp only [step, crashedDerivative, Option.bind_eq_bind, Option.bind_eq_some_iff] at h
    obtain ⟨⟨r, s₁⟩, h1, h⟩ := h
    cases h
    exact ⟨(functional_keeps h1).1, (functional_keeps h1).2.trans ha⟩
  | hessian J cs ds k junk =>
    simp only [step, Option.map_eq_some_iff] at h
    obtain ⟨⟨y, s₁⟩, h, rfl⟩ := h
    simp only [hessian, Option.bind_eq_bind, Option.bind_eq_some_iff] at h
    obtain ⟨⟨r, s₂⟩, h1, h⟩ := h
    split at h
    · cases h
    · split at h <;> cases h <;> exact ⟨(functional_keeps h1).1, (functional_keeps h1).2.trans ha⟩

/-- C12.  While annotation is paused nothing is added to the tape. -/
theorem paused_records_nothing (p : List Instr) (S S' : Session) (ha : S.annotate = false)
    (hc : Instr.cont ∉ p) (h : run p S = some S') : S'.tape = S.tape := by
  induction p generalizing S with
  | nil => cases h; rfl
  | cons ins p ih =>
    unfold run at h
    rw [List.foldlM_cons] at h
    simp only [Option.bind_eq_bind, Option.bind_eq_some_iff] at h
    obtain ⟨s₁, h1, h2⟩ := h
    obtain ⟨h3, h4⟩ := step_paused ha (fun h => hc (h ▸ List.mem_cons_self)) h1
    rw [ih s₁ h4 (fun h => hc (List.mem_cons_of_mem _ h)) h2, h3]

/-- C12.  The tape has one block for each annotated operation, and none for anything else. -/
theorem one_block_per_operation (p : List Instr) (S : Session) (hS : run p {} = some S) :
    ∃ A, State.run p {} = some A ∧
      S.tape.length = (A.regs.map (·.origin)).countP (fun d => !d.isFree) := by
  have h := refines_init.run p
  rw [hS] at h
  cases hA : State.run p {} with
  | none => rw [hA] at h; exact h.elim
  | some A => rw [hA] at h; exact ⟨A, rfl, Refines.count h⟩

/-- `x = AdjFloat(2); y = AdjFloat(3); z = x*y; one = 1.0; w = one + z`, then with annotation paused
`n = -x`, then `u = exp(w)`, `J = u - n`, and `ReducedFunctional(w, [Control(x)])(5)` (example data). -/
noncomputable def exProg : List Instr :=
  [.const 2, .const 3, .bin .mul 0 1, .plain 1, .bin .add 3 2, .pause, .un .neg 0, .cont, .un .exp 4,
   .bin .sub 6 5, .collect 5, .call 4 [0] 1 [5], .interrupted [1] [4] 1, .derivative 7 [0, 1] 1]

theorem exProg_state : State.run exProg {} = some ⟨[⟨2, true, .free, 5⟩, ⟨3, true, .free, 4⟩,
    ⟨2 * 3, true, .bin .mul 0 1, 2 * 3⟩, ⟨1, false, .free, 1⟩, ⟨1 + 2 * 3, true, .bin .add 3 2, 1 + 2 * 3⟩,
    ⟨-2, true, .free, -2⟩, ⟨Real.exp (1 + 2 * 3), true, .un .exp 4, Real.exp (1 + 2 * 3)⟩,
    ⟨Real.exp (1 + 2 * 3) - -2, true, .bin .sub 6 5, Real.exp (1 + 2 * 3) - -2⟩], true⟩ := by
  simp [State.run, exProg, State.step, State.push, overloaded, UOp.val, BOp.val, State.AreAdj,
    State.assign, override]

/-- The hypothesis of `replay_fidelity` is met by `exProg`, and the value of its functional at `x = 7` is
computed with the second control's last value `4` and the unannotated `-x` frozen at `-2`. -/
example : ∃ S A, run exProg {} = some S ∧ State.run exProg {} = some A ∧
    A.valueAt [0] [7] 7 = Real.exp (1 + 7 * 4) - -2 := by
  obtain ⟨S, hS⟩ := Option.isSome_iff_exists.1 ((run_isSome_iff exProg).trans (by rw [exProg_state]; rfl))
  refine ⟨S, _, hS, exProg_state, ?_⟩
  simp [State.valueAt, reeval, override, Def.eval, UOp.val, BOp.val]

/-- Non-vacuity of `values_independent_of_annotation` and `paused_records_nothing`: `exProg` and
`exProg` without its pause have the same object-creating instructions; both run. -/
example : ∃ S S', run exProg {} = some S ∧
    run (exProg.filter Instr.creates) {} = some S' ∧
    exProg.filter Instr.creates = (exProg.filter Instr.creates).filter Instr.creates := by
  obtain ⟨S, hS⟩ := Option.isSome_iff_exists.1 ((run_isSome_iff exProg).trans (by rw [exProg_state]; rfl))
  obtain ⟨S', hS'⟩ := Option.isSome_iff_exists.1 ((run_isSome_iff (exProg.filter Instr.creates)).trans (by
    have e : exProg.filter Instr.creates = [.const 2, .const 3, .bin .mul 0 1, .plain 1, .bin .add 3 2,
      .un .neg 0, .un .exp 4, .bin .sub 6 5] := rfl
    rw [e]
    simp [State.run, State.step, State.push, overloaded]))
  exact ⟨S, S', hS, hS', by simp⟩

example : ∃ S S', S.annotate = false ∧ Instr.cont ∉ [Instr.un .neg 0, .bin .mul 0 0, .derivative 0 [0] 1] ∧
    run [Instr.un .neg 0, .bin .mul 0 0, .derivative 0 [0] 1] S = some S' := by
  have R : Refines { ({} : Session).push 2 true with annotate := false }
      { ({} : State).push 2 true .free with annotate := false } :=
    { refines_init.push' 2 true .free (Or.inr rfl) with ann := rfl }
  have h := R.run [Instr.un .neg 0, .bin .mul 0 0, .derivative 0 [0] 1]
  have hA : (State.run [Instr.un .neg 0, .bin .mul 0 0, .derivative 0 [0] 1]
      { ({} : State).push 2 true .free with annotate := false }).isSome = true := by
    simp [State.run, State.step, State.push, overloaded, State.AreAdj]
  cases hs : run [Instr.un .neg 0, .bin .mul 0 0, .derivative 0 [0] 1]
      { ({} : Session).push 2 true with annotate := false } with
  | some S' => exact ⟨_, S', rfl, by simp, hs⟩
  | none =>
    obtain ⟨A, hA⟩ := Option.isSome_iff_exists.1 hA
    rw [hs, hA] at h; exact h.elim

end Session
end Pyadjoint
