import Verif.Model.SessionTangent
import Verif.Props.ProgramHessian
import Verif.Props.Tangent

/-!
# C05 for programs
-/

namespace Pyadjoint.Session

open Source

variable {s : Session} {A : State}

/-- A register computed by an annotated operation has a block variable on the tape. -/
theorem Refines.onTape (R : Refines s A) {J : Nat} {v : BV} (hJ : s.RefAt J v) {r : Reg} (hr : A.regs[J]? = some r) (hnf : r.origin ≠ .free) :
    OnTape s.tape.blocks v := by
  cases horg : r.origin with
  | free => exact absurd horg hnf
  | un op a =>
    obtain ⟨_, u, av, h4, h5, -⟩ := R.un hr horg
    rw [refAt_fun hJ h4]
    exact ⟨_, List.mem_map.2 ⟨_, h5, rfl⟩, Or.inr (by simp [FBlock.toBlock])⟩
  | bin op a b =>
    obtain ⟨_, _, u, av, bv, h4, -, -, h5⟩ := R.bin hr horg
    rw [refAt_fun hJ h4]
    rcases h5 with h5 | ⟨_, h5⟩ <;> exact ⟨_, List.mem_map.2 ⟨_, h5, rfl⟩, Or.inr (by simp [FBlock.toBlock])⟩

theorem Refines.tangentHeap (R : Refines s A) (vs : List BV) (ds : List ℝ) :
    Refines { s with heap := s.tape.evaluateTlm false (seedTlm vs ds (resetVariables s.tape.blocks .tlm s.heap)) } A := by
  refine R.derivs (P := fun _ => True) _ fun v => ?_
  refine (derivs_reset _ s.tape .tlm (by simp) s.heap v).trans ((derivs_seedTlm _ vs ds _ v).trans ?_)
  obtain ⟨o, ho⟩ := FTape.evaluateTlm_frame s.tape false (seedTlm vs ds (resetVariables s.tape.blocks .tlm s.heap)) v (FTape.WF_self R.wf)
  rw [ho]; exact ⟨rfl, rfl, id, Or.inl⟩

theorem Refines.functional_refines (R : Refines s A) {J : Nat} {cs : List Nat} {q : BV × List BV} {s' : Session}
    (h : s.functional J cs = some (q, s')) : Refines s' A := by
  classical
  have := R.functional J cs
  rw [h] at this
  split at this
  · obtain ⟨s₁, v, vs, e, R', -⟩ := this
    cases e
    exact R'
  · cases this

/-- **C05, for programs.**  Run any program and evaluate the reduced functional with the control values `x₀`.  Then reset the tangent
values, give the controls the directions `dir` and call `tape.evaluate_tlm()`.  If the controls are distinct free `AdjFloat`s, `J` is
the result of an annotated operation and every annotated operation is differentiable at the point, the tangent value of `J`
(zero if it is missing) is the directional derivative at `x₀` of `x ↦ J(x)`, the value of the program as written with `x` for the
controls; a `J` that is not computed from the controls has none.  The program can go on as if there had been no tangent. -/
theorem program_tangent (p : List Instr) (S : Session) (hS : run p {} = some S) (A : State) (hA : State.run p {} = some A) (J : Nat)
    {r : Reg} (hr : A.regs[J]? = some r) (hJ : r.origin ≠ .free) (cs : List Nat) (hnd : cs.Nodup)
    (hfree : A.FreeControls cs) (scale : ℝ) {n : Nat} (hn : cs.length = n) (x₀ dir : Fin n → ℝ)
    (hsm : A.Smooth cs (List.ofFn x₀)) (y : ℝ) (S₁ : Session) (hcall : S.call J cs scale (List.ofFn x₀) = some (y, S₁)) :
    ∃ t S₂, S₁.tangent J cs (List.ofFn dir) = some (t, S₂) ∧
      HasDerivAt (fun a : ℝ => A.valueAt cs (List.ofFn (x₀ + a • dir)) J) (t.getD 0) 0 ∧
      (¬ A.DependsOn cs J → t = none) ∧ Refines S₂ (A.assign cs (List.ofFn x₀)) := by
  have h := refines_init.run p
  rw [hS, hA] at h
  have R : Refines S A := h
  obtain ⟨s₂, v, vs, R₂, hJv, hcs, rfl, R₃⟩ := R.call_state (by rw [List.length_ofFn, hn]) hcall
  have hvn : vs.length = n := hcs.length_eq.symm.trans hn
  have hf := R₃.functional_of_refs (J := J) (v := v) (cs := cs) (vs := vs) hJv hcs
  have hon := R₂.onTape hJv hr hJ
  have hvnd := nodup_of_forall₂ (P := s₂.RefAt) R₂.inj hcs hnd
  have hind := R₂.independent hcs hfree
  subst hvn
  have hlen : ∀ x : Fin vs.length → ℝ, (List.ofFn x).length = cs.length := fun x => by rw [List.length_ofFn, hcs.length_eq]
  have key := tlm_exact s₂.tape R₂.wf vs hvnd s₂.heap R₂.flags hind x₀ dir (fun b hb _ => R₂.smooth hcs (hlen x₀) hsm b hb) v hon
  have R₄ : Refines { s₂ with held := vs.reverse ++ s₂.held, heap := rfEval s₂.tape.blocks vs (List.ofFn x₀) s₂.heap }
      (A.assign cs (List.ofFn x₀)) := R₃.functional_refines hf
  refine ⟨_, { s₂ with held := vs.reverse ++ s₂.held, heap := s₂.tape.evaluateTlm false (seedTlm vs (List.ofFn dir) (resetVariables s₂.tape.blocks .tlm (rfEval s₂.tape.blocks vs (List.ofFn x₀) s₂.heap))) }, ?_, ?_,
    fun hnd' => key.2 fun hreach => ?_, R₄.tangentHeap vs (List.ofFn dir)⟩
  · simp only [Session.tangent, hf, Option.bind_eq_bind, Option.bind_some]
    rw [if_neg (by simp)]
    rfl
  · have e : (fun a : ℝ => A.valueAt cs (List.ofFn (x₀ + a • dir)) J)
        = fun a : ℝ => saved (rfEval s₂.tape.blocks vs (List.ofFn (x₀ + a • dir)) s₂.heap) v := by
      funext a
      rw [R₂.replay hcs (hlen _) J v hJv]
    rw [e]
    exact key.1
  · obtain ⟨k, hk, hdep⟩ := R₂.dependsOn hcs hreach
    exact hnd' (R₂.inj hk hJv ▸ hdep)

/-- `program_tangent` applies to `exHessProg` (`J = (x - y)² / y`) at every point with `y ≠ 0`. -/
example (x₀ dir : Fin 2 → ℝ) (hy : x₀ 1 ≠ 0) : ∃ S y S₁ t S₂, run exHessProg {} = some S ∧ S.call 4 [0, 1] 1 (List.ofFn x₀) = some (y, S₁) ∧
    S₁.tangent 4 [0, 1] (List.ofFn dir) = some (t, S₂) ∧
    HasDerivAt (fun a : ℝ => exHessState.valueAt [0, 1] (List.ofFn (x₀ + a • dir)) 4) (t.getD 0) 0 := by
  have hrun : ∀ p A, State.run p {} = some A → ∃ S, run p {} = some S ∧ Refines S A := by
    intro p A h2
    obtain ⟨S, hS⟩ := Option.isSome_iff_exists.1 ((run_isSome_iff p).trans (by rw [h2]; rfl))
    have h := refines_init.run p
    rw [hS, h2] at h
    exact ⟨S, hS, h⟩
  obtain ⟨S, hS, R⟩ := hrun _ _ exHessProg_state
  have hc := R.call 4 [0, 1] 1 (List.ofFn x₀)
  rw [if_pos (by simp [State.AreAdj, exHessState])] at hc
  obtain ⟨S', v, h1, -⟩ := hc
  have hfree : exHessState.FreeControls [0, 1] := by
    intro c hc r hr
    simp only [List.mem_cons, List.not_mem_nil, or_false] at hc
    rcases hc with rfl | rfl <;> cases hr <;> rfl
  have hsm : exHessState.Smooth [0, 1] (List.ofFn x₀) := by
    refine exHessState_cases _ trivial trivial trivial trivial ?_
    show State.valueAt exHessState _ _ 1 ≠ 0
    simp only [State.valueAt, exHessState]
    simp [reeval, override, Def.eval]
    exact hy
  have hr : exHessState.regs[4]? = some ⟨(2 - 3) * (2 - 3) / 3, true, .bin .div 3 1, (2 - 3) * (2 - 3) / 3⟩ := rfl
  obtain ⟨t, S₂, h2, h3, -⟩ := program_tangent exHessProg S hS _ exHessProg_state 4 hr (by simp) [0, 1]
    (by decide) hfree 1 rfl x₀ dir hsm _ _ h1
  exact ⟨S, _, S', t, S₂, hS, h1, h2, h3⟩

end Pyadjoint.Session
