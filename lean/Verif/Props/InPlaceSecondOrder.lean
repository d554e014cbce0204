import Verif.Props.InPlace
import Verif.Props.SecondOrder

/-!
# C89: tangents and second derivatives of programs that change objects in place
-/

namespace Pyadjoint
namespace InPlace

variable {V A : Type*} [NormedAddCommGroup V] [NormedSpace ℝ V] [NormedAddCommGroup A] [NormedSpace ℝ A]

omit [NormedAddCommGroup V] [NormedSpace ℝ V] in
theorem rerun_eq_saved {T A : Type*} (p : List (Stmt V T A)) (hp : ∀ st ∈ p, st.tracked) (vals : Nat → V) (J : Nat) (sel : List Nat)
    (hs : ∀ i ∈ sel, i < ((World.start vals).run p).controls.length)
    (w : World V T A) (b : BV) (hw : ((World.start vals).run p).blockVar J = (w, b))
    (hnd : (w.pick sel).Nodup) (x : Fin (w.pick sel).length → V) :
    rerun (chosen sel (List.ofFn x)) p vals J = saved (rfEval w.blocks (w.pick sel) (List.ofFn x) w.heap) b := by
  have hw1 : w = (((World.start vals).run p).blockVar J).1 := by rw [hw]
  have hpick : w.pick sel = ((World.start vals).run p).pick sel := by rw [hw1, pick_blockVar]
  rw [← in_place_replay p hp vals J sel hs (hpick ▸ hnd) (List.ofFn x) (by simp [World.pick])]
  simp only [World.rfCall, hw]

/-- **C89, tangents.**  After `rf(x₀)`, reset the tangent values, assign `dir` to the controls and run
`tape.evaluate_tlm()`: the functional's block variable carries the directional derivative of the program run again. -/
theorem in_place_tangent (p : List (Stmt V V A)) (hp : ∀ st ∈ p, st.tracked) (vals : Nat → V) (J : Nat) (sel : List Nat)
    (hs : ∀ i ∈ sel, i < ((World.start vals).run p).controls.length)
    (w : World V V A) (b : BV) (hw : ((World.start vals).run p).blockVar J = (w, b)) (hb : OnTape w.blocks b)
    (hnd : (w.pick sel).Nodup) (hind : IndependentControls w.blocks (w.pick sel))
    (x₀ dir : Fin (w.pick sel).length → V)
    (hcorrect : ∀ B ∈ w.blocks, (∃ d ∈ B.deps, Reach w.blocks (· ∈ w.pick sel) d) →
      CorrectTangent B (fun j => saved (rfEval w.blocks (w.pick sel) (List.ofFn x₀) w.heap) B.deps[j])
        (fun j => Reach w.blocks (· ∈ w.pick sel) B.deps[j])) :
    HasDerivAt (fun s : ℝ => rerun (chosen sel (List.ofFn (x₀ + s • dir))) p vals J)
      ((evaluateTlm w.blocks false (seedTlm (w.pick sel) (List.ofFn dir)
        (resetVariables w.blocks .tlm (rfEval w.blocks (w.pick sel) (List.ofFn x₀) w.heap))) b).tlm.getD 0) 0 := by
  have hinv := run_inv p (start_inv (T := V) (A := A) vals)
  have hwf : WF w.blocks := by
    have hw1 : w = (((World.start vals).run p).blockVar J).1 := by rw [hw]
    rw [hw1]; exact (blockVar_inv hinv J).wf
  have heq : (fun s : ℝ => rerun (chosen sel (List.ofFn (x₀ + s • dir))) p vals J)
      = fun s => saved (rfEval w.blocks (w.pick sel) (List.ofFn (x₀ + s • dir)) w.heap) b :=
    funext fun s => rerun_eq_saved p hp vals J sel hs w b hw hnd (x₀ + s • dir)
  rw [heq]
  exact (tlm_exact_blocks hwf (w.pick sel) hnd w.heap (fun _ => rfl) hind x₀ dir hcorrect b hb).1

/-- **C89, Hessians.**  `rf(x₀)`, `rf.derivative()` and `rf.hessian(dir)` for a program that changes objects in place whose blocks are
implemented correctly: the derivative, in the direction `dir`, of the gradient of the program run again. -/
theorem in_place_hessian (p : List (Stmt V V A)) (hp : ∀ st ∈ p, st.tracked) (vals : Nat → V) (J : Nat) (sel : List Nat)
    (hs : ∀ i ∈ sel, i < ((World.start vals).run p).controls.length)
    (w : World V V A) (b : BV) (hw : ((World.start vals).run p).blockVar J = (w, b))
    (hnd : (w.pick sel).Nodup) (hind : IndependentControls w.blocks (w.pick sel))
    (seed : A) (x₀ dir : Fin (w.pick sel).length → V) (ι : A →L[ℝ] (V →L[ℝ] ℝ))
    (hadj : ∀ᶠ s in nhds (0 : ℝ), ∀ B ∈ w.blocks, (∃ d ∈ B.deps, Reach w.blocks (· ∈ w.pick sel) d) →
      CorrectAdjoint (ι : A →+ (V →L[ℝ] ℝ)) B
        (fun j => saved (rfEval w.blocks (w.pick sel) (List.ofFn (x₀ + s • dir)) w.heap) B.deps[j])
        (fun j => Reach w.blocks (· ∈ w.pick sel) B.deps[j]))
    (htan : ∀ B ∈ w.blocks, (∃ d ∈ B.deps, Reach w.blocks (· ∈ w.pick sel) d) →
      CorrectTangent B (fun j => saved (rfEval w.blocks (w.pick sel) (List.ofFn x₀) w.heap) B.deps[j])
        (fun j => Reach w.blocks (· ∈ w.pick sel) B.deps[j]))
    (hhess : ∀ B ∈ w.blocks, (∃ d ∈ B.deps, Reach w.blocks (· ∈ w.pick sel) d) →
      CorrectHessian B (fun j => saved (rfEval w.blocks (w.pick sel) (List.ofFn x₀) w.heap) B.deps[j])
        (fun j => Reach w.blocks (· ∈ w.pick sel) B.deps[j])) :
    ∃ hess : Fin (w.pick sel).length → A,
      (computeHessianOf w.blocks b (w.pick sel) (List.ofFn dir)
        (computeGradient w.blocks b (w.pick sel) seed (rfEval w.blocks (w.pick sel) (List.ofFn x₀) w.heap)).2).1 = List.ofFn hess ∧
      ∀ (i : Fin (w.pick sel).length) (u : V),
        HasDerivAt (fun s : ℝ => fderiv ℝ (fun x : Fin (w.pick sel).length → V => ι seed (rerun (chosen sel (List.ofFn x)) p vals J))
          (x₀ + s • dir) (Pi.single i u)) (ι (hess i) u) 0 := by
  have hinv := run_inv p (start_inv (T := V) (A := A) vals)
  have hwf : WF w.blocks := by
    have hw1 : w = (((World.start vals).run p).blockVar J).1 := by rw [hw]
    rw [hw1]; exact (blockVar_inv hinv J).wf
  have heq : (fun x : Fin (w.pick sel).length → V => ι seed (rerun (chosen sel (List.ofFn x)) p vals J))
      = fun x => ι seed (saved (rfEval w.blocks (w.pick sel) (List.ofFn x) w.heap) b) :=
    funext fun x => by rw [rerun_eq_saved p hp vals J sel hs w b hw hnd x]
  rw [heq]
  exact hessian_exact_blocks hwf b (w.pick sel) hnd w.heap (fun _ => rfl) (fun _ => rfl) hind seed x₀ dir ι hadj htan hhess
    (fun c _ => Or.inr (Or.inr ⟨rfl, rfl⟩))

/-! ## Example -/

theorem cubeOp_tangent (d o : BV) (x : Fin 1 → ℝ) (vary : Fin 1 → Prop) : CorrectTangent (cubeOp.toBlock [d] o) x vary :=
  ⟨fun _ _ => rfl, (cube_tangent d o x vary).deriv⟩

theorem cubeOp_hessian (d o : BV) (x : Fin 1 → ℝ) (vary : Fin 1 → Prop) (hv : vary 0) : CorrectHessian (cubeOp.toBlock [d] o) x vary :=
  ⟨(cube_hessian d o x vary hv).1, (cube_hessian d o x vary hv).2, (cube_hessian d o x vary hv).3⟩

/-- Both theorems on a program that cubes its control in place, twice: all hypotheses hold. -/
example : (∃ t : ℝ, HasDerivAt (fun s : ℝ => rerun (chosen [0] (List.ofFn ((fun _ => 3 : Fin 1 → ℝ) + s • (fun _ => 1 : Fin 1 → ℝ)))) cubeProgram (fun _ => 3) 0) t 0) ∧
    ∃ hess : Fin 1 → ℝ, ∀ (i : Fin 1) (u : ℝ), HasDerivAt (fun s : ℝ => fderiv ℝ (fun x : Fin 1 → ℝ =>
      cubeAdj 1 (rerun (chosen [0] (List.ofFn x)) cubeProgram (fun _ => 3) 0)) ((fun _ => 3 : Fin 1 → ℝ) + s • (fun _ => 1 : Fin 1 → ℝ)) (Pi.single i u)) (cubeAdj (hess i) u) 0 := by
  have hblocks : ((World.start fun _ => (3 : ℝ)).run cubeProgram).blocks
      = [cubeOp.toBlock [0] 1, cubeOp.toBlock [1] 2] := rfl
  have hpick : ((World.start fun _ => (3 : ℝ)).run cubeProgram).pick [0] = [0] := rfl
  have htr : ∀ st ∈ cubeProgram, st.tracked := by
    intro st h
    simp only [cubeProgram, List.mem_cons, List.not_mem_nil, or_false] at h
    rcases h with rfl | rfl | rfl <;> exact trivial
  have hsel : ∀ i ∈ [0], i < ((World.start fun _ => (3 : ℝ)).run cubeProgram).controls.length := by
    intro i hi; simp at hi; subst hi; exact Nat.one_pos
  have hind : IndependentControls ((World.start fun _ => (3 : ℝ)).run cubeProgram).blocks [0] := by
    intro c hc B hB hcB
    rw [hblocks] at hB
    simp only [List.mem_cons, List.not_mem_nil, or_false] at hB hc
    subst hc
    rcases hB with rfl | rfl <;> simp [Op.toBlock] at hcB
  constructor
  · refine ⟨_, in_place_tangent cubeProgram htr (fun _ => 3) 0 [0] hsel _ _ rfl
      ⟨cubeOp.toBlock [1] 2, List.mem_cons_of_mem _ (List.mem_cons_self ..), Or.inr (List.mem_singleton_self 2)⟩ (List.nodup_singleton _) hind
      (fun _ => 3) (fun _ => 1) ?_⟩
    intro B hB _
    change B ∈ [cubeOp.toBlock [0] 1, cubeOp.toBlock [1] 2] at hB
    simp only [List.mem_cons, List.not_mem_nil, or_false] at hB
    rcases hB with rfl | rfl <;> exact cubeOp_tangent _ _ _ _
  · obtain ⟨hess, -, h⟩ := in_place_hessian cubeProgram htr (fun _ => 3) 0 [0] hsel _ _ rfl (List.nodup_singleton _) hind
      1 (fun _ => 3) (fun _ => 1) cubeAdj
      (Filter.Eventually.of_forall fun s B hB _ => by
        change B ∈ [cubeOp.toBlock [0] 1, cubeOp.toBlock [1] 2] at hB
        simp only [List.mem_cons, List.not_mem_nil, or_false] at hB
        rcases hB with rfl | rfl <;> exact cubeOp_adjoint _ _ _ _)
      (fun B hB _ => by
        change B ∈ [cubeOp.toBlock [0] 1, cubeOp.toBlock [1] 2] at hB
        simp only [List.mem_cons, List.not_mem_nil, or_false] at hB
        rcases hB with rfl | rfl <;> exact cubeOp_tangent _ _ _ _)
      (fun B hB hd => by
        change B ∈ [cubeOp.toBlock [0] 1, cubeOp.toBlock [1] 2] at hB
        simp only [List.mem_cons, List.not_mem_nil, or_false] at hB
        obtain ⟨d, hd, hr⟩ := hd
        rcases hB with rfl | rfl
        · have : d = 0 := List.mem_singleton.1 hd
          subst this
          exact cubeOp_hessian _ _ _ _ hr
        · have : d = 1 := List.mem_singleton.1 hd
          subst this
          exact cubeOp_hessian _ _ _ _ hr)
    exact ⟨hess, h⟩

end InPlace
end Pyadjoint
