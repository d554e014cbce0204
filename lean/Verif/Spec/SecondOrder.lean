import Verif.Spec.Calculus
import Mathlib.Analysis.Calculus.Deriv.Basic

/-! What a correctly implemented tangent and second-order adjoint of a block is. -/

namespace Pyadjoint

variable {V A : Type*} [NormedAddCommGroup V] [NormedSpace ℝ V] [NormedAddCommGroup A] [NormedSpace ℝ A]

/-- `b` has the right tangent component at the input values `x` when only the dependencies in `vary` move: `Σⱼ G i j tⱼ`, where `G i j` is the partial
derivative of output `i` with respect to dependency `j`; a missing tangent stands for zero. -/
structure CorrectTangent (b : Block V V A) (x : Fin b.deps.length → V) (vary : Fin b.deps.length → Prop) : Prop where
  total : ∀ (u : Fin b.deps.length → V) (i : Fin b.outs.length), (b.recomputeC (List.ofFn u) i).isSome
  deriv : ∃ G : Fin b.outs.length → Fin b.deps.length → V →L[ℝ] V,
    (∀ i : Fin b.outs.length, HasFDerivWithinAt (fun u => (b.recomputeC (List.ofFn u) i).getD 0)
      (∑ j, (G i j).comp (ContinuousLinearMap.proj j)) {u | ∀ j, ¬ vary j → u j = x j} x) ∧
    ∀ t : Fin b.deps.length → Option V, (∃ j, t j ≠ none) → (∀ j, ¬ vary j → t j = none) → ∀ i : Fin b.outs.length,
      (b.tlmC (List.ofFn x) (List.ofFn t) i).getD 0 = ∑ j, G i j ((t j).getD 0)

open Classical in
/-- The dependencies that vary, with their tangents: what `relevant_dependencies` gives the Hessian component. -/
noncomputable def varying {n : ℕ} (vary : Fin n → Prop) (t : Fin n → Option V) : List (Nat × Option V) :=
  ((List.finRange n).filter fun j => vary j).map fun j => (j.val, t j)

/-- `b` has the right Hessian component at the input values `x`: whenever the inputs move along a curve `u` with velocity `t`, and the adjoint values of
the outputs along `lam` with velocity `mu`, the Hessian component for a dependency that varies is the velocity of the adjoint component.  Both return a
value (not `None`). -/
structure CorrectHessian (b : Block V V A) (x : Fin b.deps.length → V) (vary : Fin b.deps.length → Prop) : Prop where
  adjoint : ∀ (y : Fin b.deps.length → V) (lam : Fin b.outs.length → Option A), (∃ i, lam i ≠ none) → ∀ j, vary j →
    (b.adjC (List.ofFn y) (List.ofFn lam) j).isSome
  hessian : ∀ (lam mu : Fin b.outs.length → Option A) (t : Fin b.deps.length → Option V), (∃ i, mu i ≠ none) → ∀ j, vary j →
    (b.hessC (List.ofFn x) (List.ofFn mu) (List.ofFn lam) j (varying vary t)).isSome
  deriv : ∀ (u : ℝ → Fin b.deps.length → V) (t : Fin b.deps.length → Option V) (lam : ℝ → Fin b.outs.length → Option A)
    (mu : Fin b.outs.length → Option A),
    u 0 = x → (∀ j, HasDerivAt (fun s => u s j) ((t j).getD 0) 0) → (∀ j, ¬ vary j → t j = none ∧ ∀ s, u s j = x j) →
    (∀ i s, (lam s i).isSome = (mu i).isSome) → (∀ i, HasDerivAt (fun s => (lam s i).getD 0) ((mu i).getD 0) 0) → (∃ i, mu i ≠ none) →
    ∀ j, vary j → HasDerivAt (fun s => (b.adjC (List.ofFn (u s)) (List.ofFn (lam s)) j).getD 0)
      ((b.hessC (List.ofFn x) (List.ofFn mu) (List.ofFn (lam 0)) j (varying vary t)).getD 0) 0

end Pyadjoint
