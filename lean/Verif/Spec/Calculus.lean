import Verif.Model.Core
import Mathlib.Analysis.Calculus.FDeriv.Basic
import Mathlib.Analysis.Calculus.FDeriv.Pi

/-! What a correctly implemented differentiable block is, in terms of Fréchet derivatives. -/

namespace Pyadjoint

variable {V T A : Type*} [NormedAddCommGroup V] [NormedSpace ℝ V] [AddCommMonoid A]

/-- The linear functional an adjoint value stands for; a missing value stands for zero. -/
noncomputable def optFunctional (ι : A →+ (V →L[ℝ] ℝ)) (o : Option A) : V →L[ℝ] ℝ :=
  match o with
  | none => 0
  | some a => ι a

/-- `b` is correctly implemented at the input values `x` when only the dependencies in `vary` move:
its recompute components are defined and differentiable there, with partial derivatives
`G i j` of output `i` with respect to dependency `j`, and its adjoint components are the transposes
`Σᵢ λᵢ ∘ G i j` for every varying dependency.  `ι` says which linear functional an adjoint value
stands for. -/
structure CorrectAdjoint (ι : A →+ (V →L[ℝ] ℝ)) (b : Block V T A) (x : Fin b.deps.length → V)
    (vary : Fin b.deps.length → Prop) : Prop where
  total : ∀ (u : Fin b.deps.length → V) (i : Fin b.outs.length),
    (b.recomputeC (List.ofFn u) i).isSome
  deriv : ∃ G : Fin b.outs.length → Fin b.deps.length → V →L[ℝ] V,
    (∀ i : Fin b.outs.length, HasFDerivWithinAt (fun u => (b.recomputeC (List.ofFn u) i).getD 0)
      (∑ j, (G i j).comp (ContinuousLinearMap.proj j)) {u | ∀ j, ¬ vary j → u j = x j} x) ∧
    ∀ lam : Fin b.outs.length → Option A, (∃ i, lam i ≠ none) → ∀ j, vary j →
      optFunctional ι (b.adjC (List.ofFn x) (List.ofFn lam) j)
        = ∑ i, (optFunctional ι (lam i)).comp (G i j)

end Pyadjoint
