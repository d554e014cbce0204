import Verif.Model.Float

/-!
# `compute_hessian` for arbitrary blocks

The second-order driver for blocks that use the default `evaluate_tlm` and `evaluate_hessian` of `block.py` (blocks defined by users; the `AdjFloat`
blocks, which override them, are in `Verif.Model.Float`).
-/

namespace Pyadjoint

variable {V T A : Type*}

/-- `compute_hessian` (`drivers.py:36-75`) on a tape of blocks with the default sweeps (`block.py:186-225`, `266-299`).  The adjoint values are those
of the last derivative. -/
def computeHessianOf [Add T] [Add A] [Zero A] (bs : Blocks V T A) (J : BV) (cs : List BV) (ds : List T) (h : Heap V T A) : List A × Heap V T A :=
  let h := resetVariables bs .tlm h
  let h := resetVariables bs .hessian h
  let h := seedTlm cs ds h
  let nodes := findRelevantNodes bs cs
  let h := markAll nodes false (evaluateTlm bs true (markAll nodes true h))
  let h := Function.update h J { h J with hess := some 0 }
  let h := markAll nodes false (evaluateHessian bs true (markAll nodes true h))
  (cs.map (getHessian h), h)

end Pyadjoint
