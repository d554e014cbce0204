import Verif.Model.Checkpoint
import Verif.Model.Reduced

/-!
# Reduced functionals on a copy of a checkpointed tape

`Tape.copy` (`tape.py:403-414`) passes the blocks and the package data to a new tape.  The new tape has no checkpoint manager (`tape.py:204`), its time steps
have no stored data (`tape.py:804-807`), and its blocks are the objects of the original, so that both tapes work on the same block variables.  Package data are
not modelled here.
-/

namespace Pyadjoint
namespace CTape

variable {V T A : Type*}

/-- `ReducedFunctional(J, controls, tape=tape.copy())(xs)` (`reduced_functional.py:193-254`): without a manager all blocks are recomputed
(`reduced_functional.py:233-247`), on the block variables shared with the original `τ`. -/
def copyCall [Mul V] (J : BV) (cs : List BV) (scale : V) (xs : List V) (τ : CTape V T A) : V × CTape V T A :=
  let τ := τ.onHeap (rfEval τ.blocks cs xs)
  (saved τ.heap J * scale, τ)

/-- `.derivative()` of a reduced functional on the copy (`reduced_functional.py:112-160`, `drivers.py:5-33`): without a manager the adjoint sweep is over all
blocks (`tape.py:374-377`), on the block variables shared with the original `τ`. -/
def copyDerivative [Add A] [Zero A] (J : BV) (cs : List BV) (adjInput : A) (τ : CTape V T A) : List A × CTape V T A :=
  let r := computeGradient τ.blocks J cs adjInput τ.heap
  (r.1, { τ with heap := r.2 })

end CTape
end Pyadjoint
