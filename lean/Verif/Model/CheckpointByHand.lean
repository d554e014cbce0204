import Verif.Model.Checkpoint

/-!
# Model: adjoint sweeps driven by hand on a tape with a checkpoint manager

The recipe of `docs/source/documentation/pyadjoint_docs.rst:408-414` (see `Verif.Model.ByHand`) on a tape with
`enable_checkpointing`.

Simplified: as everywhere in the model of checkpointing, recomputing a block records nothing.  In the code
`Tape.evaluate_adj` does not stop the annotation around the recomputations of the reverse schedule
(`checkpointing.py:326-329`, `block.py:330`), so that this holds for blocks whose `recompute_component` works on plain
values, as those of `adjfloat.py:203-345` do.
-/

namespace Pyadjoint
namespace CTape

variable {V T A : Type*}

/-- `v.block_variable.adj_value = a` (`block_variable.py:10`). -/
def setAdj (v : BV) (a : Option A) (τ : CTape V T A) : CTape V T A :=
  τ.onHeap fun h => Function.update h v { h v with adj := a }

/-- `tape.reset_variables()` (`tape.py:391-393`), the types being the default ones: adjoint values. -/
def resetAdj (τ : CTape V T A) : CTape V T A := τ.onHeap (resetVariables τ.blocks .adjoint)

/-- The exceptions of `tape.evaluate_adj` (`checkpointing.py:270-281`). -/
inductive HandError
  /-- "Only the first block can be evaluated at present." (`checkpointing.py:271-274`) -/
  | notImplemented
  /-- The others. -/
  | checkpoint (e : CkptError)
  deriving DecidableEq

/-- `Tape.evaluate_adj(last_block)` with a manager and without markings (`tape.py:362-372`,
`checkpointing.py:261-295`). -/
def sweepByHand [Add A] (last : Int) (τ : CTape V T A) : Except HandError (CTape V T A) :=
  if last ≠ 0 then .error .notImplemented
  else match τ.evaluateAdjTape false with
    | .error e => .error (.checkpoint e)
    | .ok τ => .ok τ

end CTape
end Pyadjoint
