import Verif.Model.Core

/-! The reduced functional for immutable values (`pyadjoint/reduced_functional.py`). -/

namespace Pyadjoint

variable {V T A : Type*}

/-- `Control.update` for each control (`reduced_functional.py:230-231`, `control.py:60-67`): assigns
through the `checkpoint` setter. -/
def updateControls (cs : List BV) (xs : List V) (h : Heap V T A) : Heap V T A :=
  (cs.zip xs).foldl (fun h p => setCkpt h p.1 (some p.2)) h

/-- The state part of `ReducedFunctional.__call__` (`reduced_functional.py:230-244`) without
checkpoint manager: assign the controls, mark them, replay, unmark. -/
def rfEval (bs : Blocks V T A) (cs : List BV) (xs : List V) (h : Heap V T A) : Heap V T A :=
  let h := updateControls cs xs h
  let h := markControls cs true h
  let h := recompute bs h
  markControls cs false h

/-- `ReducedFunctional.__call__` (`reduced_functional.py:193-254`): the length check of line 210,
the evaluation, and the scaled value.  Type checks and callbacks are not modelled here. -/
def rfCall [Mul V] (bs : Blocks V T A) (J : BV) (cs : List BV) (scale : V) (xs : List V)
    (h : Heap V T A) : Option (V × Heap V T A) :=
  if xs.length ≠ cs.length then none else
  let h := rfEval bs cs xs h
  some (saved h J * scale, h)

/-- `ReducedFunctional.derivative` (`reduced_functional.py:112-160`) without callbacks and
`derivative_components`: the adjoint input is scaled and passed to `compute_gradient`. -/
def rfDerivative [Add A] [Zero A] [Mul A] (bs : Blocks V T A) (J : BV) (cs : List BV)
    (scale adjInput : A) (h : Heap V T A) : List A × Heap V T A :=
  computeGradient bs J cs (adjInput * scale) h

end Pyadjoint
