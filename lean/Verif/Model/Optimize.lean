import Verif.Model.Core

/-!
# Tape optimisation

`Tape.optimize_for_controls`, `Tape.optimize_for_functionals`, `Tape.optimize`
(`pyadjoint/tape.py:457-520`) on a tape split into timesteps.  The sets `checkpointable_state` of the
steps are handled in `Verif.Model.Timesteps`.  Python sets are lists used for membership only.
A raised `RuntimeError` is `none`.
-/

namespace Pyadjoint

variable {V T A : Type*}

/-- `for output in block.get_outputs(): if output in nodes: raise ...; nodes.add(output)`
(`tape.py:482-485`). -/
def addOutputs : List BV → List BV → Option (List BV)
  | nodes, [] => some nodes
  | nodes, o :: os => if o ∈ nodes then none else addOutputs (nodes ++ [o]) os

/-- The body of the inner loop of `optimize_for_controls` (`tape.py:474-488`); the state is
`nodes` and the blocks kept so far in this timestep. -/
def optControlsBlock (st : List BV × Blocks V T A) (b : Block V T A) :
    Option (List BV × Blocks V T A) :=
  if b.deps.any (· ∈ st.1) then (addOutputs st.1 b.outs).map fun nodes => (nodes, st.2 ++ [b])
  else some st

/-- One timestep of `optimize_for_controls` (`tape.py:471-490`). -/
def optControlsStep (nodes : List BV) (step : Blocks V T A) : Option (List BV × Blocks V T A) :=
  step.foldlM optControlsBlock (nodes, [])

/-- The body of the outer loop (`tape.py:471-490`). -/
def optControlsOuter (st : List BV × List (Blocks V T A)) (step : Blocks V T A) :
    Option (List BV × List (Blocks V T A)) :=
  (optControlsStep st.1 step).map fun r => (r.1, st.2 ++ [r.2])

/-- `Tape.optimize_for_controls` (`tape.py:464-492`): `none` if the `RuntimeError` of line 484 is raised. -/
def optimizeForControls (steps : List (Blocks V T A)) (cs : List BV) :
    Option (List (Blocks V T A)) :=
  (steps.foldlM optControlsOuter (cs, [])).map (·.2)

/-- The body of the inner loop of `optimize_for_functionals` (`tape.py:502-511`); the state is
`retained_nodes` and `current_blocks`. -/
def optFunctionalsBlock (st : List BV × Blocks V T A) (b : Block V T A) : List BV × Blocks V T A :=
  if b.outs.any (· ∈ st.1) then (st.1 ++ b.deps, st.2 ++ [b]) else st

/-- The body of the outer loop (`tape.py:500-512`). -/
def optFunctionalsOuter (st : List BV × List (Blocks V T A)) (step : Blocks V T A) :
    List BV × List (Blocks V T A) :=
  let r := step.reverse.foldl optFunctionalsBlock (st.1, [])
  (r.1, st.2 ++ [r.2.reverse])

/-- `Tape.optimize_for_functionals` (`tape.py:494-520`). -/
def optimizeForFunctionals (steps : List (Blocks V T A)) (fs : List BV) : List (Blocks V T A) :=
  (steps.reverse.foldl optFunctionalsOuter (fs, [])).2.reverse

/-- `ReducedFunctional.optimize_tape` (`reduced_functional.py:256-260`) by `Tape.optimize`
(`tape.py:457-462`) with both arguments given. -/
def optimizeTape (steps : List (Blocks V T A)) (cs : List BV) (J : BV) : Option (List (Blocks V T A)) :=
  (optimizeForControls steps cs).map fun steps => optimizeForFunctionals steps [J]

end Pyadjoint
