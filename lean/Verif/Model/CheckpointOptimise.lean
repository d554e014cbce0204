import Verif.Model.Checkpoint
import Verif.Model.Timesteps

/-!
# Optimising a tape with a checkpoint manager (`tape.py:457-520`)

The new `TimeStep` objects have no stored checkpoints and empty `adjoint_dependencies`, and their adjoint dependencies count
as not revised (`tape.py:788-802`); the manager is not told.
-/

namespace Pyadjoint
namespace CTape

variable {V T A : Type*}

/-- `Tape.optimize_for_controls` (`tape.py:464-492`), `none` if it raises; `discarded_variables` stays empty (`tape.py:488`), so that
the states are copied. -/
def optimizeForControls (cs : List BV) (τ : CTape V T A) : Option (CTape V T A) :=
  (Pyadjoint.optimizeForControls (τ.steps.map (·.blocks)) cs).map fun bs =>
    { τ with steps := List.zipWith (fun s b => { blocks := b, state := s.state }) τ.steps bs }

/-- `Tape.optimize_for_functionals` (`tape.py:494-520`). -/
def optimizeForFunctionals (fs : List BV) (τ : CTape V T A) : CTape V T A :=
  let bs := τ.steps.map (·.blocks)
  let keep : BV → Bool := fun v => decide (v ∈ World.retainedNodes bs fs)
  let new := List.zipWith (fun s b => { blocks := b, state := ⟨s.state.elems.filter keep⟩ }) τ.steps (Pyadjoint.optimizeForFunctionals bs fs)
  { τ with steps := new }

/-- `ReducedFunctional.optimize_tape` (`reduced_functional.py:256-260`). -/
def optimizeTape (J : BV) (cs : List BV) (τ : CTape V T A) : Option (CTape V T A) :=
  (τ.optimizeForControls cs).map (·.optimizeForFunctionals [J])

end CTape
end Pyadjoint
