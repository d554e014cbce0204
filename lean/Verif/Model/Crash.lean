import Verif.Model.Core

/-! A gradient computation that dies with an exception. -/

namespace Pyadjoint

variable {V T A : Type*}

/-- `Block.evaluate_adj` (`block.py:106-145`) interrupted by an exception in the `j`-th component:
the first `j` relevant dependencies have been updated. -/
def Block.evaluateAdjPartial [Add A] (b : Block V T A) (markings : Bool) (j : Nat)
    (h : Heap V T A) : Heap V T A :=
  let adjInputs := b.outs.map fun o => (h o).adj
  if adjInputs.all Option.isNone then h else
  let inputs := b.deps.map (saved h)
  let rel := relevant h markings b.deps
  (rel.take j).foldl (fun h p => addAdj? h p.1 (b.adjC inputs adjInputs p.2)) h

/-- `compute_gradient` (`drivers.py:21-30`) when an exception is raised after `k` blocks, in component
`j` of the next one.  `marked_controls.__exit__` runs (`drivers.py:118-120`), but the generator
`marked_nodes` has no `finally` (`tape.py:522-529`): the path markings stay. -/
def crashedGradientState [Add A] (bs : Blocks V T A) (J : BV) (controls : List BV) (adjValue : A)
    (k j : Nat) (h : Heap V T A) : Heap V T A :=
  let h := resetVariables bs .adjoint h
  let h := Function.update h J { h J with adj := some adjValue }
  let nodes := findRelevantNodes bs controls
  let h := markControls controls true (markAll nodes true h)
  let h := (bs.reverse.take k).foldl (fun h b => b.evaluateAdj true h) h
  let h := match bs.reverse[k]? with
    | none => h
    | some b => b.evaluateAdjPartial true j h
  markControls controls false h

end Pyadjoint
