import Verif.Model.Reduced

/-! An evaluation of a reduced functional that dies with an exception. -/

namespace Pyadjoint

variable {V T A : Type*}

/-- `Block.recompute` (`block.py:330-363`) interrupted by an exception in the `j`-th component: the
first `j` relevant outputs have been assigned. -/
def Block.recomputePartial (b : Block V T A) (markings : Bool) (j : Nat) (h : Heap V T A) :
    Heap V T A :=
  if b.outs.any fun o => (h o).isControl then h else
  let inputs := b.deps.map (saved h)
  let rel := relevant h markings b.outs
  (rel.take j).foldl (fun h p => setCkpt? h p.1 (b.recomputeC inputs p.2)) h

/-- `ReducedFunctional.__call__` (`reduced_functional.py:230-244`) when a block raises: `k` blocks have been
recomputed, and `j` outputs of the next one.  `marked_controls.__exit__` runs
(`reduced_functional.py:274-276`). -/
def crashedEval (bs : Blocks V T A) (cs : List BV) (xs : List V) (k j : Nat) (h : Heap V T A) :
    Heap V T A :=
  let h := updateControls cs xs h
  let h := markControls cs true h
  let h := recompute (bs.take k) h
  let h := match bs[k]? with
    | none => h
    | some b => b.recomputePartial false j h
  markControls cs false h

end Pyadjoint
