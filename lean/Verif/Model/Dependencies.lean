import Verif.Model.Core

/-!
# Adding dependencies

Models `Block.add_dependency` with `no_duplicates` (`block.py:43-57`).
-/

namespace Pyadjoint

variable {V T A : Type*}

/-- The dependencies of a block under construction, and the variables.  `block.py:15-25`. -/
structure BuildState (V T A : Type*) where
  deps : List BV
  heap : Heap V T A

/-- `Block.add_dependency` (`block.py:43-57`).  Of `will_add_as_dependency` (`block_variable.py:64-71`) this has the saving of
the value (not overwriting, `overloaded_type.py:273-277`); the timestep bookkeeping is in `Verif.Model.Timesteps`. -/
def addDep (s : BuildState V T A) (x : BV) (noDuplicates : Bool) : BuildState V T A :=
  if !noDuplicates || !(s.deps.contains x) then
    { deps := s.deps ++ [x], heap := saveOutput s.heap x false }
  else s

/-- A sequence of calls of `add_dependency`, as in the constructor of a block: object and `no_duplicates`.  `block.py:43-57`. -/
def addDeps (s : BuildState V T A) (calls : List (BV × Bool)) : BuildState V T A :=
  calls.foldl (fun s c => addDep s c.1 c.2) s

end Pyadjoint
