import Verif.Model.SaveRestore

/-!
# The ROL objective

Models `ROLObjective` (`pyadjoint/optimization/rol_solver.py:9-63`).  The package data saved along with the tape (`Verif.Model.SaveRestore`) is left
out here.
-/

namespace Pyadjoint
namespace Rol

variable {V T A : Type*}

/-- `ROL.UpdateType`; `other` is any flag that is not an `UpdateType` (older versions of ROL, lines 62-63).
`rol_solver.py:33-42, 58, 62-63`. -/
inductive Flag | initial | accept | revert | trial | temp | other
  deriving DecidableEq

/-- The state dictionary, see `checkpointBlockVars`.  `rol_solver.py:41, 46`. -/
abbrev Snapshot (V : Type*) := List (BV × Option V)

/-- The attributes of `ROLObjective` (`rol_solver.py:10-17`); `none` for the last two is a missing attribute.  `_flag` is never read. -/
structure Obj (V : Type*) where
  val : Option V := none
  cache : Option V := none
  tapeTrial : Option (Snapshot V) := none
  tapeCache : Option (Snapshot V) := none

/-- `self.rf.tape.checkpoint_block_vars(self.rf.controls)`.  `rol_solver.py:41`. -/
def snapshot (bs : Blocks V T A) (cs : List BV) (h : Heap V T A) : Snapshot V :=
  ((bs.flatMap Block.outs) ++ cs).map fun v => (v, (h v).ckpt)

/-- Lines 39-41: evaluate and save.  `none` is an exception of `rf(x.dat)`.  `rol_solver.py:39-41`. -/
def evalSave [Mul V] (bs : Blocks V T A) (J : BV) (cs : List BV) (scale : V) (x : List V) (o : Obj V) (h : Heap V T A) :
    Option (Obj V × Heap V T A) :=
  match rfCall bs J cs scale x h with
  | none => none
  | some (y, h) => some ({ o with val := some y, tapeTrial := some (snapshot bs cs h) }, h)

/-- Lines 42-53.  `none`: an exception of `rf(x.dat)`, or `_tape_trial` does not exist.  `rol_solver.py:42-53`. -/
def revert [Mul V] (bs : Blocks V T A) (J : BV) (cs : List BV) (scale : V) (x : List V) (o : Obj V) (h : Heap V T A) :
    Option (Obj V × Heap V T A) :=
  match o.tapeCache with
  | some sd => some ({ o with val := o.cache }, restoreVars sd h)
  | none =>
    match rfCall bs J cs scale x h, o.tapeTrial with
    | some (y, h), some sd => some ({ o with val := some y, cache := some y, tapeCache := some sd }, h)
    | _, _ => none

/-- Lines 57-60.  `none`: `_tape_trial` does not exist.  `rol_solver.py:57-60`. -/
def store (o : Obj V) (h : Heap V T A) : Option (Obj V × Heap V T A) :=
  match o.tapeTrial with
  | none => none
  | some sd => some ({ o with cache := o.val, tapeCache := some sd }, h)

/-- `ROLObjective.update` (`rol_solver.py:32-63`). -/
def update [Mul V] (bs : Blocks V T A) (J : BV) (cs : List BV) (scale : V) (flag : Flag) (x : List V) (o : Obj V) (h : Heap V T A) :
    Option (Obj V × Heap V T A) :=
  match flag with
  | .initial =>
    match evalSave bs J cs scale x o h with
    | none => none
    | some (o, h) => store o h
  | .trial => evalSave bs J cs scale x o h
  | .temp => evalSave bs J cs scale x o h
  | .accept => store o h
  | .revert => revert bs J cs scale x o h
  | .other =>
    match rfCall bs J cs scale x h with
    | none => none
    | some (y, h) => some ({ o with val := some y }, h)

/-- What ROL may call: `update`, and `gradient` or `hessVec`, which are some function of the block variables (`derivative`, `hessian`).
`rol_solver.py:19-63`. -/
inductive Op (V T A : Type*)
  | update (flag : Flag) (x : List V)
  | sweep (f : Heap V T A → Heap V T A)

/-- A sequence of calls.  (The solver's program, not in the code.) -/
def run [Mul V] (bs : Blocks V T A) (J : BV) (cs : List BV) (scale : V) : List (Op V T A) → Obj V → Heap V T A → Option (Obj V × Heap V T A)
  | [], o, h => some (o, h)
  | .update flag x :: l, o, h =>
    match update bs J cs scale flag x o h with
    | none => none
    | some (o, h) => run bs J cs scale l o h
  | .sweep f :: l, o, h => run bs J cs scale l o (f h)

end Rol
end Pyadjoint
