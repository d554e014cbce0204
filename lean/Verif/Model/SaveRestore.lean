import Verif.Model.Reduced
import Verif.Model.Crash
import Verif.Model.CrashEval

/-!
# Saving and restoring the state of the tape

Models `Tape.checkpoint_block_vars` and `Tape.restore_block_vars` (`tape.py:416-455`).
-/

namespace Pyadjoint

variable {V T A : Type*}

/-- An object stored in `tape._package_data`, reduced to the two methods used here
(`tape.py:937-944`). -/
structure PackageHooks (P C : Type*) where
  checkpoint : P → C
  restore : C → P → P

/-- The dictionary returned by `checkpoint_block_vars`: checkpoints by block variable, and the entry
`"package_data"`.  A variable listed twice has the same entry twice.  `tape.py:416-434`. -/
structure StateDict (V C : Type*) where
  vars : List (BV × Option V)
  package : List (String × C)

/-- `Tape.checkpoint_block_vars` (`tape.py:416-434`); `bs` are the blocks `get_blocks(tag)` gives. -/
def checkpointBlockVars {P C : Type*} (hooks : PackageHooks P C) (bs : Blocks V T A) (controls : List BV)
    (package : List (String × P)) (h : Heap V T A) : StateDict V C where
  vars := ((bs.flatMap Block.outs) ++ controls).map fun v => (v, (h v).ckpt)
  package := package.map fun p => (p.1, hooks.checkpoint p.2)

/-- The loop of `tape.py:446-452`: the private attribute is assigned, also on marked controls. -/
def restoreVars (l : List (BV × Option V)) (h : Heap V T A) : Heap V T A :=
  l.foldl (fun h p => Function.update h p.1 { h p.1 with ckpt := p.2 }) h

/-- The loop of `tape.py:454-455`; `none` is the `KeyError` for package data that was added since. -/
def restorePackages {P C : Type*} (hooks : PackageHooks P C) (saved : List (String × C)) :
    List (String × P) → Option (List (String × P))
  | [] => some []
  | (k, p) :: l =>
    match saved.lookup k, restorePackages hooks saved l with
    | some c, some l => some ((k, hooks.restore c p) :: l)
    | _, _ => none

/-- `Tape.restore_block_vars` (`tape.py:436-455`).  The dictionary is copied first and stays as it is. -/
def restoreBlockVars {P C : Type*} (hooks : PackageHooks P C) (sd : StateDict V C)
    (package : List (String × P)) (h : Heap V T A) : Option (List (String × P)) × Heap V T A :=
  (restorePackages hooks sd.package package, restoreVars sd.vars h)

/-- What may happen between saving and restoring.
(The user's program, not in the code; the operations are `reduced_functional.py:112-254` and `control.py`.) -/
inductive ReplayOp (V A : Type*)
  /-- `rf(xs)` with the controls `cs` -/
  | eval (cs : List BV) (xs : List V)
  /-- an evaluation that raises -/
  | crashedEval (cs : List BV) (xs : List V) (k j : Nat)
  /-- `compute_gradient` -/
  | gradient (J : BV) (cs : List BV) (seed : A)
  /-- a gradient computation that raises -/
  | crashedGradient (J : BV) (cs : List BV) (seed : A) (k j : Nat)
  /-- `Control.update` on one control -/
  | update (c : BV) (x : V)
  /-- `mark_as_control` or `unmark_as_control` -/
  | mark (cs : List BV) (flag : Bool)

/-- The controls an operation writes to.  (Not in the code: see `reduced_functional.py:230-231`.) -/
def ReplayOp.controls : ReplayOp V A → List BV
  | eval cs _ => cs
  | crashedEval cs _ _ _ => cs
  | update c _ => [c]
  | _ => []

/-- The effect of an operation on the block variables.  `reduced_functional.py:112-254`, `drivers.py`, `control.py`. -/
def ReplayOp.apply [Add A] (bs : Blocks V T A) (h : Heap V T A) : ReplayOp V A → Heap V T A
  | eval cs xs => rfEval bs cs xs h
  | crashedEval cs xs k j => Pyadjoint.crashedEval bs cs xs k j h
  | gradient J cs seed => computeGradientState bs J cs seed h
  | crashedGradient J cs seed k j => crashedGradientState bs J cs seed k j h
  | update c x => updateControls [c] [x] h
  | mark cs flag => markControls cs flag h

end Pyadjoint
