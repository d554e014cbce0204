import Verif.Model.Checkpoint

/-!
# Checkpointing on disk: what a package is told

A package that stores checkpoints on disk keeps an object with the methods of `TapePackageData` (`pyadjoint/tape.py:910-962`) on the tape.  The
manager tells it when to write to disk (`continue_checkpointing`), when to keep values in memory (`pause_checkpointing`), and that a new evaluation begins
(`reset`).  Here are the calls of these methods, and what else happens between them, in order; the states of the tape are those of
`Verif.Model.Checkpoint`.  If there are several packages all of them get the same calls.  What an exception leaves behind is here the part of the
sequence before it.
-/

namespace Pyadjoint
namespace CTape

variable {V T A : Type*}

/-- What happens, as far as a package sees it. -/
inductive Hook
  /-- `continue_checkpointing()`: from now on checkpoints are written to disk -/
  | resume
  /-- `pause_checkpointing()`: from now on they are kept in memory -/
  | pause
  /-- `reset()` -/
  | reset
  /-- the user's program: an operation is recorded, a control gets a value -/
  | user
  /-- the blocks of step `k` are recomputed -/
  | blocks (k : Nat)
  /-- `timesteps[k].checkpoint` stores values, for an action with this storage -/
  | store (k : Nat) (storage : Storage)
  /-- `timesteps[k].restore_from_checkpoint(source)` -/
  | restore (k : Nat) (source : Storage)
  /-- the adjoint of step `k` -/
  | adjoint (k : Nat)
  deriving DecidableEq

/-- `continue_checkpointing`, if the action stores on disk, and `checkpoint`, if there is anything to store.
`checkpointing.py:177-182, 203-204, 337-344`. -/
def storeHooks (k : Nat) (storeState storeAdj : Bool) (st : Storage) : List Hook :=
  if storeState || storeAdj then (if st = .disk then [.resume] else []) ++ [.store k st] else []

/-- `pause_checkpointing`, if the action stores on disk.  `checkpointing.py:213-216, 395-398`. -/
def pauseHooks (st : Storage) : List Hook := if st = .disk then [.pause] else []

/-- `process_taping` for a `Forward` action (`checkpointing.py:158-228`); without a step that ended there is an `IndexError` after `continue_checkpointing`. -/
def tapingHooks (n0 : Nat) (wi wa : Bool) (st : Storage) (t : Nat) (τ : CTape V T A) : List Hook :=
  if t < n0 then [] else
  if n0 < t ∧ st ≠ .work then
    match τ.steps[t - 1]? with
    | none => if ((wi && decide (t = n0 + 1)) || wa) && decide (st = .disk) then [.resume] else []
    | some _ => storeHooks (t - 1) (wi && decide (t = n0 + 1)) wa st ++ pauseHooks st
  else pauseHooks st

/-- `process_taping` (`checkpointing.py:127-237`). -/
def processTapingHooks (a : Action) (t : Nat) (τ : CTape V T A) : List Hook :=
  match a with
  | .forward n0 _ wi wa st => tapingHooks n0 wi wa st t τ
  | _ => []

/-- The loop of `end_timestep` (`checkpointing.py:111-113`). -/
def endTimestepLoopHooks (t : Nat) : List Action → CTape V T A → List Hook
  | acts, τ =>
    processTapingHooks τ.mgr.current t τ ++
    match processTaping τ.mgr.current t τ with
    | .error _ => []
    | .ok (true, _) => []
    | .ok (false, τ) =>
      match acts with
      | [] => []
      | a :: acts => endTimestepLoopHooks t acts { τ with mgr := { τ.mgr with current := a, fwd := τ.mgr.fwd ++ [a] } }

/-- `CheckpointManager.end_timestep` (`checkpointing.py:101-113`). -/
def mgrEndTimestepHooks (t : Nat) (τ : CTape V T A) : List Hook :=
  if τ.mgr.mode = .evaluated then [] else if τ.mgr.mode ≠ .record then [] else endTimestepLoopHooks t τ.mgr.acts τ

/-- The loop of `end_taping` (`checkpointing.py:123-125`). -/
def endTapingLoopHooks : Nat → Nat → CTape V T A → List Hook
  | fuel, t, τ =>
    if τ.mgr.mode = .evaluated then [] else
    match fuel with
    | 0 => []
    | fuel + 1 =>
      mgrEndTimestepHooks t τ ++
      match mgrEndTimestep t τ with
      | .error _ => []
      | .ok τ => endTapingLoopHooks fuel (t + 1) τ

/-- `end_taping` (`checkpointing.py:115-125`). -/
def endTapingHooks (τ : CTape V T A) : List Hook :=
  endTapingLoopHooks (τ.finalize.mgr.total.getD 0 + 1) (τ.latest + 1) τ.finalize

/-- `if self.mode == Mode.RECORD: self.end_taping()` (`checkpointing.py:245-247, 276-278`). -/
def finishTapingHooks (τ : CTape V T A) : List Hook := if τ.mgr.mode = .record then τ.endTapingHooks else []

/-- A loop, up to an exception.  (Python's `for`; not in the code.) -/
def loopHooks {S α : Type*} (f : S → α → Except CkptError S) (g : S → α → List Hook) : List α → S → List Hook
  | [], _ => []
  | a :: l, s =>
    g s a ++
    match f s a with
    | .error _ => []
    | .ok s => loopHooks f g l s

/-- The body of the loop of `process_operation` for a `Forward` action (`checkpointing.py:326-398`); without a next step there is an `IndexError` before
`pause_checkpointing`. -/
def forwardStepHooks (k : Nat) (first wi wa : Bool) (st : Storage) (τ : CTape V T A) : List Hook :=
  match τ.steps[k]? with
  | none => []
  | some _ =>
    [.blocks k] ++ (if st ≠ .work then storeHooks k (wi && first) wa st else []) ++
      (if ltTotal (k + 1) τ.mgr.total ∧ τ.steps.length ≤ k + 1 then [] else pauseHooks st)

/-- The loop of `process_operation` for a `Forward` action (`checkpointing.py:318-325`). -/
def forwardStepsHooks (n0 : Nat) (wi wa : Bool) (st : Storage) (keepJ : List BV) : Nat → Nat → CTape V T A → List Hook
  | 0, _, _ => []
  | n + 1, k, τ =>
    forwardStepHooks k (decide (k = n0)) wi wa st τ ++
    match forwardStep k (decide (k = n0)) wi wa st keepJ τ with
    | .error _ => []
    | .ok τ => forwardStepsHooks n0 wi wa st keepJ n (k + 1) τ

/-- `process_operation` (`checkpointing.py:297-455`). -/
def processHooks [Add A] (markings : Bool) (keepJ : List BV) (τ : CTape V T A) : Action → List Hook
  | .forward n0 n1 wi wa st => forwardStepsHooks n0 wi wa st keepJ (forwardCount n0 n1 τ.mgr.total) n0 τ
  | .reverse n1 n0 clear =>
    loopHooks (fun τ k => reverseStep k clear markings τ) (fun τ k => if (τ.steps[k]?).isSome then [.adjoint k] else []) (reverseRange n1 n0) τ
  | .copy n src => if (τ.steps[n]?).isSome then [.restore n src] else []
  | .move n src => if (τ.steps[n]?).isSome then [.restore n src] else []
  | .endForward => []
  | .endReverse => []

/-- `self._current_action = cp_action` and the action (`checkpointing.py:257-259`). -/
def performHooks [Add A] (markings : Bool) (keepJ : List BV) (τ : CTape V T A) (a : Action) : List Hook :=
  processHooks markings keepJ { τ with mgr := { τ.mgr with current := a } } a

/-- The forward sweep of `recompute` (`checkpointing.py:252-259`). -/
def forwardSweepHooks [Add A] (keepJ : List BV) (τ : CTape V T A) : List Hook :=
  match τ.mgr.fwd with
  | .forward n0 _ _ _ st :: _ =>
    match τ.steps[n0]? with
    | none => []
    | some s => .restore n0 st :: loopHooks (perform false keepJ) (performHooks false keepJ) τ.mgr.fwd { τ with heap := s.restore τ.heap }
  | _ => []

/-- `CheckpointManager.recompute` (`checkpointing.py:239-259`); `usesDisk` is `schedule.uses_storage_type(StorageType.DISK)`. -/
def recomputeHooks [Add A] (usesDisk : Bool) (keepJ : List BV) (τ : CTape V T A) : List Hook :=
  finishTapingHooks τ ++
  match finishTaping τ with
  | .error _ => []
  | .ok τ => (if usesDisk then [.reset] else []) ++ forwardSweepHooks keepJ { τ with mgr := { τ.mgr with mode := .recompute } }

/-- The first adjoint evaluation (`checkpointing.py:286-291`). -/
def firstReverseHooks [Add A] (markings : Bool) : List Action → CTape V T A → List Hook
  | acts, τ =>
    if τ.mgr.current = .endReverse then [] else
    match acts with
    | [] => []
    | a :: acts =>
      performHooks markings [] { τ with mgr := { τ.mgr with rev := τ.mgr.rev ++ [a] } } a ++
      match perform markings [] { τ with mgr := { τ.mgr with rev := τ.mgr.rev ++ [a] } } a with
      | .error _ => []
      | .ok τ => firstReverseHooks markings acts τ

/-- The reverse sweep (`checkpointing.py:283-291`). -/
def reverseSweepHooks [Add A] (markings : Bool) (τ : CTape V T A) : List Hook :=
  if τ.mgr.rev ≠ [] then loopHooks (process markings []) (processHooks markings []) τ.mgr.rev τ
  else firstReverseHooks markings τ.mgr.acts τ

/-- `CheckpointManager.evaluate_adj` (`checkpointing.py:261-295`). -/
def evaluateAdjHooks [Add A] (markings : Bool) (τ : CTape V T A) : List Hook :=
  finishTapingHooks τ ++
  match finishTaping τ with
  | .error _ => []
  | .ok τ => if canReverse τ = false then [] else reverseSweepHooks markings τ

/-- What the user does after enabling checkpointing.  (The user's program; not in the code.) -/
inductive DiskOp (V T A : Type*)
  | block (b : Block V T A)
  | endTimestep
  | call (xs : List V)
  | derivative (adjInput : A)

/-- The calls in one operation.  The controls get their values, then `reset_blocks` resets the packages (`tape.py:259-267`), then the tape is
recomputed (`reduced_functional.py:230-242`).  `tape.py:229-234, 269-276`, `drivers.py:21-33`. -/
def diskHooks [Add A] [Zero A] (usesDisk : Bool) (truthy : V → Bool) (J : BV) (cs : List BV) (τ : CTape V T A) : DiskOp V T A → List Hook
  | .block _ => [.user]
  | .endTimestep => mgrEndTimestepHooks (τ.latest + 1) τ
  | .call xs =>
    let τ := τ.onHeap fun h => markControls cs true (updateControls cs xs h)
    [.user, .reset] ++ recomputeHooks usesDisk (τ.keepFunctional truthy J) τ
  | .derivative a => evaluateAdjHooks true (τ.onHeap (seedAdjoint J cs a τ.blocks))

/-- The state an operation leaves.  `tape.py:229-234, 269-276`, `reduced_functional.py:112-160, 230-254`. -/
def diskStep [Add A] [Zero A] [Mul V] (truthy : V → Bool) (J : BV) (cs : List BV) (scale : V) (τ : CTape V T A) :
    DiskOp V T A → Except CkptError (CTape V T A)
  | .block b => .ok (τ.recordBlock b)
  | .endTimestep => τ.endTimestep
  | .call xs => (rfCall truthy J cs scale xs τ).map (·.2)
  | .derivative a => (rfDerivative J cs a τ).map (·.2)

/-- Everything after checkpointing is enabled, up to an exception.  (The user's program; not in the code.) -/
def sessionHooks [Add A] [Zero A] [Mul V] (usesDisk : Bool) (truthy : V → Bool) (J : BV) (cs : List BV) (scale : V) :
    List (DiskOp V T A) → CTape V T A → List Hook :=
  loopHooks (diskStep truthy J cs scale) (diskHooks usesDisk truthy J cs)

/-- `CheckpointManager.__init__` calls `end_timestep(-1)` (`checkpointing.py:65-99`). -/
def enableHooks (sch : Schedule) (gcFreq : Option Int) (hasPackage : Bool) (heap : Heap V T A) (steps : List (CStep V T A)) (eager : Bool) : List Hook :=
  if (steps.flatMap (·.blocks)) ≠ [] then []
  else if sch.usesDisk && !hasPackage then []
  else match sch.acts with
    | [] => []
    | a :: acts => mgrEndTimestepHooks 0
        { heap := heap, steps := steps, eager := eager,
          mgr := {
            acts := acts, maxN := sch.maxN, afterFinal := sch.afterFinal, singleMem := sch.singleMem,
            exhausted := sch.exhausted, current := a, fwd := [a],
            total := if sch.maxN = 0 then none else some sch.maxN, gcFreq := gcFreq } }

/-- All calls, from `enable_checkpointing` on.  `tape.py:310-335`; the rest is the user's program. -/
def allHooks [Add A] [Zero A] [Mul V] (sch : Schedule) (gcFreq : Option Int) (hasPackage : Bool) (heap : Heap V T A) (steps : List (CStep V T A))
    (eager : Bool) (truthy : V → Bool) (J : BV) (cs : List BV) (scale : V) (ops : List (DiskOp V T A)) : List Hook :=
  enableHooks sch gcFreq hasPackage heap steps eager ++
  match enable sch gcFreq hasPackage heap steps eager with
  | .error _ => []
  | .ok τ => sessionHooks sch.usesDisk truthy J cs scale ops τ

end CTape
end Pyadjoint
