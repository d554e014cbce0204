import Verif.Model.Core
import Verif.Model.Reduced
import Verif.Model.OrderedSet

/-!
# Checkpointing (`pyadjoint/checkpointing.py`) for immutable values

The checkpoint manager, the time steps with their stored checkpoints, recording under a manager,
and the evaluation of functional and gradient through a manager.

Schedules come from the external package `checkpoint_schedules`, which is not part of the
repository.  A schedule is modelled by the list of the actions it will yield, so that theorems
quantify over arbitrary schedules.  `CheckpointError` and the other exceptions are values; the state
an exception leaves behind is modelled only where it matters (`interruptedAdj`).

Simplified: values are immutable and are stored by reference, as for `AdjFloat`
(`adjfloat.py:99-104`), so the storage medium has no effect on them and the package hooks
`continue_checkpointing` / `pause_checkpointing` / `reset` do nothing; progress bars and logging are left
out; a garbage collection changes nothing that is reachable.
-/

namespace Pyadjoint

/-- `checkpoint_schedules.StorageType`, as used in `checkpointing.py:6-7`. -/
inductive Storage | ram | disk | work | none
  deriving DecidableEq

/-- The actions of `checkpoint_schedules` (`checkpointing.py:6-7`).  In `Forward(n0, n1, …)` the end
`n1 = none` stands for the unbounded `sys.maxsize` (`checkpointing.py:85, 321-323`). -/
inductive Action
  | forward (n0 : Nat) (n1 : Option Nat) (writeIcs writeAdj : Bool) (storage : Storage)
  | reverse (n1 n0 : Nat) (clear : Bool)
  | copy (n : Nat) (source : Storage)
  | move (n : Nat) (source : Storage)
  | endForward
  | endReverse
  deriving DecidableEq

/-- `step in cp_action` for a `Forward` action (`checkpointing.py:222, 323`). -/
def inForward (n0 : Nat) (n1 : Option Nat) (t : Nat) : Bool :=
  decide (n0 ≤ t) && (match n1 with | none => true | some m => decide (t < m))

/-- `Mode` (`checkpointing.py:17-33`). -/
inductive Mode | record | finishedRecording | evaluated | exhausted | recompute | evaluateAdjoint
  deriving DecidableEq

/-- The exceptions of `checkpointing.py`, and those Python raises in it. -/
inductive CkptError
  /-- "Not enough timesteps in schedule." (line 108) -/
  | notEnoughTimesteps
  /-- "Cannot end timestep in …" (line 110) -/
  | cannotEndTimestep
  /-- "Unable to process … while taping." (line 156) -/
  | unableWhileTaping
  /-- "Timestep is before start of Forward action." (line 161) -/
  | beforeStart
  /-- "The correct number of forward steps has not been taken." (line 233) -/
  | wrongNumber
  /-- "Evaluate Functional before calling gradient." (line 281) -/
  | evaluateFirst
  /-- "The schedule employs disk checkpointing but it is not configured." (line 70) -/
  | notConfigured
  /-- "Checkpointing must be enabled before any blocks are added to the tape." (`tape.py:325`) -/
  | notEmpty
  /-- `StopIteration` from `next(schedule)` -/
  | stopIteration
  /-- `IndexError` from `tape.timesteps[…]` -/
  | indexError
  /-- `ZeroDivisionError` in `timestep % self._gc_timestep_frequency` (line 215) -/
  | zeroDivision
  /-- `AttributeError`: the first forward action has no `n0` (line 255) -/
  | noStart
  /-- never returned, see `CTape.endTapingLoop` -/
  | outOfFuel
  deriving DecidableEq

/-- A time step with its stored checkpoint (`tape.py:788-802`).  `ckpt v = none`: no entry;
`ckpt v = some c`: the entry `c`, where `c = none` is the stored `None`. -/
structure CStep (V T A : Type*) where
  blocks : Blocks V T A := []
  state : OSet BV := ⟨[]⟩
  adjDeps : OSet BV := ⟨[]⟩
  ckpt : BV → Option (Option V) := fun _ => none
  revised : Bool := false

/-- The checkpoint manager (`checkpointing.py:65-99`) with its schedule: `acts` are the actions the
schedule will yield, `maxN` is `schedule.max_n` (`0` for `None`: both are falsy), `afterFinal n` the actions
it yields after `finalize(n)`, `singleMem` whether it is a `SingleMemoryStorageSchedule`, `exhausted`
its property `is_exhausted` at the end of the reverse sweep.  `total = none` is `sys.maxsize`. -/
structure Mgr where
  acts : List Action
  maxN : Nat
  afterFinal : Nat → List Action := fun _ => []
  singleMem : Bool := false
  exhausted : Bool := false
  mode : Mode := .record
  current : Action
  fwd : List Action
  rev : List Action := []
  total : Option Nat
  keepInit : Bool := false
  globalDeps : List BV := []
  gcFreq : Option Int := none

/-- A tape with a checkpoint manager, and the block variables.  `tape.py:190-208`, `checkpointing.py:65-99`. -/
structure CTape (V T A : Type*) where
  heap : Heap V T A
  steps : List (CStep V T A) := []
  eager : Bool := false
  mgr : Mgr

variable {V T A : Type*}

/-- `var._checkpoint = None` for the variables of a list.  As in `checkpointing.py:200-211`. -/
def clearAll (vs : List BV) (h : Heap V T A) : Heap V T A :=
  vs.foldl (fun h v => setCkptRaw h v none) h

namespace CStep

/-- The variables stored as adjoint dependencies (`tape.py:831-840`). -/
def adjStored (s : CStep V T A) : OSet BV :=
  if s.revised then s.adjDeps else s.adjDeps.union [s.state.elems]

/-- The value stored for a variable of the checkpointable state (`tape.py:822-829`). -/
def stateValue (h : Heap V T A) (global : List BV) (v : BV) : Option V :=
  if v ∈ global then (h v).ckpt else some (saved h v)

/-- `TimeStep.checkpoint` (`tape.py:809-840`). -/
def checkpoint (s : CStep V T A) (storeState storeAdj : Bool) (global : List BV) (h : Heap V T A) :
    CStep V T A :=
  let c := if storeState then
      s.state.elems.foldl (fun c v => Function.update c v (some (stateValue h global v))) s.ckpt
    else s.ckpt
  let c := if storeAdj then
      s.adjStored.elems.foldl (fun c v => Function.update c v (some (some (saved h v)))) c
    else c
  { s with ckpt := c }

/-- The effect of `restore_from_checkpoint` on one variable (`tape.py:845-854`), through the
`checkpoint` setter (`block_variable.py:92-96`). -/
def restoreVar (x : Var V T A) : Option (Option V) → Var V T A
  | none => x
  | some c => if x.isControl then x else { x with ckpt := c }

/-- `TimeStep.restore_from_checkpoint` (`tape.py:842-854`). -/
def restore (s : CStep V T A) (h : Heap V T A) : Heap V T A := fun v => restoreVar (h v) (s.ckpt v)

/-- `TimeStep.delete_checkpoint` (`tape.py:856-858`). -/
def deleteCheckpoint (s : CStep V T A) : CStep V T A := { s with ckpt := fun _ => none }

/-- The output variables of the step's blocks.  The loop of `checkpointing.py:209-211`. -/
def outs (s : CStep V T A) : List BV := s.blocks.flatMap (·.outs)

end CStep

namespace CTape

/-- Replace step `i` by `f` of it.  Assignments to attributes of `self.tape.timesteps[i]`, as in `checkpointing.py:203`. -/
def modStep (i : Nat) (f : CStep V T A → CStep V T A) (τ : CTape V T A) : CTape V T A :=
  { τ with steps := τ.steps.modify i f }

/-- `TimeStepSequence.append_step()` (`tape.py:899-901`). -/
def appendStep (τ : CTape V T A) : CTape V T A := { τ with steps := τ.steps ++ [{}] }

/-- `Tape.latest_timestep` (`tape.py:219-222`). -/
def latest (τ : CTape V T A) : Nat := τ.steps.length - 1

/-- `timestep < self.total_timesteps` `checkpointing.py:222`. -/
def ltTotal (t : Nat) : Option Nat → Bool
  | none => true
  | some n => decide (t < n)

/-! ### Recording -/

/-- Lines 183-211 of `process_taping` for the step that just ended: the global dependencies, the
stored checkpoint, and the clearing of working memory.  `checkpointing.py:183-211`. -/
def storeEnded (t : Nat) (storeState storeAdj : Bool) (τ : CTape V T A) :
    Except CkptError (CTape V T A) :=
  match τ.steps[t - 1]? with
  | none => .error .indexError
  | some s =>
    let global :=
      if t = 1 then τ.mgr.globalDeps ++ s.state.elems
      else τ.mgr.globalDeps.filter (· ∈ s.state.elems)
    let dropped := if t = 1 then [] else τ.mgr.globalDeps.filter (· ∉ s.state.elems)
    let h := clearAll dropped τ.heap
    let s' := s.checkpoint storeState storeAdj global h
    let h := clearAll (s.state.elems.filter (· ∉ global)) h
    let h := clearAll s.outs h
    .ok { τ with
      heap := h, steps := τ.steps.set (t - 1) s', mgr := { τ.mgr with globalDeps := global } }

/-- Line 218: `isinstance(freq, int) and timestep % freq == 0` raises `ZeroDivisionError` for a zero
frequency.  `checkpointing.py:218`. -/
def gcRaises (m : Mgr) : Bool := m.gcFreq = some 0

/-- `process_taping` for a `Forward` action (`checkpointing.py:158-228`). -/
def tapingForward (n0 : Nat) (n1 : Option Nat) (wi wa : Bool) (st : Storage) (t : Nat)
    (τ : CTape V T A) : Except CkptError (Bool × CTape V T A) :=
  if t < n0 then .error .beforeStart else
  let τ := { τ with eager := wa }
  let r := if n0 < t ∧ st ≠ .work then storeEnded t (wi && decide (t = n0 + 1)) wa τ else .ok τ
  match r with
  | .error e => .error e
  | .ok τ =>
    if gcRaises τ.mgr then .error .zeroDivision else
    if inForward n0 n1 t && ltTotal t τ.mgr.total then .ok (true, τ.appendStep) else .ok (false, τ)

/-- `process_taping` (`checkpointing.py:127-237`). -/
def processTaping (a : Action) (t : Nat) (τ : CTape V T A) : Except CkptError (Bool × CTape V T A) :=
  match a with
  | .forward n0 n1 wi wa st => tapingForward n0 n1 wi wa st t τ
  | .endForward =>
    if some t ≠ τ.mgr.total then .error .wrongNumber
    else .ok (true, { τ with mgr := { τ.mgr with mode := .evaluated } })
  | _ => .error .unableWhileTaping

/-- The loop of `end_timestep` (`checkpointing.py:111-113`), by recursion on the actions not yet
yielded. -/
def endTimestepLoop (t : Nat) : List Action → CTape V T A → Except CkptError (CTape V T A)
  | acts, τ =>
    match processTaping τ.mgr.current t τ with
    | .error e => .error e
    | .ok (true, τ) => .ok { τ with mgr := { τ.mgr with acts := acts } }
    | .ok (false, τ) =>
      match acts with
      | [] => .error .stopIteration
      | a :: acts =>
        endTimestepLoop t acts { τ with mgr := { τ.mgr with current := a, fwd := τ.mgr.fwd ++ [a] } }

/-- `CheckpointManager.end_timestep` (`checkpointing.py:101-113`), `t` being `timestep + 1`. -/
def mgrEndTimestep (t : Nat) (τ : CTape V T A) : Except CkptError (CTape V T A) :=
  if τ.mgr.mode = .evaluated then .error .notEnoughTimesteps
  else if τ.mgr.mode ≠ .record then .error .cannotEndTimestep
  else endTimestepLoop t τ.mgr.acts τ

/-- `Tape.end_timestep` with a manager (`tape.py:229-234`). -/
def endTimestep (τ : CTape V T A) : Except CkptError (CTape V T A) :=
  mgrEndTimestep (τ.latest + 1) τ

/-- The loop of `end_taping` (`checkpointing.py:123-125`).  The fuel bounds the number of calls; while
the mode is still `RECORD` a call at `t` has left a step number `t < total`, so `total + 1` suffices
(`CTape.endTaping_fuel`). -/
def endTapingLoop : Nat → Nat → CTape V T A → Except CkptError (CTape V T A)
  | fuel, t, τ =>
    if τ.mgr.mode = .evaluated then .ok τ else
    match fuel with
    | 0 => .error .outOfFuel
    | fuel + 1 =>
      match mgrEndTimestep t τ with
      | .error e => .error e
      | .ok τ => endTapingLoop fuel (t + 1) τ

/-- `finalize` for a schedule without `max_n` (`checkpointing.py:118-122`). -/
def finalize (τ : CTape V T A) : CTape V T A :=
  if τ.mgr.maxN = 0 then
    { τ with mgr := { τ.mgr with
        acts := τ.mgr.afterFinal τ.steps.length,
        maxN := τ.steps.length, total := some τ.steps.length } }
  else τ

/-- `end_taping` (`checkpointing.py:115-125`). -/
def endTaping (τ : CTape V T A) : Except CkptError (CTape V T A) :=
  let τ' := τ.finalize
  endTapingLoop (τ'.mgr.total.getD 0 + 1) (τ.latest + 1) τ'

/-- A schedule handed to `enable_checkpointing`: see `Mgr`.  What `checkpointing.py:65-99, 118-122` uses of it. -/
structure Schedule where
  acts : List Action
  maxN : Nat
  afterFinal : Nat → List Action := fun _ => []
  singleMem : Bool := false
  usesDisk : Bool := false
  exhausted : Bool := false

/-- `enable_checkpointing` and `CheckpointManager.__init__` (`tape.py:310-335`,
`checkpointing.py:65-99`), on a tape with `nblocks` blocks and time steps `steps`.  `hasPackage`:
`tape._package_data` is not empty. -/
def enable (sch : Schedule) (gcFreq : Option Int) (hasPackage : Bool) (heap : Heap V T A)
    (steps : List (CStep V T A)) (eager : Bool) : Except CkptError (CTape V T A) :=
  if (steps.flatMap (·.blocks)) ≠ [] then .error .notEmpty
  else if sch.usesDisk && !hasPackage then .error .notConfigured
  else match sch.acts with
    | [] => .error .stopIteration
    | a :: acts => mgrEndTimestep 0
        { heap := heap, steps := steps, eager := eager,
          mgr := {
            acts := acts, maxN := sch.maxN, afterFinal := sch.afterFinal, singleMem := sch.singleMem,
            exhausted := sch.exhausted, current := a, fwd := [a],
            total := if sch.maxN = 0 then none else some sch.maxN, gcFreq := gcFreq } }

/-- `will_add_as_dependency` and `add_to_checkpointable_state` (`block_variable.py:64-71`,
`tape.py:278-292`).  `_ad_will_add_as_dependency` saves the value without overwriting
(`overloaded_type.py:273-277`), after which `save_output(overwrite=False)` does nothing. -/
def depend (v : BV) (τ : CTape V T A) : CTape V T A :=
  let h := saveOutput τ.heap v false
  let k := ((τ.heap v).lastUse + 1).toNat
  { τ with
    heap := Function.update h v { h v with lastUse := τ.latest },
    steps := τ.steps.take k ++ (τ.steps.drop k).map fun s => { s with state := s.state.add v } }

/-- `will_add_as_output` and `add_to_adjoint_dependencies` (`block_variable.py:73-83`,
`tape.py:294-308`), `_ad_will_add_as_output` being true (`overloaded_type.py:279-286`). -/
def output (v : BV) (τ : CTape V T A) : CTape V T A :=
  let h := Function.update τ.heap v { τ.heap v with creation := τ.latest, lastUse := τ.latest }
  let h := if τ.eager then saveOutput h v true else h
  { τ with
    heap := h,
    steps := τ.steps.take τ.latest ++
      (τ.steps.drop τ.latest).map fun s => { s with adjDeps := s.adjDeps.add v } }

/-- `Tape.add_block` (`tape.py:269-276`) when there is a time step. -/
def addBlock (b : Block V T A) (τ : CTape V T A) : CTape V T A :=
  τ.modStep τ.latest fun s => { s with blocks := s.blocks ++ [b] }

/-- Recording one operation: the dependencies are added in the block's constructor, then the block
goes on the tape, then its outputs are added (`adjfloat.py:26-42`). -/
def recordBlock (b : Block V T A) (τ : CTape V T A) : CTape V T A :=
  let τ := b.deps.foldl (fun τ v => τ.depend v) τ
  let τ := τ.addBlock b
  b.outs.foldl (fun τ v => τ.output v) τ

/-- What the user's program does while the tape records.
(The user's program, not in the code: `add_block` at `tape.py:269-276` with its variables, and `end_timestep` at `tape.py:229-234`.) -/
inductive Event (V T A : Type*)
  | block (b : Block V T A)
  | endTimestep

/-- One event.  `tape.py:229-234, 269-276`. -/
def event (τ : CTape V T A) : Event V T A → Except CkptError (CTape V T A)
  | .block b => .ok (τ.recordBlock b)
  | .endTimestep => τ.endTimestep

/-- A recording.  (The user's program, not in the code.) -/
def recording (es : List (Event V T A)) (τ : CTape V T A) : Except CkptError (CTape V T A) :=
  es.foldlM event τ

/-! ### Evaluating the functional -/

/-- The loop over the variables of the finished step that are not needed any more
(`checkpointing.py:354-375`), with its `break`; returns the heap and `_keep_init_state_in_work`.
`inStored v`: `var in current_step._checkpoint`; `inPrev v`: `var` is in the adjoint dependencies of
the previous step; `inInit v`: `var in timesteps[0].checkpointable_state`. -/
def clearState (step : Nat) (singleMem : Bool) (inStored inPrev inInit : BV → Bool) :
    List BV → Heap V T A → Bool → Heap V T A × Bool
  | [], h, keepInit => (h, keepInit)
  | v :: vs, h, keepInit =>
    if step = 0 ∧ inStored v = false then (h, true)
    else if singleMem then
      clearState step singleMem inStored inPrev inInit vs
        (if 1 < step ∧ inPrev v = false then setCkptRaw h v none else h) keepInit
    else if inInit v && keepInit then
      clearState step singleMem inStored inPrev inInit vs h keepInit
    else clearState step singleMem inStored inPrev inInit vs (setCkptRaw h v none) keepInit

/-- `to_keep` (`checkpointing.py:347-352`): the next step's state and, if it is true as a Python value,
the functional. -/
def toKeep (τ : CTape V T A) (k : Nat) (keepJ : List BV) : List BV :=
  (if (match τ.mgr.total with | none => true | some n => decide (k + 1 < n)) then
    match τ.steps[k + 1]? with
    | some s => s.state.elems
    | none => []
   else []) ++ keepJ

/-- The body of the loop of `process_operation` for a `Forward` action (`checkpointing.py:326-398`) for step
`k`; `first` is whether `k = n0`.  `keepJ` is `[J]` if the functional `J` was passed and is true as a Python
value (`if functional:`), else `[]`. -/
def forwardStep (k : Nat) (first wi wa : Bool) (st : Storage) (keepJ : List BV) (τ : CTape V T A) :
    Except CkptError (CTape V T A) :=
  match τ.steps[k]? with
  | none => .error .indexError
  | some s =>
    if ltTotal (k + 1) τ.mgr.total ∧ τ.steps.length ≤ k + 1 then .error .indexError else
    let h := recompute s.blocks τ.heap
    let s' := if st ≠ .work then s.checkpoint (wi && first) wa τ.mgr.globalDeps h else s
    let steps := τ.steps.set k s'
    let keep := τ.toKeep k keepJ
    let gone := s.state.elems.filter fun v => v ∉ keep ∧ v ∉ τ.mgr.globalDeps
    let r := clearState k τ.mgr.singleMem (fun v => (s'.ckpt v).isSome)
      (fun v => ((steps[k - 1]?.map (·.adjDeps.elems)).getD []).contains v)
      (fun v => ((steps[0]?.map (·.state.elems)).getD []).contains v) gone h τ.mgr.keepInit
    let h := clearAll (s.outs.filter fun v =>
      v ∉ keep ∧ (((wa && decide (st ≠ .work)) || !wa) = true ∨ v ∉ s.adjDeps.elems)) r.1
    .ok { τ with heap := h, steps := steps, mgr := { τ.mgr with keepInit := r.2 } }

/-- The loop of `process_operation` for a `Forward` action (`checkpointing.py:318-325`): the steps `k`,
…, `k + n - 1`. -/
def forwardSteps (n0 : Nat) (wi wa : Bool) (st : Storage) (keepJ : List BV) :
    Nat → Nat → CTape V T A → Except CkptError (CTape V T A)
  | 0, _, τ => .ok τ
  | n + 1, k, τ =>
    match forwardStep k (decide (k = n0)) wi wa st keepJ τ with
    | .error e => .error e
    | .ok τ => forwardSteps n0 wi wa st keepJ n (k + 1) τ

/-- The number of steps in a `Forward` action: `step in cp_action and step < total_timesteps`
(`checkpointing.py:325`); an unbounded action ends with the tape (`total` is known by then). -/
def forwardCount (n0 : Nat) (n1 total : Option Nat) : Nat :=
  match n1, total with
  | some m, some n => min m n - n0
  | some m, none => m - n0
  | none, some n => n - n0
  | none, none => 0

/-! ### Reversing -/

/-- The revision of the adjoint dependencies by one block (`checkpointing.py:409-416`). -/
def reviseBlock (h : Heap V T A) (s : CStep V T A) (b : Block V T A) : CStep V T A :=
  let a := b.deps.foldl (fun a d => if (h d).marked then a.add d else a) s.adjDeps
  let a := b.outs.foldl (fun a o => if (h o).marked then a else a.discard o) a
  { s with adjDeps := a }

/-- The loop over the reversed blocks of a step (`checkpointing.py:407-416`). -/
def reverseBlocks [Add A] (markings : Bool) (s : CStep V T A) (h : Heap V T A) :
    CStep V T A × Heap V T A :=
  s.blocks.reverse.foldl (fun p b =>
    let h := b.evaluateAdj markings p.2
    (if s.revised then p.1 else reviseBlock h p.1 b, h)) (s, h)

/-- The treatment of one output after its step was reversed (`checkpointing.py:424-430`). -/
def resetOut (clear : Bool) (keep : List BV) (h : Heap V T A) (o : BV) : Heap V T A :=
  let x : Var V T A := { h o with tlm := none }
  let x := if x.isControl then x else { x with adj := none, hess := none }
  let x := if clear && decide (o ∉ keep) then { x with ckpt := none } else x
  Function.update h o x

/-- One step of `process_operation` for a `Reverse` action (`checkpointing.py:400-433`).  `functional` is
never passed (`checkpointing.py:285, 291`). -/
def reverseStep [Add A] (k : Nat) (clear markings : Bool) (τ : CTape V T A) :
    Except CkptError (CTape V T A) :=
  match τ.steps[k]? with
  | none => .error .indexError
  | some s =>
    let r := reverseBlocks markings s τ.heap
    let s' := { r.1 with revised := true }
    .ok { τ with
      heap := s.outs.foldl (resetOut clear s.state.elems) r.2, steps := τ.steps.set k s' }

/-- The steps of a `Reverse(n1, n0, …)` action: `n1 - 1`, …, `n0`.
`range` in the `Reverse` case of `process_operation`, `checkpointing.py:402`. -/
def reverseRange (n1 n0 : Nat) : List Nat := ((List.range (n1 - n0)).map (n0 + ·)).reverse

/-- `process_operation` (`checkpointing.py:297-455`). -/
def process [Add A] (markings : Bool) (keepJ : List BV) (τ : CTape V T A) :
    Action → Except CkptError (CTape V T A)
  | .forward n0 n1 wi wa st =>
    forwardSteps n0 wi wa st keepJ (forwardCount n0 n1 τ.mgr.total) n0 τ
  | .reverse n1 n0 clear =>
    (reverseRange n1 n0).foldlM (fun τ k => reverseStep k clear markings τ) τ
  | .copy n _ =>
    match τ.steps[n]? with
    | none => .error .indexError
    | some s => .ok { τ with heap := s.restore τ.heap }
  | .move n _ =>
    match τ.steps[n]? with
    | none => .error .indexError
    | some s => .ok { τ with heap := s.restore τ.heap, steps := τ.steps.set n s.deleteCheckpoint }
  | .endForward => .ok { τ with mgr := { τ.mgr with mode := .evaluated } }
  | .endReverse =>
    .ok { τ with mgr := { τ.mgr with mode := if τ.mgr.exhausted then .exhausted else .evaluated } }

/-- `self._current_action = cp_action` and the action (`checkpointing.py:257-259`). -/
def perform [Add A] (markings : Bool) (keepJ : List BV) (τ : CTape V T A) (a : Action) :
    Except CkptError (CTape V T A) :=
  process markings keepJ { τ with mgr := { τ.mgr with current := a } } a

/-- `if self.mode == Mode.RECORD: self.end_taping()` (`checkpointing.py:245-247`, `276-278`). -/
def finishTaping (τ : CTape V T A) : Except CkptError (CTape V T A) :=
  if τ.mgr.mode = .record then τ.endTaping else .ok τ

/-- The forward sweep of `recompute` (`checkpointing.py:252-259`). -/
def forwardSweep [Add A] (keepJ : List BV) (τ : CTape V T A) : Except CkptError (CTape V T A) :=
  match τ.mgr.fwd with
  | .forward n0 _ _ _ _ :: _ =>
    match τ.steps[n0]? with
    | none => .error .indexError
    | some s => τ.mgr.fwd.foldlM (perform false keepJ) { τ with heap := s.restore τ.heap }
  | _ => .error .noStart

/-- `CheckpointManager.recompute` (`checkpointing.py:239-259`). -/
def recomputeTape [Add A] (keepJ : List BV) (τ : CTape V T A) : Except CkptError (CTape V T A) :=
  match finishTaping τ with
  | .error e => .error e
  | .ok τ => forwardSweep keepJ { τ with mgr := { τ.mgr with mode := .recompute } }

/-- The first adjoint evaluation takes its actions from the schedule until `EndReverse`
(`checkpointing.py:286-291`). -/
def firstReverse [Add A] (markings : Bool) : List Action → CTape V T A → Except CkptError (CTape V T A)
  | acts, τ =>
    if τ.mgr.current = .endReverse then .ok { τ with mgr := { τ.mgr with acts := acts } } else
    match acts with
    | [] => .error .stopIteration
    | a :: acts =>
      match perform markings [] { τ with mgr := { τ.mgr with rev := τ.mgr.rev ++ [a] } } a with
      | .error e => .error e
      | .ok τ => firstReverse markings acts τ

/-- The reverse sweep (`checkpointing.py:283-291`): the recorded actions if there are any, else those of the
schedule.  In the first branch `_current_action` is not updated. -/
def reverseSweep [Add A] (markings : Bool) (τ : CTape V T A) : Except CkptError (CTape V T A) :=
  if τ.mgr.rev ≠ [] then τ.mgr.rev.foldlM (process markings []) τ
  else firstReverse markings τ.mgr.acts τ

/-- `if self.mode not in (Mode.EVALUATED, Mode.FINISHED_RECORDING): raise` (`checkpointing.py:280-281`). -/
def canReverse (τ : CTape V T A) : Bool :=
  decide (τ.mgr.mode = .evaluated ∨ τ.mgr.mode = .finishedRecording)

/-- `CheckpointManager.evaluate_adj` with `last_block = 0` (`checkpointing.py:261-295`). -/
def evaluateAdjTape [Add A] (markings : Bool) (τ : CTape V T A) : Except CkptError (CTape V T A) :=
  match finishTaping τ with
  | .error e => .error e
  | .ok τ =>
    if canReverse τ = false then .error .evaluateFirst else
    match reverseSweep markings τ with
    | .error e => .error e
    | .ok τ => .ok { τ with mgr := { τ.mgr with mode := .evaluateAdjoint } }

/-- Taking one more action from the schedule in the first reverse sweep (`checkpointing.py:288-291`). -/
def takeAction [Add A] (markings : Bool) (τ : CTape V T A) (a : Action) :
    Except CkptError (CTape V T A) :=
  perform markings [] { τ with mgr := { τ.mgr with rev := τ.mgr.rev ++ [a] } } a

/-- A first adjoint evaluation that an exception leaves at the start of action number `k`
(`checkpointing.py:286-291`): that action has been taken from the schedule and appended already. -/
def interruptedAdj [Add A] (markings : Bool) (k : Nat) (τ : CTape V T A) :
    Except CkptError (CTape V T A) :=
  match finishTaping τ with
  | .error e => .error e
  | .ok τ =>
    if canReverse τ = false then .error .evaluateFirst else
    match (τ.mgr.acts.take k).foldlM (takeAction markings) τ, τ.mgr.acts[k]? with
    | .error e, _ => .error e
    | .ok _, none => .error .stopIteration
    | .ok τ', some a =>
      .ok { τ' with mgr := { τ'.mgr with
        current := a, rev := τ'.mgr.rev ++ [a], acts := τ.mgr.acts.drop (k + 1) } }

/-! ### The reduced functional -/

/-- All blocks of the tape (`tape.py:861-894`: the sequence is the concatenation of its steps). -/
def blocks (τ : CTape V T A) : Blocks V T A := τ.steps.flatMap (·.blocks)

/-- Change the heap.  (Not in the code.) -/
def onHeap (f : Heap V T A → Heap V T A) (τ : CTape V T A) : CTape V T A :=
  { τ with heap := f τ.heap }

/-- `if functional:` (`checkpointing.py:351`) looks at the functional object as a Python truth value; for an
`AdjFloat` that is whether its recorded value is nonzero. -/
def keepFunctional (truthy : V → Bool) (J : BV) (τ : CTape V T A) : List BV :=
  if truthy (τ.heap J).output then [J] else []

/-- `ReducedFunctional.__call__` with a manager (`reduced_functional.py:230-254`), controls a list. -/
def rfCall [Add A] [Mul V] (truthy : V → Bool) (J : BV) (cs : List BV) (scale : V) (xs : List V)
    (τ : CTape V T A) : Except CkptError (V × CTape V T A) :=
  let τ := τ.onHeap fun h => markControls cs true (updateControls cs xs h)
  match τ.recomputeTape (τ.keepFunctional truthy J) with
  | .error e => .error e
  | .ok τ =>
    let τ := τ.onHeap (markControls cs false)
    .ok (saved τ.heap J * scale, τ)

/-- The state in which `compute_gradient` starts the adjoint evaluation (`drivers.py:21-29`). -/
def seedAdjoint (J : BV) (cs : List BV) (adjInput : A) (bs : Blocks V T A) (h : Heap V T A) :
    Heap V T A :=
  let h := resetVariables bs .adjoint h
  let h := Function.update h J { h J with adj := some adjInput }
  markControls cs true (markAll (findRelevantNodes bs cs) true h)

/-- The end of the context managers (`tape.py:528-529`, `drivers.py:118-120`). -/
def unmark (cs : List BV) (bs : Blocks V T A) (h : Heap V T A) : Heap V T A :=
  markAll (findRelevantNodes bs cs) false (markControls cs false h)

/-- `ReducedFunctional.derivative` / `compute_gradient` with a manager
(`reduced_functional.py:112-160`, `drivers.py:5-33`). -/
def rfDerivative [Add A] [Zero A] (J : BV) (cs : List BV) (adjInput : A) (τ : CTape V T A) :
    Except CkptError (List A × CTape V T A) :=
  match (τ.onHeap (seedAdjoint J cs adjInput τ.blocks)).evaluateAdjTape true with
  | .error e => .error e
  | .ok τ' =>
    let τ' := τ'.onHeap (unmark cs τ.blocks)
    .ok (cs.map (getDerivative τ'.heap), τ')

end CTape
end Pyadjoint
