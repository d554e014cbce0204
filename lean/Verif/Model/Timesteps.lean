import Verif.Model.Optimize
import Verif.Model.OrderedSet

/-!
# Tapes as objects: timesteps, checkpointable states, copying

`TimeStep`, `TimeStepSequence` and the methods of `Tape` that change the list of blocks
(`pyadjoint/tape.py`), with the objects' identities, since `TimeStep.copy` shares a set between
two timesteps.  Tapes have no checkpoint manager here (see `Verif.Model.Checkpoint`).
The value-related half of `will_add_as_dependency`/`will_add_as_output` is in `Verif.Model.Session`.
-/

namespace Pyadjoint

variable {V T A : Type*}

/-- A `TimeStep` object (`tape.py:788-802`): the list of blocks, and the identities of the sets
`checkpointable_state` and `adjoint_dependencies`.  The stored values `_checkpoint` are in
`Verif.Model.Checkpoint`. -/
structure StepObj (V T A : Type*) where
  blocks : Blocks V T A
  state : Nat
  adjDeps : Nat

/-- `tape._blocks`, a `TimeStepSequence` object (`tape.py:861-889`): the identities of the timesteps, and the
contents of the flat list the class inherits from. -/
structure TapeObj (V T A : Type*) where
  stepIds : List Nat
  flat : Blocks V T A

/-- All objects: time steps, ordered sets and tapes by identity, the number of each allocated so far, and
`last_use` of each block variable (`block_variable.py:22`). -/
structure World (V T A : Type*) where
  steps : Nat → StepObj V T A
  nextStep : Nat
  sets : Nat → OSet BV
  nextSet : Nat
  tapes : Nat → TapeObj V T A
  nextTape : Nat
  lastUse : BV → Int

namespace World

/-- Before anything is created; `last_use` is initialised to -1 (`block_variable.py:22`). -/
def empty : World V T A where
  steps _ := ⟨[], 0, 0⟩
  nextStep := 0
  sets _ := ⟨[]⟩
  nextSet := 0
  tapes _ := ⟨[], []⟩
  nextTape := 0
  lastUse _ := -1

/-- A new `OrderedSet` object.  `tape.py:790-802`. -/
def newSet (w : World V T A) (x : OSet BV) : World V T A × Nat :=
  ({ w with sets := Function.update w.sets w.nextSet x, nextSet := w.nextSet + 1 }, w.nextSet)

/-- `TimeStep(blocks)` (`tape.py:790-802`). -/
def newStep (w : World V T A) (bs : Blocks V T A) : World V T A × Nat :=
  let (w, s) := w.newSet ⟨[]⟩
  let (w, a) := w.newSet ⟨[]⟩
  ({ w with steps := Function.update w.steps w.nextStep ⟨bs, s, a⟩, nextStep := w.nextStep + 1 },
    w.nextStep)

/-- `step.checkpointable_state = s`.  `tape.py:489, 517, 806`. -/
def setState (w : World V T A) (i s : Nat) : World V T A :=
  { w with steps := Function.update w.steps i { w.steps i with state := s } }

/-- `TimeStep.copy()` (`tape.py:804-807`): the new object refers to the same set. -/
def copyStep (w : World V T A) (i : Nat) : World V T A × Nat :=
  let (w', j) := w.newStep (w.steps i).blocks
  (w'.setState j (w.steps i).state, j)

/-- `[step.copy() for step in steps]` (`tape.py:880,884`). -/
def copySteps (w : World V T A) : List Nat → World V T A × List Nat
  | [] => (w, [])
  | i :: is =>
    let (w, j) := w.copyStep i
    let (w, js) := w.copySteps is
    (w, j :: js)

/-- `tape._blocks = ...`.  `tape.py:192, 210-217, 403-414, 491, 520`. -/
def setTape (w : World V T A) (t : Nat) (x : TapeObj V T A) : World V T A :=
  { w with tapes := Function.update w.tapes t x }

/-- The contents of the timesteps: `chain.from_iterable(self._steps)` (`tape.py:885`). -/
def chain (w : World V T A) (ids : List Nat) : Blocks V T A := ids.flatMap fun i => (w.steps i).blocks

/-- `Tape()` (`tape.py:190-192`). -/
def newTape (w : World V T A) : World V T A :=
  { w with tapes := Function.update w.tapes w.nextTape ⟨[], []⟩, nextTape := w.nextTape + 1 }

/-- `Tape.copy` (`tape.py:403-414`) by `TimeStepSequence.__init__` (`tape.py:879-885`). -/
def copyTape (w : World V T A) (t : Nat) : World V T A :=
  let (w, ids) := w.copySteps (w.tapes t).stepIds
  { w.setTape w.nextTape ⟨ids, w.chain ids⟩ with nextTape := w.nextTape + 1 }

/-- `Tape.clear_tape` (`tape.py:213`): `self._blocks = TimeStepSequence()`. -/
def clear (w : World V T A) (t : Nat) : World V T A := w.setTape t ⟨[], []⟩

/-- `TimeStepSequence.append_step()` (`tape.py:898-900`). -/
def appendStep (w : World V T A) (t : Nat) : World V T A :=
  let (w, i) := w.newStep []
  w.setTape t { w.tapes t with stepIds := (w.tapes t).stepIds ++ [i] }

/-- `if not self.steps: self.append_step()` (`tape.py:893-894`, `289-290`, `305-306`). -/
def ensureStep (w : World V T A) (t : Nat) : World V T A :=
  if (w.tapes t).stepIds = [] then w.appendStep t else w

/-- `self._steps[-1].append(other)` (`tape.py:895`); nothing if there is no step. -/
def appendLast (w : World V T A) (t : Nat) (b : Block V T A) : World V T A :=
  match (w.tapes t).stepIds.getLast? with
  | none => w
  | some i => { w with steps := Function.update w.steps i { w.steps i with blocks := (w.steps i).blocks ++ [b] } }

/-- `TimeStepSequence.append` (`tape.py:891-896`). -/
def append (w : World V T A) (t : Nat) (b : Block V T A) : World V T A :=
  let w := (w.ensureStep t).appendLast t b
  w.setTape t { w.tapes t with flat := (w.tapes t).flat ++ [b] }

/-- `Tape.add_block` (`tape.py:269-276`) with its return value. -/
def addBlock (w : World V T A) (t : Nat) (b : Block V T A) : World V T A × Nat :=
  let w := w.append t b
  (w, (w.tapes t).flat.length - 1)

/-- `Tape.end_timestep` without checkpoint manager (`tape.py:229-234`). -/
def endTimestep (w : World V T A) (t : Nat) : World V T A := w.appendStep t

/-- `Tape.latest_timestep` (`tape.py:219-222`). -/
def latestTimestep (w : World V T A) (t : Nat) : Nat := (w.tapes t).stepIds.length - 1

/-- `for s in sets: s.add(v)` over sets given by identity.  `tape.py:278-308`. -/
def addToSets (w : World V T A) (v : BV) (ids : List Nat) : World V T A :=
  { w with sets := ids.foldl (fun f i => Function.update f i ((f i).add v)) w.sets }

/-- `Tape.add_to_checkpointable_state` (`tape.py:278-292`). -/
def addToState (w : World V T A) (t : Nat) (v : BV) (last : Int) : World V T A :=
  let w := w.ensureStep t
  w.addToSets v (((w.tapes t).stepIds.drop (last + 1).toNat).map fun i => (w.steps i).state)

/-- `Tape.add_to_adjoint_dependencies` (`tape.py:294-308`). -/
def addToAdjDeps (w : World V T A) (t : Nat) (v : BV) (last : Int) : World V T A :=
  let w := w.ensureStep t
  w.addToSets v (((w.tapes t).stepIds.drop (last + 1).toNat).map fun i => (w.steps i).adjDeps)

/-- `BlockVariable.will_add_as_dependency` with working tape `t` (`block_variable.py:64-71`), without
the saving of values. -/
def depend (w : World V T A) (t : Nat) (v : BV) : World V T A :=
  let w := w.addToState t v (w.lastUse v)
  { w with lastUse := Function.update w.lastUse v (w.latestTimestep t) }

/-- `BlockVariable.will_add_as_output` with working tape `t` (`block_variable.py:73-83`), without
the saving of values. -/
def output (w : World V T A) (t : Nat) (v : BV) : World V T A :=
  let last : Int := w.latestTimestep t
  let w : World V T A := { w with lastUse := Function.update w.lastUse v last }
  w.addToAdjDeps t v (last - 1)

/-- One timestep of an optimised tape: a new `TimeStep` with the given blocks, and as checkpointable state a new
set with the elements of the old one satisfying `keep`
(`tape.py:472-490` where `keep` is constantly true because `discarded_variables` stays empty, and
`tape.py:512-518`). -/
def rebuildStep (w : World V T A) (src : Nat) (bs : Blocks V T A) (keep : BV → Bool) : World V T A × Nat :=
  let x : OSet BV := ⟨(w.sets (w.steps src).state).elems.filter keep⟩
  let (w, j) := w.newStep bs
  let (w, s) := w.newSet x
  (w.setState j s, j)

/-- All timesteps of an optimised tape.  `tape.py:472-490, 512-518`. -/
def rebuildSteps (w : World V T A) (keep : BV → Bool) : List (Nat × Blocks V T A) → World V T A × List Nat
  | [] => (w, [])
  | (i, bs) :: l =>
    let (w, j) := w.rebuildStep i bs keep
    let (w, js) := w.rebuildSteps keep l
    (w, j :: js)

/-- The timesteps of a tape as lists of blocks: `tape.timesteps`.  `tape.py:531-534`. -/
def timesteps (w : World V T A) (t : Nat) : List (Blocks V T A) :=
  (w.tapes t).stepIds.map fun i => (w.steps i).blocks

/-- `Tape.optimize_for_controls` (`tape.py:464-492`): the tape is replaced at the end only, so nothing changes if
the `RuntimeError` is raised.  The flat list is filled by `append` (line 486). -/
def optControls (w : World V T A) (t : Nat) (cs : List BV) : World V T A :=
  match optimizeForControls (w.timesteps t) cs with
  | none => w
  | some steps =>
    let (w, ids) := w.rebuildSteps (fun _ => true) ((w.tapes t).stepIds.zip steps)
    w.setTape t ⟨ids, steps.flatten⟩

/-- `retained_nodes` at the end of `optimize_for_functionals` (`tape.py:495-510`). -/
def retainedNodes (steps : List (Blocks V T A)) (fs : List BV) : List BV :=
  (steps.reverse.foldl optFunctionalsOuter (fs, [])).1

/-- `Tape.optimize_for_functionals` (`tape.py:494-520`); `TimeStepSequence(steps=...)` copies the
new steps again (`tape.py:884`). -/
def optFunctionals (w : World V T A) (t : Nat) (fs : List BV) : World V T A :=
  let steps := optimizeForFunctionals (w.timesteps t) fs
  let (w, ids) := w.rebuildSteps (fun v => decide (v ∈ retainedNodes (w.timesteps t) fs))
    ((w.tapes t).stepIds.zip steps)
  let (w, ids) := w.copySteps ids
  w.setTape t ⟨ids, w.chain ids⟩

end World

/-- A user-level operation on some tape.  (The user's program, not in the code.) -/
inductive TapeOp (V T A : Type*)
  | newTape
  | copy (t : Nat)
  | clear (t : Nat)
  | addBlock (t : Nat) (b : Block V T A)
  | endTimestep (t : Nat)
  | depend (t : Nat) (v : BV)
  | output (t : Nat) (v : BV)
  | optControls (t : Nat) (cs : List BV)
  | optFunctionals (t : Nat) (fs : List BV)

/-- Perform it.  The calls are `tape.py:190-308, 403-414, 464-521`, `block_variable.py:64-83`. -/
def World.step (w : World V T A) : TapeOp V T A → World V T A
  | .newTape => w.newTape
  | .copy t => w.copyTape t
  | .clear t => w.clear t
  | .addBlock t b => (w.addBlock t b).1
  | .endTimestep t => w.endTimestep t
  | .depend t v => w.depend t v
  | .output t v => w.output t v
  | .optControls t cs => w.optControls t cs
  | .optFunctionals t fs => w.optFunctionals t fs

end Pyadjoint
