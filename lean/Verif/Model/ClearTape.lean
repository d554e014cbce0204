import Verif.Model.Checkpoint

/-!
# `Tape.clear_tape` (`pyadjoint/tape.py:210-217`)

The fields of a tape that recording looks at.  Left out: the fields for TensorBoard (`tape.py:193-196`), the progress
bar, and the package data (`tape.py:214-215`), which `clear_tape` empties without removing the keys.
-/

namespace Pyadjoint

variable {V T A : Type*}

/-- A `Tape` (`tape.py:190-208`).  `latestCkpt = none` is `float("inf")`. -/
structure PTape (V T A : Type*) where
  steps : List (CStep V T A) := []
  latestCkpt : Option Int := none
  mgr : Option Mgr := none
  eager : Bool := false
  count : Nat := 0

/-- What the methods `_ad_will_add_as_dependency` and `_ad_will_add_as_output` of a type do
(`overloaded_type.py:273-286`): whether the first saves the value, what it returns, and what the second
returns.  The methods of the base class are the default. -/
structure Hooks where
  depSaves : Bool := true
  depOverwrite : Bool := false
  outOverwrite : Bool := true

open CTape (Event Schedule)

namespace PTape

/-- `Tape()` (`tape.py:190-208`). -/
def new : PTape V T A := {}

/-- `tape.get_blocks()` (`tape.py:337-350`). -/
def blocks (τ : PTape V T A) : Blocks V T A := τ.steps.flatMap (·.blocks)

/-- `clear_tape` (`tape.py:210-217`); `reset_variables()` resets the adjoint values (`tape.py:391-395`,
`block.py:89-99`). -/
def clear (τ : PTape V T A) (h : Heap V T A) : PTape V T A × Heap V T A :=
  ({ τ with steps := [], mgr := none, count := 0 }, resetVariables τ.blocks .adjoint h)

/-- `if not self.steps: self.append_step()` (`tape.py:289-290`, `305-306`, `893-894`). -/
def ensure (τ : PTape V T A) : PTape V T A := if τ.steps = [] then { τ with steps := [{}] } else τ

/-- `latest_timestep` (`tape.py:219-222`). -/
def latest (τ : PTape V T A) : Nat := τ.steps.length - 1

/-- `self.last_use < tape.latest_checkpoint` (`block_variable.py:68`). -/
def before (lastUse : Int) : Option Int → Bool
  | none => true
  | some n => decide (lastUse < n)

/-- `will_add_as_dependency` (`block_variable.py:64-71`). -/
def depend (hk : Hooks) (v : BV) (s : PTape V T A × Heap V T A) : PTape V T A × Heap V T A :=
  let h := s.2
  let h := if hk.depSaves then saveOutput h v false else h
  let h := if before (h v).lastUse s.1.latestCkpt then saveOutput h v hk.depOverwrite else h
  let τ := s.1.ensure
  let k := ((h v).lastUse + 1).toNat
  ({ τ with steps := τ.steps.take k ++ (τ.steps.drop k).map fun s => { s with state := s.state.add v } },
    Function.update h v { h v with lastUse := τ.latest })

/-- `will_add_as_output` (`block_variable.py:73-83`). -/
def output (hk : Hooks) (v : BV) (s : PTape V T A × Heap V T A) : PTape V T A × Heap V T A :=
  let n := s.1.latest
  let h := Function.update s.2 v { s.2 v with creation := n, lastUse := n }
  let h := if hk.outOverwrite then h else setCkptRaw h v none
  let h := if s.1.eager then saveOutput h v true else h
  let τ := s.1.ensure
  ({ τ with steps := τ.steps.take n ++ (τ.steps.drop n).map fun s => { s with adjDeps := s.adjDeps.add v } }, h)

/-- `add_block` (`tape.py:269-276`, `891-896`). -/
def addBlock (b : Block V T A) (τ : PTape V T A) : PTape V T A :=
  let τ := τ.ensure
  { τ with steps := τ.steps.modify τ.latest fun s => { s with blocks := s.blocks ++ [b] } }

/-- Recording one operation (`adjfloat.py:26-42`), or `end_timestep` without manager (`tape.py:233-234`). -/
def event (hk : Hooks) (s : PTape V T A × Heap V T A) : Event V T A → PTape V T A × Heap V T A
  | .block b =>
    let s := b.deps.foldl (fun s v => depend hk v s) s
    let s := (s.1.addBlock b, s.2)
    b.outs.foldl (fun s v => output hk v s) s
  | .endTimestep => ({ s.1 with steps := s.1.steps ++ [{}] }, s.2)

/-- A recording without checkpoint manager.  (The user's program, not in the code; its calls are `tape.py:229-234, 269-276`.) -/
def recording (hk : Hooks) (es : List (Event V T A)) (s : PTape V T A × Heap V T A) : PTape V T A × Heap V T A :=
  es.foldl (event hk) s

/-- `enable_checkpointing` (`tape.py:310-335`, `checkpointing.py:90`), as far as the tape goes: the tape then has a
manager, and `latest_checkpoint` is zero. -/
def enable (sch : Schedule) (gcFreq : Option Int) (hasPackage : Bool) (s : PTape V T A × Heap V T A) :
    Except CkptError (CTape V T A) :=
  CTape.enable sch gcFreq hasPackage s.2 s.1.steps s.1.eager

/-- The tape as an object after `enable_checkpointing` and recording with the manager.  `tape.py:310-335`. -/
def ofChecked (n : Int) (τ : CTape V T A) : PTape V T A × Heap V T A :=
  ({ steps := τ.steps, latestCkpt := some n, mgr := some τ.mgr, eager := τ.eager }, τ.heap)

end PTape
end Pyadjoint
