import Mathlib.Logic.Function.Basic
import Mathlib.Algebra.Group.Defs

/-!
# The tape engine: block variables, blocks, and the four sweeps

Models `pyadjoint/block_variable.py`, the default methods of `pyadjoint/block.py`, and the sweep
loops of `pyadjoint/tape.py`.

A `BlockVariable` is a number; the heap maps it to its fields.  The model is generic in
the type `V` of forward values, `T` of tangent (tlm) values and `A` of adjoint and Hessian values.
-/

namespace Pyadjoint

/-- Identity of a `BlockVariable` object (`pyadjoint/block_variable.py:4`). -/
abbrev BV := Nat

/-- The fields of a `BlockVariable` (`pyadjoint/block_variable.py:9-22`).
`floating_type` is modelled in `Verif.Model.Floating`.  `output` is the value of the
overloaded object the variable was created for: for the immutable `AdjFloat` that value never
changes. -/
structure Var (V T A : Type*) where
  output : V
  adj : Option A := none
  tlm : Option T := none
  hess : Option A := none
  /-- the private `_checkpoint` -/
  ckpt : Option V := none
  isControl : Bool := false
  marked : Bool := false
  creation : Int := -1
  lastUse : Int := -1

/-- All block variables.  Objects of class `BlockVariable` (`block_variable.py:4-22`). -/
abbrev Heap (V T A : Type*) := BV → Var V T A

variable {V T A : Type*}

/-- `BlockVariable.saved_output` (`block_variable.py:57-62`) for types whose
`_ad_restore_at_checkpoint` returns the checkpoint (`adjfloat.py:103-104`). -/
def saved (h : Heap V T A) (v : BV) : V :=
  match (h v).ckpt with
  | some c => c
  | none => (h v).output

/-- `BlockVariable.add_adj_output` (`block_variable.py:24-28`), for immutable values (`+=` rebinds). -/
def addAdj [Add A] (h : Heap V T A) (v : BV) (a : A) : Heap V T A :=
  Function.update h v { h v with adj := match (h v).adj with
    | none => some a
    | some a0 => some (a0 + a) }

/-- `BlockVariable.add_tlm_output` (`block_variable.py:30-34`). -/
def addTlm [Add T] (h : Heap V T A) (v : BV) (a : T) : Heap V T A :=
  Function.update h v { h v with tlm := match (h v).tlm with
    | none => some a
    | some a0 => some (a0 + a) }

/-- `BlockVariable.add_hessian_output` (`block_variable.py:36-40`). -/
def addHess [Add A] (h : Heap V T A) (v : BV) (a : A) : Heap V T A :=
  Function.update h v { h v with hess := match (h v).hess with
    | none => some a
    | some a0 => some (a0 + a) }

/-- `if adj_output is not None: dep.add_adj_output(adj_output)` (`block.py:143-145`). -/
def addAdj? [Add A] (h : Heap V T A) (v : BV) : Option A → Heap V T A
  | none => h
  | some a => addAdj h v a

/-- `if tlm_output is not None: out.add_tlm_output(tlm_output)` (`block.py:223-225`). -/
def addTlm? [Add T] (h : Heap V T A) (v : BV) : Option T → Heap V T A
  | none => h
  | some a => addTlm h v a

/-- `if hessian_output is not None: dep.add_hessian_output(hessian_output)` (`block.py:297-299`). -/
def addHess? [Add A] (h : Heap V T A) (v : BV) : Option A → Heap V T A
  | none => h
  | some a => addHess h v a

/-- The setter of `BlockVariable.checkpoint` (`block_variable.py:92-96`): ignored for controls. -/
def setCkpt (h : Heap V T A) (v : BV) (c : Option V) : Heap V T A :=
  if (h v).isControl then h else Function.update h v { h v with ckpt := c }

/-- `if output is not None: out.checkpoint = output` (`block.py:361-363`). -/
def setCkpt? (h : Heap V T A) (v : BV) : Option V → Heap V T A
  | none => h
  | some c => setCkpt h v (some c)

/-- Assignment to the private `_checkpoint`, as in `tape.py:451`. -/
def setCkptRaw (h : Heap V T A) (v : BV) (c : Option V) : Heap V T A :=
  Function.update h v { h v with ckpt := c }

/-- `BlockVariable.save_output` (`block_variable.py:52-55`), `_ad_create_checkpoint` returning the
value itself (`adjfloat.py:99-101`). -/
def saveOutput (h : Heap V T A) (v : BV) (overwrite : Bool) : Heap V T A :=
  if overwrite || (h v).ckpt.isNone then
    Function.update h v { h v with ckpt := some (h v).output }
  else h

/-- Which of the derivative fields `reset_variables` clears (`block_variable.py:42-50`). -/
inductive ResetType | adjoint | tlm | hessian
  deriving DecidableEq

/-- `BlockVariable.reset_variables` for one type (`block_variable.py:42-50`). -/
def Var.reset (x : Var V T A) : ResetType → Var V T A
  | .adjoint => { x with adj := none }
  | .tlm => { x with tlm := none }
  | .hessian => { x with hess := none }

/-- A block (`block.py:4-25`): dependencies, outputs, tag, and the component methods a
subclass overrides.  A component method gets the values of the inputs, the derivative values
flowing in, and the index of the component; returning `none` models returning `None`.
The results of the `prepare_*` hooks are functions of the same arguments and are
absorbed in the component functions (simplification; `Verif.Model.Hooks` has them apart).  `hessC` also gets the relevant dependencies
(index and tangent value), which is what `adjfloat.py:509-512` reads from `relevant_dependencies`. -/
structure Block (V T A : Type*) where
  deps : List BV
  outs : List BV
  tag : Option String := none
  recomputeC : List V → Nat → Option V
  adjC : List V → List (Option A) → Nat → Option A
  tlmC : List V → List (Option T) → Nat → Option T
  hessC : List V → List (Option A) → List (Option A) → Nat → List (Nat × Option T) → Option A

/-- The entries `(idx, bv)` of a list that a sweep works on:
`[(i, bv) for i, bv in enumerate(bvs) if bv.marked_in_path or not markings]`
(`block.py:130,211,281,351`), stored here as `(bv, i)`. -/
def relevant (h : Heap V T A) (markings : Bool) (bvs : List BV) : List (BV × Nat) :=
  bvs.zipIdx.filter fun p => (h p.1).marked || !markings

namespace Block

/-- `Block.reset_variables` (`block.py:89-99`) for one type. -/
def resetVariables (b : Block V T A) (t : ResetType) (h : Heap V T A) : Heap V T A :=
  (b.deps ++ b.outs).foldl (fun h v => Function.update h v ((h v).reset t)) h

/-- `Block.evaluate_adj` (`block.py:106-145`). -/
def evaluateAdj [Add A] (b : Block V T A) (markings : Bool) (h : Heap V T A) : Heap V T A :=
  let adjInputs := b.outs.map fun o => (h o).adj
  if adjInputs.all Option.isNone then h else
  let inputs := b.deps.map (saved h)
  let rel := relevant h markings b.deps
  if rel.isEmpty then h else
  rel.foldl (fun h p => addAdj? h p.1 (b.adjC inputs adjInputs p.2)) h

/-- `Block.evaluate_tlm` (`block.py:186-225`). -/
def evaluateTlm [Add T] (b : Block V T A) (markings : Bool) (h : Heap V T A) : Heap V T A :=
  let tlmInputs := b.deps.map fun d => (h d).tlm
  if tlmInputs.all Option.isNone then h else
  let inputs := b.deps.map (saved h)
  let rel := relevant h markings b.outs
  if rel.isEmpty then h else
  rel.foldl (fun h p => addTlm? h p.1 (b.tlmC inputs tlmInputs p.2)) h

/-- `Block.evaluate_hessian` (`block.py:266-299`). -/
def evaluateHessian [Add A] (b : Block V T A) (markings : Bool) (h : Heap V T A) : Heap V T A :=
  let hessInputs := b.outs.map fun o => (h o).hess
  let adjInputs := b.outs.map fun o => (h o).adj
  if hessInputs.all Option.isNone then h else
  let inputs := b.deps.map (saved h)
  let rel := relevant h markings b.deps
  if rel.isEmpty then h else
  rel.foldl (fun h' p => addHess? h' p.1
    (b.hessC inputs hessInputs adjInputs p.2 (rel.map fun q => (q.2, (h q.1).tlm)))) h

/-- `Block.recompute` (`block.py:330-363`). -/
def recompute (b : Block V T A) (markings : Bool) (h : Heap V T A) : Heap V T A :=
  if b.outs.any fun o => (h o).isControl then h else
  let inputs := b.deps.map (saved h)
  let rel := relevant h markings b.outs
  if rel.isEmpty then h else
  rel.foldl (fun h p => setCkpt? h p.1 (b.recomputeC inputs p.2)) h

end Block

/-- The tape without timestep structure: `Tape.get_blocks()` (`tape.py:337-350`). -/
abbrev Blocks (V T A : Type*) := List (Block V T A)

/-- `Tape.evaluate_adj` without checkpoint manager (`tape.py:362-377`), `last_block = 0`. -/
def evaluateAdj [Add A] (bs : Blocks V T A) (markings : Bool) (h : Heap V T A) : Heap V T A :=
  bs.reverse.foldl (fun h b => b.evaluateAdj markings h) h

/-- `Tape.evaluate_tlm` (`tape.py:379-383`). -/
def evaluateTlm [Add T] (bs : Blocks V T A) (markings : Bool) (h : Heap V T A) : Heap V T A :=
  bs.foldl (fun h b => b.evaluateTlm markings h) h

/-- `Tape.evaluate_hessian` (`tape.py:385-389`). -/
def evaluateHessian [Add A] (bs : Blocks V T A) (markings : Bool) (h : Heap V T A) : Heap V T A :=
  bs.reverse.foldl (fun h b => b.evaluateHessian markings h) h

/-- `Tape.reset_variables` and variants (`tape.py:391-401`). -/
def resetVariables (bs : Blocks V T A) (t : ResetType) (h : Heap V T A) : Heap V T A :=
  bs.reverse.foldl (fun h b => b.resetVariables t h) h

/-- The replay loop of `ReducedFunctional.__call__` (`reduced_functional.py:236-244`). -/
def recompute (bs : Blocks V T A) (h : Heap V T A) : Heap V T A :=
  bs.foldl (fun h b => b.recompute false h) h

/-- `_find_relevant_nodes` (`tape.py:161-175`): the Python `set` as a list used for membership only. -/
def findRelevantNodes (bs : Blocks V T A) (controls : List BV) : List BV :=
  bs.foldl (fun nodes b =>
    if b.deps.any (· ∈ nodes) then nodes ++ b.outs else nodes) controls

/-- Setting a flag on every variable of a collection (`tape.py:525-526`, `528-529`). -/
def markAll (nodes : List BV) (m : Bool) (h : Heap V T A) : Heap V T A :=
  nodes.foldl (fun h v => Function.update h v { h v with marked := m }) h

/-- `Control.mark_as_control` / `unmark_as_control` for a list of controls
(`drivers.py:114-120`, `reduced_functional.py:270-276`, `control.py:113-117`). -/
def markControls (controls : List BV) (m : Bool) (h : Heap V T A) : Heap V T A :=
  controls.foldl (fun h v => Function.update h v { h v with isControl := m }) h

/-- `with tape.marked_nodes(controls): with marked_controls(controls): evaluate_adj(markings=True)`
(`drivers.py:27-30`) for a run without exceptions. -/
def markedAdjoint [Add A] (bs : Blocks V T A) (controls : List BV) (h : Heap V T A) : Heap V T A :=
  let nodes := findRelevantNodes bs controls
  let h := markControls controls true (markAll nodes true h)
  let h := evaluateAdj bs true h
  markAll nodes false (markControls controls false h)

/-- The state part of `compute_gradient` (`drivers.py:21-30`). -/
def computeGradientState [Add A] (bs : Blocks V T A) (J : BV) (controls : List BV) (adjValue : A)
    (h : Heap V T A) : Heap V T A :=
  let h := resetVariables bs .adjoint h
  let h := Function.update h J { h J with adj := some adjValue }
  markedAdjoint bs controls h

/-- `Control.get_derivative` (`control.py:48-52`): a missing adjoint value is reported as zero.
`_ad_convert_type` is the identity on values (`adjfloat.py:96-97`). -/
def getDerivative [Zero A] (h : Heap V T A) (c : BV) : A :=
  match (h c).adj with
  | none => 0
  | some a => a

/-- `Control.get_hessian` (`control.py:54-58`). -/
def getHessian [Zero A] (h : Heap V T A) (c : BV) : A :=
  match (h c).hess with
  | none => 0
  | some a => a

/-- `compute_gradient` (`drivers.py:5-33`), for a list of controls; returns the list of
derivatives and the new heap. -/
def computeGradient [Add A] [Zero A] (bs : Blocks V T A) (J : BV) (controls : List BV)
    (adjValue : A) (h : Heap V T A) : List A × Heap V T A :=
  let h := computeGradientState bs J controls adjValue h
  (controls.map (getDerivative h), h)

/-- `solve_adjoint` (`drivers.py:78-97`).  Line 94 assigns `J.adj_value`, an attribute of the
functional *object*; the block variable of `J` is not touched, so no seed enters the heap. -/
def solveAdjoint [Add A] (bs : Blocks V T A) (_J : BV) (_adjValue : A) (h : Heap V T A) :
    Heap V T A :=
  let h := resetVariables bs .adjoint h
  evaluateAdj bs false h

/-- What `solve_adjoint` documents (`drivers.py:78-91`): traverse the whole tape backwards from the
seed on `J`.  This is the unpruned reference sweep. -/
def fullAdjoint [Add A] (bs : Blocks V T A) (J : BV) (adjValue : A) (h : Heap V T A) :
    Heap V T A :=
  let h := resetVariables bs .adjoint h
  let h := Function.update h J { h J with adj := some adjValue }
  evaluateAdj bs false h

/-- Well-formedness of a recorded tape: outputs of a block are distinct and not inputs of it, and
no block produces a variable that the same or an earlier block used or produced.
`Verif.Props.Recording` proves that every recorded tape has this form.  (Not in the code: a property of tapes.) -/
structure WF (bs : Blocks V T A) : Prop where
  nodup : ∀ b ∈ bs, b.outs.Nodup
  self : ∀ b ∈ bs, ∀ d ∈ b.deps, d ∉ b.outs
  later : bs.Pairwise fun b b' => (∀ d ∈ b.deps, d ∉ b'.outs) ∧ (∀ o ∈ b.outs, o ∉ b'.outs)

/-- The variable occurs on the tape, as dependency or output of some block.
(Not in the code: a property of tapes; dependencies and outputs as in `block.py:59-87`.) -/
def OnTape (bs : Blocks V T A) (v : BV) : Prop := ∃ b ∈ bs, v ∈ b.deps ∨ v ∈ b.outs

end Pyadjoint
