import Verif.Model.Reduced
import Verif.Model.SecondOrder

/-!
# Placeholders

Models `pyadjoint/placeholder.py` and the sweeps of `pyadjoint/block.py`, `pyadjoint/tape.py` and
`pyadjoint/reduced_functional.py` on tapes with placeholders.

A `Placeholder` is a `BlockVariable` whose `saved_output` is that of another block variable, and
whose `save_output`, `will_add_as_dependency` and `will_add_as_output` do nothing; all other fields are its own.
-/

namespace Pyadjoint
namespace Ph

variable {V T A : Type*}

/-- What a `Placeholder` holds (`placeholder.py:28-32`): the block variable the object had before, and the linked one. -/
structure Place where
  original : BV
  linked : Option BV := none

/-- Which block variables are placeholders.  `placeholder.py:5-31`. -/
abbrev Places := BV → Option Place

/-- `Placeholder.set_value` (`placeholder.py:34-35`); `b` is `value.block_variable`. -/
def setValue (pl : Places) (p b : BV) : Places :=
  Function.update pl p ((pl p).map fun q => { q with linked := some b })

/-- The block variable `saved_output` asks next (`placeholder.py:41-46`). -/
def Place.next (q : Place) : BV := q.linked.getD q.original

/-- The block variable whose own value `saved_output` returns, following placeholders at most `fuel` times; `none`: the
recursion limit is reached (`RecursionError`).  `placeholder.py:40-45`. -/
def resolve (pl : Places) : Nat → BV → Option BV
  | 0, v => match pl v with
    | none => some v
    | some _ => none
  | n + 1, v => match pl v with
    | none => some v
    | some q => resolve pl n q.next

/-- `res` is what `resolve` gives, for a recursion limit `n`, on every variable.
(Not in the code: the specification of `placeholder.py:40-45` with a recursion limit.) -/
def Resolves (pl : Places) (n : Nat) (res : BV → BV) : Prop := ∀ v, resolve pl n v = some (res v)

/-- `Block.recompute` (`block.py:330-363`), the inputs read through placeholders. -/
def Block.recompute (res : BV → BV) (b : Block V T A) (markings : Bool) (h : Heap V T A) : Heap V T A :=
  if b.outs.any fun o => (h o).isControl then h else
  let inputs := b.deps.map fun d => saved h (res d)
  let rel := relevant h markings b.outs
  if rel.isEmpty then h else
  rel.foldl (fun h p => setCkpt? h p.1 (b.recomputeC inputs p.2)) h

/-- `Block.evaluate_adj` (`block.py:106-145`), the inputs read through placeholders. -/
def Block.evaluateAdj [Add A] (res : BV → BV) (b : Block V T A) (markings : Bool) (h : Heap V T A) : Heap V T A :=
  let adjInputs := b.outs.map fun o => (h o).adj
  if adjInputs.all Option.isNone then h else
  let inputs := b.deps.map fun d => saved h (res d)
  let rel := relevant h markings b.deps
  if rel.isEmpty then h else
  rel.foldl (fun h p => addAdj? h p.1 (b.adjC inputs adjInputs p.2)) h

/-- `Block.evaluate_tlm` (`block.py:186-225`), the inputs read through placeholders. -/
def Block.evaluateTlm [Add T] (res : BV → BV) (b : Block V T A) (markings : Bool) (h : Heap V T A) : Heap V T A :=
  let tlmInputs := b.deps.map fun d => (h d).tlm
  if tlmInputs.all Option.isNone then h else
  let inputs := b.deps.map fun d => saved h (res d)
  let rel := relevant h markings b.outs
  if rel.isEmpty then h else
  rel.foldl (fun h p => addTlm? h p.1 (b.tlmC inputs tlmInputs p.2)) h

/-- `Block.evaluate_hessian` (`block.py:266-299`), the inputs read through placeholders. -/
def Block.evaluateHessian [Add A] (res : BV → BV) (b : Block V T A) (markings : Bool) (h : Heap V T A) : Heap V T A :=
  let hessInputs := b.outs.map fun o => (h o).hess
  let adjInputs := b.outs.map fun o => (h o).adj
  if hessInputs.all Option.isNone then h else
  let inputs := b.deps.map fun d => saved h (res d)
  let rel := relevant h markings b.deps
  if rel.isEmpty then h else
  rel.foldl (fun h' p => addHess? h' p.1
    (b.hessC inputs hessInputs adjInputs p.2 (rel.map fun q => (q.2, (h q.1).tlm)))) h

/-- The replay loop (`reduced_functional.py:236-244`). -/
def recompute (res : BV → BV) (bs : Blocks V T A) (h : Heap V T A) : Heap V T A :=
  bs.foldl (fun h b => Block.recompute res b false h) h

/-- `Tape.evaluate_adj` (`tape.py:362-377`). -/
def evaluateAdj [Add A] (res : BV → BV) (bs : Blocks V T A) (markings : Bool) (h : Heap V T A) : Heap V T A :=
  bs.reverse.foldl (fun h b => Block.evaluateAdj res b markings h) h

/-- `Tape.evaluate_tlm` (`tape.py:379-383`). -/
def evaluateTlm [Add T] (res : BV → BV) (bs : Blocks V T A) (markings : Bool) (h : Heap V T A) : Heap V T A :=
  bs.foldl (fun h b => Block.evaluateTlm res b markings h) h

/-- `Tape.evaluate_hessian` (`tape.py:385-389`). -/
def evaluateHessian [Add A] (res : BV → BV) (bs : Blocks V T A) (markings : Bool) (h : Heap V T A) : Heap V T A :=
  bs.reverse.foldl (fun h b => Block.evaluateHessian res b markings h) h

/-- The state part of `ReducedFunctional.__call__` (`reduced_functional.py:230-244`). -/
def rfEval (res : BV → BV) (bs : Blocks V T A) (cs : List BV) (xs : List V) (h : Heap V T A) : Heap V T A :=
  let h := updateControls cs xs h
  let h := markControls cs true h
  let h := recompute res bs h
  markControls cs false h

/-- `compute_gradient` (`drivers.py:5-33`). -/
def computeGradient [Add A] [Zero A] (res : BV → BV) (bs : Blocks V T A) (J : BV) (controls : List BV)
    (adjValue : A) (h : Heap V T A) : List A × Heap V T A :=
  let h := resetVariables bs .adjoint h
  let h := Function.update h J { h J with adj := some adjValue }
  let nodes := findRelevantNodes bs controls
  let h := markControls controls true (markAll nodes true h)
  let h := evaluateAdj res bs true h
  let h := markAll nodes false (markControls controls false h)
  (controls.map (getDerivative h), h)

/-- `compute_hessian` (`drivers.py:36-75`); see `computeHessianOf` in `Verif.Model.SecondOrder`. -/
def computeHessian [Add T] [Add A] [Zero A] (res : BV → BV) (bs : Blocks V T A) (J : BV) (cs : List BV) (ds : List T)
    (h : Heap V T A) : List A × Heap V T A :=
  let h := resetVariables bs .tlm h
  let h := resetVariables bs .hessian h
  let h := seedTlm cs ds h
  let nodes := findRelevantNodes bs cs
  let h := markAll nodes false (evaluateTlm res bs true (markAll nodes true h))
  let h := Function.update h J { h J with hess := some 0 }
  let h := markAll nodes false (evaluateHessian res bs true (markAll nodes true h))
  (cs.map (getHessian h), h)

end Ph
end Pyadjoint
