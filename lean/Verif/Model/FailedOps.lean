import Verif.Model.Float
import Verif.Model.Reduced

/-!
# Operations that raise while they are being recorded

`exp` and `log` (`adjfloat.py:145-179`) put their block on the tape before they compute the value (lines 151-154, 170-173).  If the
computation raises (`OverflowError`, `ValueError`), the block stays on the tape, without output.
-/

namespace Pyadjoint

/-- What is on a tape: a completed operation, or the block of one that raised, with its dependency.
Entries of `Tape._blocks` (`tape.py:192, 269-276`); the block is added before the operation is done (`adjfloat.py:152, 155`). -/
inductive TapeEntry
  | op (b : FBlock)
  | failed (u : UOp) (a : BV)

/-- The block of an entry.  `ExpBlock` and `LogBlock` inherit all sweeps from `Block` (`adjfloat.py:182-229`). -/
noncomputable def TapeEntry.toBlock : TapeEntry → Block ℝ ℝ ℝ
  | .op b => b.toBlock
  | .failed u a => { (FBlock.un u a a).toBlock with outs := [] }

/-- `evaluate_tlm` of an entry (`block.py:186-225` and the overriding methods, see `FBlock.evaluateTlm`). -/
noncomputable def TapeEntry.evaluateTlm (e : TapeEntry) (markings : Bool) (h : FHeap) : FHeap :=
  match e with
  | .op b => b.evaluateTlm markings h
  | .failed u a => (TapeEntry.failed u a).toBlock.evaluateTlm markings h

/-- `evaluate_hessian` of an entry (`block.py:266-299` and the overriding methods, see `FBlock.evaluateHessian`). -/
noncomputable def TapeEntry.evaluateHessian (e : TapeEntry) (markings : Bool) (h : FHeap) : Except FBlock.PyErr FHeap :=
  match e with
  | .op b => b.evaluateHessian markings h
  | .failed u a => .ok ((TapeEntry.failed u a).toBlock.evaluateHessian markings h)

/-- A tape on which some operations raised.  `Tape._blocks` (`tape.py:192`). -/
abbrev ETape := List TapeEntry

/-- The tape as a list of blocks (`tape.py:337-350`). -/
noncomputable def ETape.blocks (t : ETape) : Blocks ℝ ℝ ℝ := t.map TapeEntry.toBlock

/-- `Tape.evaluate_tlm` (`tape.py:379-383`). -/
noncomputable def ETape.evaluateTlm (t : ETape) (markings : Bool) (h : FHeap) : FHeap :=
  t.foldl (fun h b => b.evaluateTlm markings h) h

/-- `Tape.evaluate_hessian` (`tape.py:385-389`). -/
noncomputable def ETape.evaluateHessian (t : ETape) (markings : Bool) (h : FHeap) : Except FBlock.PyErr FHeap :=
  t.reverse.foldlM (fun h b => b.evaluateHessian markings h) h

/-- `compute_hessian` (`drivers.py:36-75`) on such a tape. -/
noncomputable def ETape.computeHessian (t : ETape) (J : BV) (cs : List BV) (ds : List ℝ) (h : FHeap) :
    Except FBlock.PyErr (List ℝ × FHeap) :=
  let h := resetVariables t.blocks .tlm h
  let h := resetVariables t.blocks .hessian h
  let h := seedTlm cs ds h
  let nodes := findRelevantNodes t.blocks cs
  let h := markAll nodes false (t.evaluateTlm true (markAll nodes true h))
  let h := Function.update h J { h J with hess := some 0 }
  match t.evaluateHessian true (markAll nodes true h) with
  | .error e => .error e
  | .ok h =>
    let h := markAll nodes false h
    .ok (cs.map (getHessian h), h)

/-- `exp(a)` or `log(a)` raises (`adjfloat.py:145-160`, `163-176`): the argument's value is saved by `add_dependency`
(`block.py:43-57`, `overloaded_type.py:273-277`), the block is on the tape. -/
noncomputable def ETape.recordFailed (t : ETape) (u : UOp) (a : BV) (h : FHeap) : ETape × FHeap :=
  (t ++ [.failed u a], Function.update h a { h a with ckpt := some ((h a).ckpt.getD (h a).output) })

end Pyadjoint
