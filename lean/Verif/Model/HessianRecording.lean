import Verif.Model.SweepRecording

/-!
# Model: what Hessian sweeps by hand record

`tape.evaluate_hessian()` called outside of the drivers (as in `drivers.py:63-70`, after sweeps by hand), with annotation on.  `Block.evaluate_hessian` is decorated with
`no_annotations` (`block.py:266`); `PowBlock.evaluate_hessian` (`adjfloat.py:389-431`) overrides it without, and subtracts from the exponent up to four times.
-/

namespace Pyadjoint.HandRec

/-- `exponent_value - c` for the saved value of `e`, recorded if it is an `AdjFloat` and annotation is on (`adjfloat.py:25-44`; `World.minusOne` with any number). -/
noncomputable def World.minus (s : World) (e : BV) (c : ℝ) : World :=
  match s.annotate, s.holds e with
  | true, some w =>
    { s with
      tape := s.tape ++ [.bin .sub w s.next (s.next + 1)]
      heap := Function.update (Function.update s.heap s.next { output := c }) (s.next + 1) { output := saved s.heap e - c }
      next := s.next + 2
      holds := Function.update (Function.update s.holds s.next (some s.next)) (s.next + 1) (some (s.next + 1)) }
  | _, _ => s

/-- What `PowBlock.evaluate_hessian` (`adjfloat.py:389-431`) records: nothing without a Hessian value of the output (`393-394`), two differences for the second derivative in a
base with a tangent (`405-406`), one for the first derivative (`410`) and one for the mixed derivative (`426`). -/
noncomputable def World.powHessian (s : World) (a e o : BV) : World :=
  if (s.heap o).hess.isNone then s else
  let s := if (s.heap a).tlm.isSome then (s.minus e 1).minus e 2 else s
  (s.minus e 1).minus e 1

/-- `block.evaluate_hessian()` (`block.py:266-299`, `adjfloat.py:389-431` for powers).  Simplifications: tangents, adjoints and Hessian values are Python floats, as in `World.block`;
and what has been recorded when an exception is raised is left out. -/
noncomputable def World.hblock (s : World) (b : FBlock) : Except FBlock.PyErr World :=
  let s := match b with
    | .bin .pow a e o => s.powHessian a e o
    | _ => s
  (b.evaluateHessian false s.heap).map fun h => { s with heap := h }

/-- `tape.evaluate_hessian()` (`tape.py:385-389`): `range(len(self._blocks) - 1, -1, -1)` is fixed when the loop starts. -/
noncomputable def World.sweepHessian (s : World) : Except FBlock.PyErr World := s.tape.reverse.foldlM World.hblock s

/-- The calls of a program that computes derivatives of any kind by hand. -/
inductive HOp
  /-- One of the calls for tangents. -/
  | tangent (op : Op)
  /-- `v.block_variable.adj_value = a` (`pyadjoint_docs.rst:409`) -/
  | setAdj (v : BV) (a : Option ℝ)
  /-- `v.block_variable.hessian_value = a` (`drivers.py:67`) -/
  | setHess (v : BV) (a : Option ℝ)
  /-- `tape.evaluate_adj()` (`tape.py:362-377`), which records nothing (`block.py:106`) -/
  | sweepAdj
  /-- `tape.evaluate_hessian()` (`tape.py:385-389`) -/
  | sweepHessian
  /-- `tape.reset_variables()`, `tape.reset_hessian_values()`, `tape.reset_tlm_values()` (`tape.py:391-401`) -/
  | reset (t : ResetType)

/-- One call (`tape.py:362-401`). -/
noncomputable def HOp.run : HOp → World → Except FBlock.PyErr World
  | .tangent op, s => .ok (op.run s)
  | .setAdj v a, s => .ok { s with heap := Function.update s.heap v { s.heap v with adj := a } }
  | .setHess v a, s => .ok { s with heap := Function.update s.heap v { s.heap v with hess := a } }
  | .sweepAdj, s => .ok { s with heap := evaluateAdj s.tape.blocks false s.heap }
  | .sweepHessian, s => s.sweepHessian
  | .reset t, s => .ok { s with heap := resetVariables s.tape.blocks t s.heap }

/-- A sequence of calls (`tape.py:362-401`); an exception ends it. -/
noncomputable def hrun (ops : List HOp) (s : World) : Except FBlock.PyErr World := ops.foldlM (fun s op => op.run s) s

end Pyadjoint.HandRec
