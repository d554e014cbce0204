import Verif.Model.Float
import Verif.Model.Reduced

/-!
# Model: what tangent sweeps by hand record

`tape.evaluate_tlm()` as `docs/source/documentation/pyadjoint_docs.rst:397-404` documents it is called outside of the drivers, with annotation on.
`Block.evaluate_tlm` is decorated with `no_annotations` (`block.py:186`); `PowBlock.evaluate_tlm` (`adjfloat.py:369-387`), which overrides it, is
not, and computes `exponent_value - 1`, an annotated operation if `exponent_value` is an `AdjFloat`.  `Verif.Model.ByHand` leaves this out.
-/

namespace Pyadjoint.HandRec

/-- The working tape, the block variables, the first unused variable, the annotation flag (`tape.py:13`, `tape.py:20-30`), and for every variable the
block variable of the object that is its saved value (`block_variable.py:57-62`): `none` for a plain Python number.  Simplification: that variable exists already. -/
structure World where
  tape : FTape
  heap : FHeap
  next : BV
  annotate : Bool := true
  holds : BV → Option BV := some

/-- `exponent_value - 1` for the saved value of `e` (`adjfloat.py:25-44`, `adjfloat.py:379-380`): the operand `1` becomes an `AdjFloat` with a variable of its own, and
the difference is recorded.  Simplification: without checkpointing, so that nothing is saved (`block_variable.py:64-71`). -/
noncomputable def World.minusOne (s : World) (e : BV) : World :=
  match s.annotate, s.holds e with
  | true, some w =>
    { s with
      tape := s.tape ++ [.bin .sub w s.next (s.next + 1)]
      heap := Function.update (Function.update s.heap s.next { output := 1 }) (s.next + 1) { output := saved s.heap e - 1 }
      next := s.next + 2
      holds := Function.update (Function.update s.holds s.next (some s.next)) (s.next + 1) (some (s.next + 1)) }
  | _, _ => s

/-- `block.evaluate_tlm()` (`block.py:186-225`, `adjfloat.py:369-387` for powers, `467-474`, `535-549`).  Simplification: the tangents are Python floats (with
`AdjFloat`s as directions the sums in `add_tlm_output`, `block_variable.py:30-34`, are recorded as well where the method is not decorated). -/
noncomputable def World.block (s : World) (b : FBlock) : World :=
  let s := match b with
    | .bin .pow a e _ => if (s.heap a).tlm.isSome then s.minusOne e else s
    | _ => s
  { s with heap := b.evaluateTlm false s.heap }

/-- `tape.evaluate_tlm()` (`tape.py:379-383`): `range(len(self._blocks))` is fixed when the loop starts. -/
noncomputable def World.sweep (s : World) : World := s.tape.foldl World.block s

/-- The calls of a program that computes tangents by hand. -/
inductive Op
  /-- `v.block_variable.tlm_value = d` (`pyadjoint_docs.rst:401`) -/
  | setTlm (v : BV) (d : Option ℝ)
  /-- `tape.evaluate_tlm()` (`tape.py:379-383`) -/
  | sweep
  /-- `tape.reset_tlm_values()` (`tape.py:399-401`) -/
  | reset
  /-- `pause_annotation()`, `continue_annotation()` (`tape.py:20-30`) -/
  | annotation (on : Bool)

/-- One call (`tape.py:379-401`, `tape.py:20-30`). -/
noncomputable def Op.run : Op → World → World
  | .setTlm v d, s => { s with heap := Function.update s.heap v { s.heap v with tlm := d } }
  | .sweep, s => s.sweep
  | .reset, s => { s with heap := resetVariables s.tape.blocks .tlm s.heap }
  | .annotation on, s => { s with annotate := on }

/-- A sequence of calls (`tape.py:379-401`, `tape.py:20-30`). -/
noncomputable def run (ops : List Op) (s : World) : World := ops.foldl (fun s op => op.run s) s

end Pyadjoint.HandRec
