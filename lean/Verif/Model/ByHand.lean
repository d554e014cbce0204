import Verif.Model.Float
import Verif.Model.Reduced

/-!
# Model: sweeps driven by hand

`docs/source/documentation/pyadjoint_docs.rst:397-414` tells users how to compute derivatives without the drivers: put a
value into `adj_value` (`tlm_value`) of a block variable, call `tape.evaluate_adj()` (`tape.evaluate_tlm()`), read
`adj_value` (`tlm_value`) of another.  This file has the calls such a program makes, on a tape of `AdjFloat` operations.
-/

namespace Pyadjoint.Hand

/-- `Tape.evaluate_adj(last_block)` without checkpoint manager (`tape.py:362-377`): the blocks with indices from
`len(blocks) - 1` down to `last_block`.  Simplification: `last_block` is not negative (a negative one would make
`self._blocks[i]` count from the end). -/
def evaluateAdjFrom {V T A : Type*} [Add A] (bs : Blocks V T A) (last : Nat) (h : Heap V T A) : Heap V T A :=
  (bs.drop last).reverse.foldl (fun h b => b.evaluateAdj false h) h

/-- The calls (`pyadjoint_docs.rst:397-414`, and the drivers, which may be mixed in). -/
inductive Op
  /-- `v.block_variable.adj_value = a` -/
  | setAdj (v : BV) (a : Option ℝ)
  /-- `v.block_variable.tlm_value = a` -/
  | setTlm (v : BV) (a : Option ℝ)
  /-- `tape.evaluate_adj(last_block)` -/
  | sweepAdj (last : Nat)
  /-- `tape.evaluate_tlm()` -/
  | sweepTlm
  /-- `tape.reset_variables()` -/
  | resetAdj
  /-- `tape.reset_tlm_values()` -/
  | resetTlm
  /-- `compute_gradient(J, controls, adj_value)` -/
  | gradient (J : BV) (cs : List BV) (seed : ℝ)
  /-- `rf(values)` for a reduced functional with the given controls -/
  | evaluate (cs : List BV) (xs : List ℝ)

/-- One call (`block_variable.py:6-13` for the attributes, `tape.py:362-401`, `drivers.py:5-33`,
`reduced_functional.py:223-263`). -/
noncomputable def Op.run (t : FTape) : Op → FHeap → FHeap
  | .setAdj v a, h => Function.update h v { h v with adj := a }
  | .setTlm v a, h => Function.update h v { h v with tlm := a }
  | .sweepAdj last, h => evaluateAdjFrom t.blocks last h
  | .sweepTlm, h => t.evaluateTlm false h
  | .resetAdj, h => resetVariables t.blocks .adjoint h
  | .resetTlm, h => resetVariables t.blocks .tlm h
  | .gradient J cs seed, h => (computeGradient t.blocks J cs seed h).2
  | .evaluate cs xs, h => rfEval t.blocks cs xs h

/-- A sequence of calls, of any of the functions cited at `Op.run` (`tape.py:362-401`). -/
noncomputable def run (t : FTape) (ops : List Op) (h : FHeap) : FHeap :=
  ops.foldl (fun h op => op.run t h) h

end Pyadjoint.Hand
