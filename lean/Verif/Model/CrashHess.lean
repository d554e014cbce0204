import Verif.Model.Crash
import Verif.Model.Float

/-! A Hessian computation that dies with an exception. -/

namespace Pyadjoint

/-- `compute_hessian` (`drivers.py:55-65`) up to the start of the tangent sweep: values reset, directions
assigned, path marked. -/
noncomputable def FTape.tangentStart (t : FTape) (cs : List BV) (ds : List ℝ) (h : FHeap) : FHeap :=
  markAll (findRelevantNodes t.blocks cs) true
    (seedTlm cs ds (resetVariables t.blocks .hessian (resetVariables t.blocks .tlm h)))

/-- `compute_hessian` (`drivers.py:55-72`) up to the start of the Hessian sweep. -/
noncomputable def FTape.hessianStart (t : FTape) (J : BV) (cs : List BV) (ds : List ℝ) (h : FHeap) : FHeap :=
  let nodes := findRelevantNodes t.blocks cs
  let h := markAll nodes false (t.evaluateTlm true (t.tangentStart cs ds h))
  markAll nodes true (Function.update h J { h J with hess := some 0 })

/-- The states in which `compute_hessian` (`drivers.py:36-75`) may leave the tape when an exception is raised in one of
its two sweeps.  The generator `marked_nodes` has no `finally` (`tape.py:522-529`): the path markings stay.
Simplification: how far the block that raised had got is left open; it may have changed the tangent value of its output
(`block.py:186-225`, `adjfloat.py:369-387`, `467-474`, `535-551`), or the Hessian values of its
dependencies (`block.py:266-299`, `adjfloat.py:389-431`, `476-482`, `553-595`, `608-613`), in any way. -/
inductive FTape.CrashedHessian (t : FTape) (J : BV) (cs : List BV) (ds : List ℝ) (h : FHeap) : FHeap → Prop
  /-- Raised in block number `k` of the tangent sweep. -/
  | tangent (k : Nat) (b : FBlock) (x : Option ℝ) (g : FHeap) (hb : t[k]? = some b)
    (hg : FTape.evaluateTlm (t.take k) true (t.tangentStart cs ds h) = g) :
    CrashedHessian t J cs ds h (Function.update g b.out { g b.out with tlm := x })
  /-- Raised after `k` blocks of the Hessian sweep. -/
  | hessian (k : Nat) (b : FBlock) (xs : BV → Option ℝ) (g : FHeap) (hb : t.reverse[k]? = some b)
    (hg : FTape.evaluateHessian (t.reverse.take k).reverse true (t.hessianStart J cs ds h) = .ok g) :
    CrashedHessian t J cs ds h (fun v => if v ∈ b.deps then { g v with hess := xs v } else g v)

/-- The second of these as a function: the state if the Hessian sweep raises in block number `k` of the sweep, which leaves `junk` as Hessian
values of its dependencies (`drivers.py:70-72`).  Numbers `k` at which the sweep cannot be are read as its start. -/
noncomputable def FTape.failedHessian (t : FTape) (J : BV) (cs : List BV) (ds : List ℝ) (k : Nat) (junk : BV → Option ℝ) (h : FHeap) : FHeap :=
  match t.reverse[k]?, FTape.evaluateHessian (t.reverse.take k).reverse true (t.hessianStart J cs ds h) with
  | some b, .ok g => fun v => if v ∈ b.deps then { g v with hess := junk v } else g v
  | _, _ => t.hessianStart J cs ds h

end Pyadjoint
