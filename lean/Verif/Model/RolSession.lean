import Verif.Model.Rol
import Verif.Model.SecondOrder

/-!
# What ROL asks of the objective, and what it is told

The methods of `ROLObjective` (`pyadjoint/optimization/rol_solver.py:19-63`) that ROL and `ROLSolver.checkGradient` call, in any order.  The point `x`
that `value`, `gradient` and `hessVec` are given is only asked for its `inner_product`; Riesz maps are left out.
-/

namespace Pyadjoint
namespace Rol

variable {V T A : Type*}

/-- A call: `value(x, tol)`, `update(x, flag, iteration)`, `gradient(g, x, tol)`, `hessVec(hv, v, x, tol)`; `x` is left out where it is not used.
`rol_solver.py:19-63`. -/
inductive Call (V T : Type*)
  | value
  | update (flag : Flag) (x : List V)
  | gradient
  | hessVec (v : List T)

/-- What a call tells ROL: the value returned, or the new `dat` of the vector `g` or `hv`.  `rol_solver.py:20, 25, 30`. -/
inductive Report (V A : Type*)
  | nothing
  | value (y : Option V)
  | vector (g : List A)

/-- `gradient` (`rol_solver.py:22-25`): `rf.derivative()`, which starts from `seed`, the scale of `rf` (`reduced_functional.py:112-160`); `Enlist` of
what it returns is the list of derivatives. -/
def gradient [Add A] [Zero A] (bs : Blocks V T A) (J : BV) (cs : List BV) (seed : A) (h : Heap V T A) : List A × Heap V T A :=
  computeGradient bs J cs seed h

/-- `hessVec` (`rol_solver.py:27-30`): `rf.hessian(v.dat)` (`reduced_functional.py:163-191`). -/
def hessVec [Add T] [Add A] [Zero A] (bs : Blocks V T A) (J : BV) (cs : List BV) (v : List T) (h : Heap V T A) : List A × Heap V T A :=
  computeHessianOf bs J cs v h

/-- One call.  `none` is an exception, see `update`.  `rol_solver.py:19-63`. -/
def Call.run [Mul V] [Add T] [Add A] [Zero A] (bs : Blocks V T A) (J : BV) (cs : List BV) (scale : V) (seed : A) (o : Obj V) (h : Heap V T A) :
    Call V T → Option (Report V A × Obj V × Heap V T A)
  | .value => some (.value o.val, o, h)
  | .update flag x => (Rol.update bs J cs scale flag x o h).map fun r => (.nothing, r)
  | .gradient => some (.vector (Rol.gradient bs J cs seed h).1, o, (Rol.gradient bs J cs seed h).2)
  | .hessVec v => some (.vector (Rol.hessVec bs J cs v h).1, o, (Rol.hessVec bs J cs v h).2)

/-- Any number of calls; what they told.  (The solver's program, not in the code.) -/
def session [Mul V] [Add T] [Add A] [Zero A] (bs : Blocks V T A) (J : BV) (cs : List BV) (scale : V) (seed : A) :
    List (Call V T) → Obj V → Heap V T A → Option (List (Report V A))
  | [], _, _ => some []
  | c :: l, o, h =>
    match c.run bs J cs scale seed o h with
    | none => none
    | some (r, o, h) => (session bs J cs scale seed l o h).map (r :: ·)

/-- What `ROLSolver.checkGradient` calls before it hands over to ROL's own check (`rol_solver.py:251-257`): `update(x, None, None)`, which is not an
`UpdateType`, and `gradient`. -/
def checkGradientCalls (x : List V) : List (Call V T) := [.update .other x, .gradient]

end Rol
end Pyadjoint
