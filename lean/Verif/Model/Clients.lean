import Verif.Model.TapeCopy

/-!
# Code that uses a reduced functional: optimisers, Taylor tests, loops of the user

A client evaluates and differentiates a reduced functional and decides from the answers what to do next.  The optimisation interfaces are of this form: each of
their callbacks calls `rf(x)` or `rf.derivative()` (`reduced_functional_numpy.py:30-82`, `optimization/optimization.py:35-93`, `optimization/tao_solver.py:347-360`).
Hessian actions are left out, since they do not work under checkpointing (C66).
-/

namespace Pyadjoint

variable {V T A R : Type*}

/-- A client, as the tree of its calls.  (Not in the code: stands for any code that calls a reduced functional.) -/
inductive Client (V A R : Type*)
  /-- Return `r`. -/
  | done (r : R)
  /-- `y = rf(xs)`, and go on with `next y`. -/
  | call (xs : List V) (next : V → Client V A R)
  /-- `d = rf.derivative()`, and go on with `next d`. -/
  | derivative (next : List A → Client V A R)

namespace Client

/-- The client on a tape without checkpointing (`reduced_functional.py:112-160, 193-254`); the adjoint input, scaled, is `a`. -/
def plain [Add A] [Zero A] [Mul V] (bs : Blocks V T A) (J : BV) (cs : List BV) (scale : V) (a : A) : Client V A R → Heap V T A → R
  | .done r, _ => r
  | .call xs next, h => (next (saved (rfEval bs cs xs h) J * scale)).plain bs J cs scale a (rfEval bs cs xs h)
  | .derivative next, h => (next (computeGradient bs J cs a h).1).plain bs J cs scale a (computeGradient bs J cs a h).2

/-- The client on a tape with checkpointing (`reduced_functional.py:112-160, 193-254`, `checkpointing.py:239-291`); an exception ends it. -/
def checkpointed [Add A] [Zero A] [Mul V] (truthy : V → Bool) (J : BV) (cs : List BV) (scale : V) (a : A) :
    Client V A R → CTape V T A → Except CkptError R
  | .done r, _ => .ok r
  | .call xs next, τ =>
    match CTape.rfCall truthy J cs scale xs τ with
    | .error e => .error e
    | .ok (y, τ) => (next y).checkpointed truthy J cs scale a τ
  | .derivative next, τ =>
    match CTape.rfDerivative J cs a τ with
    | .error e => .error e
    | .ok (ds, τ) => (next ds).checkpointed truthy J cs scale a τ

/-- The client with a reduced functional on `tape.copy()` (`tape.py:403-414`). -/
def onCopy [Add A] [Zero A] [Mul V] (J : BV) (cs : List BV) (scale : V) (a : A) : Client V A R → CTape V T A → R
  | .done r, _ => r
  | .call xs next, τ => (next (τ.copyCall J cs scale xs).1).onCopy J cs scale a (τ.copyCall J cs scale xs).2
  | .derivative next, τ => (next (τ.copyDerivative J cs a).1).onCopy J cs scale a (τ.copyDerivative J cs a).2

end Client
end Pyadjoint
