import Verif.Model.Minimize

/-!
# A whole optimisation run

Models `minimize_scipy_generic`, `minimize_custom` (`optimization/optimization.py:36-170`), the rest of `minimize` and
`IPOPTSolver.solve`, with an arbitrary optimiser.  Options, printing, constraints and bounds are not part of this model (for the last
two see `Verif.Model.Constraints` and `Verif.Model.Bounds`).
-/

namespace Pyadjoint

/-- An optimisation algorithm as pyadjoint sees it: a program that calls the functions it was given and continues with what they
return.  Its arrays have the length of the initial guess.  (The optimiser is not in the code; it is called at `optimization.py:127-137`.) -/
inductive Algo (n : Nat)
  /-- Returns the optimum. -/
  | done (x : Fin n → ℝ)
  /-- Raises an exception. -/
  | fail
  /-- Calls `J(x)`. -/
  | value (x : Fin n → ℝ) (next : ℝ → Algo n)
  /-- Calls `dJ(x)`. -/
  | gradient (x : Fin n → ℝ) (next : List ℝ → Algo n)
  /-- Calls `H(x, d)`. -/
  | hessian (x d : Fin n → ℝ) (next : List ℝ → Algo n)

/-- An exception of pyadjoint's functions, or one of the optimiser itself.  (Exceptions that pass through `optimization.py:36-137`.) -/
inductive OptErr | api (e : ApiErr) | optimizer
  deriving DecidableEq

/-- The optimiser runs with `J = rf_np.__call__`, `dJ = lambda m: rf_np.derivative(m, …)`, `H = rf_np.hessian`
(`optimization.py:60-64`, `151-155`; `ipopt_solver.py:45-46`). -/
noncomputable def Algo.run {n : Nat} (f : NpRF ℝ) (codecs : List (Codec ℝ ℝ)) (t w : FTape) :
    Algo n → FHeap → Except OptErr ((Fin n → ℝ) × FHeap)
  | .done x, h => .ok (x, h)
  | .fail, _ => .error .optimizer
  | .value x next, h =>
    match f.call codecs t.blocks (List.ofFn x) h with
    | .error e => .error (.api e)
    | .ok (y, h) => (next y).run f codecs t w h
  | .gradient x next, h =>
    match f.derivative codecs t.blocks (some (List.ofFn x)) h with
    | (.error e, _) => .error (.api e)
    | (.ok g, h) => (next g).run f codecs t w h
  | .hessian x d next, h =>
    match f.hessian codecs t w (some (List.ofFn x)) (List.ofFn d) h with
    | .error e => .error (.api e)
    | .ok (g, h) => (next g).run f codecs t w h

/-- `if len(opt) == 1: return opt[0]` (`optimization.py:252-255`), whatever the controls were given as. -/
def onlyOne {α : Type*} : List α → Ret α
  | [a] => .one a
  | l => .many l

/-- `minimize` (`optimization.py:199-255`) with `minimize_scipy_generic` or `minimize_custom`: start from the tape's control values
(lines 60-61, 149-150), run the optimiser, write its result to the controls (lines 136, 163).  `algo` is the optimiser as a
function of the initial guess. -/
noncomputable def minimizeRun {n : Nat} (o : Objective ℝ) (scale : ℝ) (codecs : List (Codec ℝ ℝ)) (t w : FTape)
    (algo : List ℝ → Algo n) (h : FHeap) : Except OptErr (Ret ℝ × FHeap) :=
  let f := (minimizeObjective o scale).1
  match (algo (f.getControls codecs h)).run f codecs t w h with
  | .error e => .error e
  | .ok (x, h) =>
    match f.setControls codecs (List.ofFn x) h with
    | .error e => .error (.api e)
    | .ok (m, h) => .ok (onlyOne m, h)

/-- `IPOPTSolver.solve` (`ipopt_solver.py:196-203`): the result is laid out in copies of the controls, which are returned; the tape's
controls are left as they are. -/
noncomputable def ipoptRun {n : Nat} (f : NpRF ℝ) (codecs : List (Codec ℝ ℝ)) (t w : FTape)
    (algo : List ℝ → Algo n) (h : FHeap) : Except OptErr (Ret ℝ × FHeap) :=
  match (algo (f.getControls codecs h)).run f codecs t w h with
  | .error e => .error e
  | .ok (x, h) =>
    match setLocal (List.ofFn x) codecs 0 with
    | none => .error (.api .typeError)
    | some m =>
      match f.rf.enlisted.delist m with
      | .error e => .error (.api e)
      | .ok r => .ok (r, h)

end Pyadjoint
