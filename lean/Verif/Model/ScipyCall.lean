import Mathlib.Logic.Function.Basic
import Verif.Model.Bounds

/-!
# What `minimize` hands to the optimiser

Models `minimize` (`optimization/optimization.py:223-255`), `minimize_scipy_generic` (`36-137`) and `minimize_custom` (`140-169`) up to the call of the optimiser:
keyword arguments, options and dictionaries of the caller.  The functional is in `Verif.Model.Minimize`, the run of the optimiser in `Verif.Model.Optimizer`, the
dictionaries for constraints in `Verif.Model.Constraints`.
-/

namespace Pyadjoint

/-- The function `dJ` made in `optimization.py:63` and `153`: the values of `forget`, `project` and `options` it passes to `rf_np.derivative`.
`minimize_custom` passes no `project`. -/
structure GradFn (X : Type*) where
  forget : Option Bool
  project : Option X
  options : Option X
  deriving DecidableEq

/-- A value of a keyword argument.  `obj` is any object of the caller that the code does not look into; `dict` is a reference to a dictionary.
(What `optimization.py:36-170` distinguishes.) -/
inductive PyVal (E : Type*)
  | none
  | true
  | int (n : Nat)
  | obj (n : Nat)
  | dict (r : Nat)
  | bounds (b : BoundsArg E)
  | array (rows : List (Option E × Option E))
  | scipyConstraints (n : Nat)
  | dJ (g : GradFn (PyVal E))
  | H

/-- A Python dictionary with string keys.  (Data structure of `optimization.py:65-137`.) -/
abbrev PyDict (E : Type*) := String → Option (PyVal E)

/-- The dictionaries that exist, by reference.  (Python objects; not in the code.) -/
abbrev Dicts (E : Type*) := Nat → PyDict E

/-- Exceptions of `optimization.py:36-255`. -/
inductive ScipyErr | keyError | typeError | bounds (e : BoundsErr)
  deriving DecidableEq

/-- The call of the optimiser: `scipy.optimize.minimize`, `scipy.optimize.basinhopping`, or the caller's own function with the arguments `J, m_global, dJ, H, bounds`
(`optimization.py:127-134`, `158`).  `J` and the initial guess are the same for all (`Verif.Model.Optimizer`). -/
inductive OptCall (E : Type*)
  | minimize (method : String) (bounds : Option (List (Option E × Option E))) (kwargs : PyDict E)
  | basinhopping (kwargs : PyDict E)
  | custom (algorithm : PyVal E) (g : GradFn (PyVal E)) (bounds : Option (List (Option E × Option E))) (kwargs : PyDict E)

variable {E : Type*}

/-- The bounds in a value: those of the caller, or an array made by `serialise_bounds`, whose rows NumPy gives back as pairs of floats
(`optimization.py:8-33`; the array of integers NumPy makes if all bounds are `int`s is not distinguished). -/
def PyVal.toBounds : PyVal E → Option (BoundsArg E)
  | .bounds b => some b
  | .array rows => some (.nested (rows.map fun p => [p.1.elim .none .float, p.2.elim .none .float]))
  | _ => Option.none

/-- `serialise_bounds` of a value (`optimization.py:8-33`).  Other objects have no `len`. -/
def PyVal.serialise (sizes : List Nat) (v : PyVal E) : Except ScipyErr (List (Option E × Option E)) :=
  match v.toBounds with
  | Option.none => .error .typeError
  | some b => match serialiseBounds sizes b with
    | .error e => .error (.bounds e)
    | .ok r => .ok r

/-- The parameter `bounds=None` (`optimization.py:36, 130-132, 155-156`). -/
def boundsParam (sizes : List Nat) : Option (PyVal E) → Except ScipyErr (Option (List (Option E × Option E)))
  | Option.none | some .none => .ok Option.none
  | some v => match v.serialise sizes with
    | .error e => .error e
    | .ok r => .ok (some r)

/-- The options (`optimization.py:67-81`): a new dictionary at `fresh`, or the caller's with `disp` set; for SLSQP also `iprint`.  Returns the reference.
An object that is not a dictionary raises. -/
def scipyOptions (method : String) (kwargs : PyDict E) (fresh : Nat) (σ : Dicts E) : Except ScipyErr (Nat × Dicts E) :=
  let iprint (r : Nat) (σ : Dicts E) : Dicts E :=
    if method = "SLSQP" ∧ σ r "iprint" = Option.none then Function.update σ r (Function.update (σ r) "iprint" (some (.int 2))) else σ
  match kwargs "options" with
  | Option.none => .ok (fresh, iprint fresh (Function.update σ fresh fun _ => Option.none))
  | some (.dict r) =>
    let σ := if σ r "disp" = Option.none then Function.update σ r (Function.update (σ r) "disp" (some .true)) else σ
    .ok (r, iprint r σ)
  | some _ => .error .typeError

/-- `kwargs["constraints"]` (`optimization.py:92-109`): a constraint object becomes the list of its dictionaries for SciPy (`Verif.Model.Constraints`). -/
def scipyConstraintArg : PyVal E → Except ScipyErr (PyVal E)
  | .obj n => .ok (.scipyConstraints n)
  | _ => .error .typeError

/-- `kwargs` after the gradient and the Hessian action have been added (`optimization.py:83-89`). -/
def withDerivatives (method : String) (dJ : GradFn (PyVal E)) (kwargs : PyDict E) : PyDict E :=
  let kwargs := if method ∉ ["COBYLA", "Nelder-Mead", "Anneal", "Powell"] then Function.update kwargs "jac" (some (.dJ dJ)) else kwargs
  if method = "Newton-CG" then Function.update kwargs "hessp" (some .H) else kwargs

/-- `kwargs` after the constraints have been replaced (`optimization.py:91-109`). -/
def withConstraints (kwargs : PyDict E) : Except ScipyErr (PyDict E) :=
  match kwargs "constraints" with
  | Option.none => .ok kwargs
  | some c => match scipyConstraintArg c with
    | .error e => .error e
    | .ok c => .ok (Function.update kwargs "constraints" (some c))

/-- The branch for `basinhopping` (`optimization.py:111-127`): the caller's dictionary `minimizer_kwargs` gets the gradient, and its bounds are replaced. -/
def callBasinhopping (sizes : List Nat) (dJ : GradFn (PyVal E)) (kwargs : PyDict E) (σ : Dicts E) : Except ScipyErr (OptCall E) × Dicts E :=
  let kwargs := Function.update (Function.update kwargs "options" Option.none) "jac" Option.none
  match kwargs "minimizer_kwargs" with
  | Option.none => (.error .keyError, σ)
  | some (.dict m) =>
    let σ := Function.update σ m (Function.update (σ m) "jac" (some (.dJ dJ)))
    match σ m "bounds" with
    | Option.none => (.ok (.basinhopping kwargs), σ)
    | some b => match b.serialise sizes with
      | .error e => (.error e, σ)
      | .ok rows => (.ok (.basinhopping kwargs), Function.update σ m (Function.update (σ m) "bounds" (some (.array rows))))
  | some _ => (.error .typeError, σ)

/-- `kwargs` without the named parameters of `minimize_scipy_generic` and without `project` (`optimization.py:36, 58`). -/
def restKwargs (args : PyDict E) : PyDict E :=
  Function.update (Function.update (Function.update args "bounds" Option.none) "derivative_options" Option.none) "project" Option.none

/-- The gradient function (`optimization.py:53-58, 63`). -/
def scipyGradFn (method : String) (args : PyDict E) : GradFn (PyVal E) where
  forget := if method = "Newton-CG" then Option.none else some false
  project := args "project"
  options := args "derivative_options"

/-- `minimize_scipy_generic` (`optimization.py:36-137`) up to the call of SciPy, with the dictionaries afterwards. -/
def minimizeScipy (sizes : List Nat) (method : String) (args : PyDict E) (fresh : Nat) (σ : Dicts E) : Except ScipyErr (OptCall E) × Dicts E :=
  match scipyOptions method (restKwargs args) fresh σ with
  | .error e => (.error e, σ)
  | .ok (r, σ) =>
    match withConstraints (withDerivatives method (scipyGradFn method args) (Function.update (restKwargs args) "options" (some (.dict r)))) with
    | .error e => (.error e, σ)
    | .ok kwargs =>
      if method = "basinhopping" then callBasinhopping sizes (scipyGradFn method args) kwargs σ
      else match boundsParam sizes (args "bounds") with
        | .error e => (.error e, σ)
        | .ok b => (.ok (.minimize method b kwargs), σ)

/-- `minimize_custom` (`optimization.py:140-158`) up to the call of the caller's function. -/
def minimizeCustom (sizes : List Nat) (args : PyDict E) (σ : Dicts E) : Except ScipyErr (OptCall E) × Dicts E :=
  let bounds := args "bounds"
  let opts := args "derivative_options"
  let kwargs := Function.update (Function.update args "bounds" Option.none) "derivative_options" Option.none
  match kwargs "algorithm" with
  | Option.none => (.error .keyError, σ)
  | some algo =>
    let kwargs := Function.update kwargs "algorithm" Option.none
    match boundsParam sizes bounds with
    | .error e => (.error e, σ)
    | .ok b => (.ok (.custom algo { forget := Option.none, project := Option.none, options := opts } b kwargs), σ)

/-- `optimization_algorithms_dict` (`optimization.py:172-188`): the methods of SciPy. -/
def scipyMethods : List String :=
  ["L-BFGS-B", "SLSQP", "TNC", "CG", "BFGS", "Nelder-Mead", "Powell", "Newton-CG", "Anneal", "basinhopping", "COBYLA"]

/-- `minimize` (`optimization.py:199-250`): choice of the algorithm.  `args` are the keyword arguments other than `method` and `scale`. -/
def minimizeCall (sizes : List Nat) (method : String) (args : PyDict E) (fresh : Nat) (σ : Dicts E) : Except ScipyErr (OptCall E) × Dicts E :=
  if method = "Custom" then minimizeCustom sizes args σ
  else if method ∈ scipyMethods then minimizeScipy sizes method args fresh σ
  else (.error .keyError, σ)

/-- `IPOPTSolver._param_map` (`ipopt_solver.py:181-184, 193`). -/
def ipoptName (k : String) : String :=
  if k = "tolerance" then "tol" else if k = "maximum_iterations" then "max_iter" else k

/-- The options of the `cyipopt` problem (`ipopt_solver.py:68-77, 186-194`): `add_option` for the print level, for maximisation the scaling of the objective, then the caller's parameters
in the order of the dictionary.  A later `add_option` replaces an earlier one.  `six` and `minusOne` are the numbers `6` and `-1.0`. -/
def ipoptOptions {X : Type*} (six minusOne : X) (maximization : Bool) (parameters : Option (List (String × X))) : String → Option X :=
  let opts : String → Option X := Function.update (fun _ => none) "print_level" (some six)
  let opts := if maximization then Function.update opts "obj_scaling_factor" (some minusOne) else opts
  (parameters.getD []).foldl (fun o p => Function.update o (ipoptName p.1) (some p.2)) opts

end Pyadjoint
