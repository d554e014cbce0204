import Mathlib.Algebra.Group.Basic
import Mathlib.Data.List.Basic

/-!
# Constraints

Models `optimization/constraints.py`, the constraint loop of `minimize_scipy_generic` (`optimization/optimization.py:92-109`)
and `IPOPTSolver.__get_constraints` (`optimization/ipopt_solver.py:124-179`).

`M` is the type of parameters, `R` the type of objects like a parameter (Jacobian rows, adjoint actions), `E` numbers.
-/

namespace Pyadjoint

/-- The value of a constraint function: an array, or for merged constraints a list with one item per constraint.
`constraints.py:10-17, 81-82`. -/
inductive Out (E : Type*)
  | arr (l : List E)
  | items (l : List (Out E))

/-- Class of a constraint: a subclass of `EqualityConstraint`, of `InequalityConstraint`, or neither
(`constraints.py:56-72`). -/
inductive CKind | eq | ineq | other
  deriving DecidableEq

/-- A constraint (`constraints.py:9-53`).  Methods with an argument `result` store into it: they map its contents before to
its contents after the call.  Exceptions of user supplied methods are not modelled. -/
structure Constr (M R E : Type*) where
  kind : CKind
  function : M → Out E
  jacobian : M → List R
  jacAction : M → M → Out E → Out E
  adjAction : M → Out E → R → R
  hessAction : M → M → Out E → R → R
  dim : Nat

/-- The exceptions here.  `constraints.py:17-45`, `optimization.py:102`. -/
inductive ConstrErr | indexError | unknownClass | typeError | valueError
  deriving DecidableEq

variable {M R E : Type*}

/-- `dp[i]` for a list with one item per constraint.  `constraints.py:95, 103`. -/
def Out.item (o : Out E) (i : Nat) : Option (Out E) :=
  match o with
  | .arr _ => none
  | .items l => l[i]?

/-- `MergedConstraints` (`constraints.py:78-80`). -/
structure Merged (M R E : Type*) where
  constraints : List (Constr M R E)

namespace Merged

/-- `function` (`constraints.py:82-83`); `numpify` does not change the numbers. -/
def function (c : Merged M R E) (m : M) : Out E := .items (c.constraints.map fun c => c.function m)

/-- `jacobian` (`constraints.py:85-86`). -/
def jacobian (c : Merged M R E) (m : M) : List (List R) := c.constraints.map fun c => c.jacobian m

/-- `jacobian_action` (`constraints.py:88-89`): the contents of `result[i]` before and after; the list is at least as long as
the constraints, or there is an `IndexError`. -/
def jacActionLoop (m dm : M) : List (Constr M R E) → List (Out E) → Except ConstrErr (List (Out E))
  | [], rs => .ok rs
  | _ :: _, [] => .error .indexError
  | c :: cs, r :: rs => match jacActionLoop m dm cs rs with
    | .error e => .error e
    | .ok rs' => .ok (c.jacAction m dm r :: rs')

/-- `jacobian_action`.  `constraints.py:27-30, 87-88`. -/
def jacAction (c : Merged M R E) (m dm : M) (result : List (Out E)) : Except ConstrErr (List (Out E)) :=
  jacActionLoop m dm c.constraints result

/-- The loop of `jacobian_adjoint_action` (`constraints.py:95-97`) with the contents of `tmp` and `result`. -/
def adjLoop [Add R] (m : M) (dp : Out E) : Nat → List (Constr M R E) → R → R → Except ConstrErr R
  | _, [], _, result => .ok result
  | i, c :: cs, tmp, result => match dp.item i with
    | none => .error .indexError
    | some d => adjLoop m dp (i + 1) cs (c.adjAction m d tmp) (result + c.adjAction m d tmp)

/-- `jacobian_adjoint_action` (`constraints.py:91-97`): `result._ad_imul(0.0)` and a copy of it.  Zero times the old contents
is taken to be zero, which fails if it had infinities or NaN. -/
def adjAction [Add R] [Zero R] (c : Merged M R E) (m : M) (dp : Out E) (_result : R) : Except ConstrErr R :=
  adjLoop m dp 0 c.constraints 0 0

/-- The loop of `hessian_action` (`constraints.py:103-105`). -/
def hessLoop [Add R] (m dm : M) (dp : Out E) : Nat → List (Constr M R E) → R → R → Except ConstrErr R
  | _, [], _, result => .ok result
  | i, c :: cs, tmp, result => match dp.item i with
    | none => .error .indexError
    | some d => hessLoop m dm dp (i + 1) cs (c.hessAction m dm d tmp) (result + c.hessAction m dm d tmp)

/-- `hessian_action` (`constraints.py:99-105`). -/
def hessAction [Add R] [Zero R] (c : Merged M R E) (m dm : M) (dp : Out E) (_result : R) : Except ConstrErr R :=
  hessLoop m dm dp 0 c.constraints 0 0

/-- `equality_constraints` (`constraints.py:113-116`). -/
def equality (c : Merged M R E) : Merged M R E := ⟨c.constraints.filter fun c => c.kind == .eq⟩

/-- `inequality_constraints` (`constraints.py:118-121`). -/
def inequality (c : Merged M R E) : Merged M R E := ⟨c.constraints.filter fun c => c.kind == .ineq⟩

/-- `_get_constraint_dim` (`constraints.py:123-125`). -/
def dim (c : Merged M R E) : Nat := (c.constraints.map fun c => c.dim).sum

end Merged

/-- What users pass as constraints.  `constraints.py:127-138`. -/
inductive ConstrArg (M R E : Type*)
  | none
  | merged (c : Merged M R E)
  | single (c : Constr M R E)
  | list (l : List (Constr M R E))

/-- `canonicalise` (`constraints.py:127-138`). -/
def canonicalise : ConstrArg M R E → Option (Merged M R E)
  | .none => Option.none
  | .merged c => some c
  | .single c => some ⟨[c]⟩
  | .list l => some ⟨l⟩

/-- `canonicalise`'s result as an argument.  `constraints.py:127-138`. -/
def asArg : Option (Merged M R E) → ConstrArg M R E
  | none => .none
  | some c => .merged c

/-- A dictionary for SciPy (`optimization.py:108`).  `fun` is the bound method of the constraint of this round; `jac` is a
closure over the variable `c` of the enclosing function, so it has no content of its own. -/
structure ScipyDict (M R E : Type*) where
  isEq : Bool
  func : M → Out E

/-- The loop (`optimization.py:96-108`): the dictionaries, and what `c` is bound to after it. -/
def scipyLoop : List (Constr M R E) → Option (Constr M R E) →
    Except ConstrErr (List (ScipyDict M R E) × Option (Constr M R E))
  | [], cell => .ok ([], cell)
  | c :: cs, _ => match c.kind with
    | .other => .error .unknownClass
    | k => match scipyLoop cs (some c) with
      | .error e => .error e
      | .ok (ds, cell) => .ok (⟨k == .eq, c.function⟩ :: ds, cell)

/-- Lines 92-109 with `constraints` given; `None` is not iterable.  `optimization.py:92-109`. -/
def scipyConstraints (a : ConstrArg M R E) :
    Except ConstrErr (List (ScipyDict M R E) × Option (Constr M R E)) :=
  match canonicalise a with
  | Option.none => .error .typeError
  | some c => scipyLoop c.constraints Option.none

/-- What calling the Jacobian of any of the dictionaries does, after the loop (lines 104-106).  `optimization.py:104-106`. -/
def scipyJac (cell : Option (Constr M R E)) (m : M) : Option (List R) := cell.map fun c => c.jacobian m

/-- A bound on a constraint component for IPOPT.  `ipopt_solver.py:124-184`. -/
inductive CBound | zero | inf
  deriving DecidableEq

/-- `constraint_ub` (`ipopt_solver.py:171-175`): nothing for other classes. -/
def constraintUb (c : Constr M R E) : Option (List CBound) :=
  match c.kind with
  | .eq => some (List.replicate c.dim .zero)
  | .ineq => some (List.replicate c.dim .inf)
  | .other => none

/-- `sum([constraint_ub(c) for c in constraint], [])` (`ipopt_solver.py:177`). -/
def ipoptUb : List (Constr M R E) → Except ConstrErr (List CBound)
  | [] => .ok []
  | c :: cs => match constraintUb c with
    | none => .error .typeError
    | some l => match ipoptUb cs with
      | .error e => .error e
      | .ok r => .ok (l ++ r)

/-- `clb` and `cub` (`ipopt_solver.py:169-177`). -/
def ipoptConstraintBounds (c : Merged M R E) : Except ConstrErr (List CBound × List CBound) :=
  match ipoptUb c.constraints with
  | .error e => .error e
  | .ok u => .ok (List.replicate c.dim .zero, u)

/-- The numbers of a value that is one array.  Used for `ipopt_solver.py:124-184`. -/
def Out.numbers? : Out E → Option (List E)
  | .arr l => some l
  | .items _ => none

/-- `numpy.array(constraint.function(x), dtype=float)` (`ipopt_solver.py:153-155`) for constraints whose functions return
arrays: the arrays must have the same length.  The two-dimensional array is read row by row.  Nested merged constraints are
left out. -/
def ipoptFunction (c : Merged M R E) (m : M) : Except ConstrErr (List E) :=
  match c.constraints.mapM fun c => (c.function m).numbers? with
  | none => .error .valueError
  | some ls =>
    if ∀ l ∈ ls, ∀ l' ∈ ls, l.length = l'.length then .ok ls.flatten else .error .valueError

end Pyadjoint
