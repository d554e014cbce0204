import Mathlib.Data.List.Basic

/-!
# Bounds

Models `serialise_bounds` (`optimization/optimization.py:8-33`), `IPOPTSolver.__get_bounds`
(`optimization/ipopt_solver.py:79-122`), and `OptimizationProblem.enlist` with the check of its arguments
(`optimization/optimization_problem.py:37-83`).

A control occupies `size` entries of the flat array (`_ad_to_list`); sizes are a list with one entry per control.
-/

namespace Pyadjoint

/-- One bound: `None`, a Python `int` or `float`, a NumPy integer as found in an integer array, or an object of the
control's type given by its flat entries.  NumPy's `float64` is a subclass of `float`.  Objects of the control's type are
atoms for `numpy.array` (true of finite element functions, not of arrays).  What `optimization.py:22-29` distinguishes. -/
inductive Bound (E : Type*)
  | none
  | int (x : E)
  | float (x : E)
  | npInt (x : E)
  | full (l : List E)

/-- The exceptions here.  `optimization.py:14-17`, `ipopt_solver.py:79-122`. -/
inductive BoundsErr | valueError | indexError | typeError
  deriving DecidableEq

/-- The argument `bounds` of `minimize`: `[lb, ub]`, or `[[lb1, …], [ub1, …]]`.  `optimization.py:8-17`. -/
inductive BoundsArg (E : Type*)
  | flat (l : List (Bound E))
  | nested (l : List (List (Bound E)))

namespace Bound

variable {E : Type*}

/-- `int` For `optimization.py:11, 23`. -/
def isInt : Bound E → Bool
  | .int _ => true
  | _ => false

/-- What an element of `np.array(bounds)` is if all elements are `int`s: a NumPy integer.  NumPy code, used in `optimization.py:11-12`. -/
def toNumpyInt : Bound E → Bound E
  | .int x => .npInt x
  | b => b

/-- What an element is if all are numbers, not all `int`: a NumPy float.  NumPy code, used in `optimization.py:11-12`. -/
def toNumpyFloat : Bound E → Bound E
  | .int x => .float x
  | b => b

/-- Python numbers.  For `optimization.py:11-12`. -/
def isNumber : Bound E → Bool
  | .int _ | .float _ => true
  | _ => false

/-- The elements of `np.array([[b] for b in bounds])` (`optimization.py:12`): an array of integers, of floats, or of
objects. -/
def throughNumpy (l : List (Bound E)) : List (Bound E) :=
  if l.all isInt then l.map toNumpyInt
  else if l.all isNumber then l.map toNumpyFloat
  else l

/-- Lines 22-28 for the bound of control number `j`: only Python numbers and `None` are repeated.  A NumPy integer is
handed to `_ad_to_list` of the first control, which for `AdjFloat` makes a list of length one
(`reduced_functional_numpy.py:45-55`, `adjfloat.py:121-123`). -/
def entries (sizes : List Nat) (j : Nat) (b : Bound E) : Except BoundsErr (List (Option E)) :=
  match b with
  | .none => match sizes[j]? with
    | Option.none => .error .indexError
    | some n => .ok (List.replicate n Option.none)
  | .int x | .float x => match sizes[j]? with
    | Option.none => .error .indexError
    | some n => .ok (List.replicate n (some x))
  | .npInt x => .ok [some x]
  | .full l => .ok (l.map some)

end Bound

/-- The inner loop (`optimization.py:20-28`). -/
def boundsRow {E : Type*} (sizes : List Nat) : Nat → List (Bound E) → Except BoundsErr (List (Option E))
  | _, [] => .ok []
  | j, b :: l =>
    match b.entries sizes j with
    | .error e => .error e
    | .ok es => match boundsRow sizes (j + 1) l with
      | .error e => .error e
      | .ok r => .ok (es ++ r)

/-- The two rows and the transposition (`optimization.py:14-33`).  Rows of different lengths do not form an array. -/
def serialiseRows {E : Type*} (sizes : List Nat) (rows : List (List (Bound E))) :
    Except BoundsErr (List (Option E × Option E)) :=
  match rows with
  | [lo, up] =>
    match boundsRow sizes 0 lo with
    | .error e => .error e
    | .ok a => match boundsRow sizes 0 up with
      | .error e => .error e
      | .ok b => if a.length = b.length then .ok (a.zip b) else .error .valueError
  | _ => .error .valueError

/-- `serialise_bounds` (`optimization.py:8-33`). -/
def serialiseBounds {E : Type*} (sizes : List Nat) : BoundsArg E → Except BoundsErr (List (Option E × Option E))
  | .flat l => serialiseRows sizes ((Bound.throughNumpy l).map fun b => [b])
  | .nested rows => serialiseRows sizes rows

/-- An entry of an IPOPT bounds array: a number, or NaN.  `ipopt_solver.py:79-122`. -/
inductive IpoptEntry (E : Type*)
  | num (x : E)
  | nan

/-- One bound for IPOPT (`ipopt_solver.py:95-107`) for a control with `n` entries; `None` is handed to `_ad_to_list` of the
first control, which for `AdjFloat` gives `[None]`, and in an array of doubles that is NaN. -/
def ipoptEntries {E : Type*} (n : Nat) : Bound E → List (IpoptEntry E)
  | .none => [.nan]
  | .int x | .float x => List.replicate n (.num x)
  | .npInt x => [.num x]
  | .full l => l.map .num

/-- `__get_bounds` (`ipopt_solver.py:79-122`) when bounds are given: pairs, one for each control. -/
def ipoptBounds {E : Type*} (bounds : List (Bound E × Bound E)) (sizes : List Nat) :
    List (IpoptEntry E) × List (IpoptEntry E) :=
  (((bounds.zip sizes).map fun p => ipoptEntries p.2 p.1.1).flatten,
    ((bounds.zip sizes).map fun p => ipoptEntries p.2 p.1.2).flatten)

/-- What users pass as `bounds` to an `OptimizationProblem`: an iterable of bounds and of iterables.  `optimization_problem.py:36-56`. -/
inductive BoundItem (E : Type*)
  | atom (b : Bound E)
  | seq (l : List (Bound E))

/-- `OptimizationProblem.enlist` (`optimization_problem.py:62-83`): `(lb, ub)` becomes `[(lb, ub)]`. -/
def enlistBounds {E : Type*} (bounds : List (BoundItem E)) : List (List (Bound E)) ⊕ List (BoundItem E) :=
  match bounds with
  | [.atom lb, .atom ub] => .inl [[lb, ub]]
  | l => .inr l

/-- The pairs of a list of sequences of length two.  `optimization_problem.py:36-56`. -/
def asPairs {E : Type*} : List (List (Bound E)) → Option (List (Bound E × Bound E))
  | [] => some []
  | [lb, ub] :: l => (asPairs l).map ((lb, ub) :: ·)
  | _ :: _ => none

/-- The sequences of a list of items; an item that is not a sequence has no `len` (line 49).  `optimization_problem.py:36-56`. -/
def asSeqs {E : Type*} : List (BoundItem E) → Option (List (List (Bound E)))
  | [] => some []
  | .seq s :: l => (asSeqs l).map (s :: ·)
  | .atom _ :: _ => none

/-- `enlist` and the checks of the number of bounds and of pairs (`optimization_problem.py:16-18`, `45-50`); the types of
the bounds are not checked here. -/
def problemBounds {E : Type*} (ncontrols : Nat) (bounds : List (BoundItem E)) :
    Except BoundsErr (List (Bound E × Bound E)) :=
  let seqs := match enlistBounds bounds with
    | .inl s => some s
    | .inr l => asSeqs l
  match seqs with
  | none => .error .typeError
  | some s => if s.length ≠ ncontrols then .error .typeError else
    match asPairs s with
    | none => .error .typeError
    | some p => .ok p

end Pyadjoint
