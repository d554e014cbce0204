import Verif.Model.Core

/-!
# The Moola functional

Models the class `Functional` of `MoolaOptimizationProblem` (`pyadjoint/optimization/moola_problem.py:28-104`).  The reduced functional is an object with
a state of its own (`Rf`); `Verif.Props.Moola` puts the tape there.  Not modelled: `moola.events`, and that the cached objects may be changed in place
by the solver.
-/

namespace Pyadjoint
namespace Moola

/-- What the class uses of the reduced functional `rf`: the three methods, which may raise, and change a state (the tape).
Used at `moola_problem.py:50, 56, 76, 86, 101`. -/
structure Rf (X Y D Dir HV S E : Type*) where
  eval : X → S → Except E Y × S
  deriv : S → Except E D × S
  hess : Dir → S → Except E HV × S

/-- An exception: of `rf`, or `IndexError` of the lists.  `moola_problem.py:34-104`. -/
inductive Err (E : Type*) | rf (e : E) | index

/-- The four lists (lines 29-32).  `moola_problem.py:29-32`. -/
structure Memo (K Y D : Type*) where
  evalHash : List K := []
  evalVal : List Y := []
  derivHash : List K := []
  derivVal : List D := []

variable {X Y D Dir HV S E K : Type*} [DecidableEq K]

/-- An exception of `rf` passes through.  (Python's propagation of exceptions; not in the code.) -/
def lift {α : Type*} : Except E α → Except (Err E) α
  | .ok a => .ok a
  | .error e => .error (.rf e)

/-- Lines 49-52: the hash is appended first, then `rf` is evaluated, then its value is appended.  `moola_problem.py:49-52`. -/
def callStore (hash : X → K) (rf : Rf X Y D Dir HV S E) (x : X) (m : Memo K Y D) (s : S) : Except (Err E) Y × Memo K Y D × S :=
  let m := { m with evalHash := m.evalHash ++ [hash x] }
  match rf.eval x s with
  | (.ok y, s) => (.ok y, { m with evalVal := m.evalVal ++ [y] }, s)
  | (.error e, s) => (.error (.rf e), m, s)

/-- `Functional.__call__` (`moola_problem.py:34-55`); `n` is `memoize` (a negative one acts as 0). -/
def call (n : Nat) (hash : X → K) (rf : Rf X Y D Dir HV S E) (x : X) (m : Memo K Y D) (s : S) : Except (Err E) Y × Memo K Y D × S :=
  if n = 0 then
    match rf.eval x s with
    | (r, s) => (lift r, m, s)
  else
    match m.evalHash.idxOf? (hash x) with
    | some i =>
      match m.evalVal[i]? with
      | some y => (.ok y, m, s)
      | none => (.error .index, m, s)
    | none =>
      if m.evalHash.length = n then
        match m.evalVal with
        | [] => (.error .index, { m with evalHash := m.evalHash.tail }, s)
        | _ :: vs => callStore hash rf x { m with evalHash := m.evalHash.tail, evalVal := vs } s
      else callStore hash rf x m s

/-- Lines 75-82.  `moola_problem.py:75-82`. -/
def derivStore (hash : X → K) (rf : Rf X Y D Dir HV S E) (x : X) (m : Memo K Y D) (s : S) : Except (Err E) D × Memo K Y D × S :=
  match rf.deriv s with
  | (.ok d, s) => (.ok d, { m with derivHash := m.derivHash ++ [hash x], derivVal := m.derivVal ++ [d] }, s)
  | (.error e, s) => (.error (.rf e), m, s)

/-- `Functional.derivative` (`moola_problem.py:57-89`). -/
def deriv (n : Nat) (hash : X → K) (rf : Rf X Y D Dir HV S E) (x : X) (m : Memo K Y D) (s : S) : Except (Err E) D × Memo K Y D × S :=
  if n = 0 then
    match rf.deriv s with
    | (r, s) => (lift r, m, s)
  else
    match m.derivHash.idxOf? (hash x) with
    | some i =>
      match m.derivVal[i]? with
      | some d => (.ok d, m, s)
      | none => (.error .index, m, s)
    | none =>
      if m.derivHash.length = n then
        match m.derivVal with
        | [] => (.error .index, { m with derivHash := m.derivHash.tail }, s)
        | _ :: vs => derivStore hash rf x { m with derivHash := m.derivHash.tail, derivVal := vs } s
      else derivStore hash rf x m s

/-- The calls a solver makes: `f(x)`, `f.derivative(x)`, `f.hessian(x)`, and the function returned by `f.hessian(x)` applied to a direction.
`moola_problem.py:35, 59, 93, 99`. -/
inductive Op (X Dir : Type*)
  | call (x : X)
  | deriv (x : X)
  | hessian (x : X)
  | action (x : X) (d : Dir)

/-- What a call returns.  `moola_problem.py:34-104`. -/
inductive Res (Y D HV : Type*)
  | value (y : Y)
  | grad (d : D)
  | closure
  | hess (v : HV)

/-- One call.  `Functional.hessian` (`moola_problem.py:91-103`) evaluates and returns a function, which calls `rf.hessian`. -/
def step (n : Nat) (hash : X → K) (rf : Rf X Y D Dir HV S E) (m : Memo K Y D) (s : S) : Op X Dir → Except (Err E) (Res Y D HV) × Memo K Y D × S
  | .call x =>
    match call n hash rf x m s with
    | (r, m, s) => (r.map .value, m, s)
  | .deriv x =>
    match deriv n hash rf x m s with
    | (r, m, s) => (r.map .grad, m, s)
  | .hessian x =>
    match call n hash rf x m s with
    | (r, m, s) => (r.map fun _ => .closure, m, s)
  | .action _ d =>
    match rf.hess d s with
    | (r, s) => ((lift r).map .hess, m, s)

/-- A sequence of calls; a caller may go on after an exception.  (The solver's program, not in the code.) -/
def run (n : Nat) (hash : X → K) (rf : Rf X Y D Dir HV S E) : List (Op X Dir) → Memo K Y D → S → List (Except (Err E) (Res Y D HV)) × Memo K Y D × S
  | [], m, s => ([], m, s)
  | op :: l, m, s =>
    match step n hash rf m s op with
    | (r, m, s) =>
      match run n hash rf l m s with
      | (rs, m, s) => (r :: rs, m, s)

end Moola
end Pyadjoint
