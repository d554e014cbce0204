import Verif.Model.Ownership

/-!
# Optimisation started from the values on the tape

`ROLSolver` (`pyadjoint/optimization/rol_solver.py:141-260`) keeps the objects `Control.tape_value` returns as its vector of controls, and ROL changes
them in place.  Here the objects of the vector are objects the caller (ROL) holds, as in `Verif.Model.Ownership`.  Bounds and constraints are in
`Verif.Model.RolVector`, what the objective tells ROL and that it saves
and restores checkpoints is in `Verif.Model.RolSession`.
-/

namespace Pyadjoint
namespace Own

variable {V T A : Type*}

/-- `Control.tape_value` (`control.py:45-46`): the object of `saved_output`, a copy of the checkpoint if the type copies on restoring
(`block_variable.py:57-62`); `create_overloaded_object` returns it as it is (`overloaded_type.py:28-29`).  The caller holds it. -/
def State.tapeValue (k : Kind) (s : State V T A) (c : BV) : State V T A :=
  if k.copies ∧ (s.ref c).isSome then { s.alloc (s.obj (s.savedObj c)) with handles := s.handles ++ [s.next] }
  else { s with handles := s.handles ++ [s.savedObj c] }

/-- `x = [p.tape_value() for p in controls]` (`rol_solver.py:157-158`). -/
def State.tapeValues (k : Kind) (s : State V T A) (cs : List BV) : State V T A := cs.foldl (State.tapeValue k) s

/-- What happens to the vector in `ROLSolver.solve` (`rol_solver.py:220-249`): ROL first has the objective evaluated at it (`update` with `Initial`),
then does anything with it and with the objective, and at last the vector is returned.  The vector is what the caller holds at places
`0, …, n - 1`. -/
def solveEvents (J : BV) (cs : List BV) (rest : List (Event V T A)) : List (Event V T A) :=
  .call J cs (List.range cs.length) :: rest ++ (List.range cs.length).map .read

/-- `ROLSolver(problem)` and `solve()`: all that ROL and the caller see.  `rol_solver.py:146-158, 220-249`. -/
def State.rolSolve [Add T] [Add A] [Zero A] (k : Kind) (mul : V → V) (bs : List (OBlock V T A)) (J : BV) (cs : List BV) (rest : List (Event V T A))
    (s : State V T A) : List (Seen V A) :=
  (s.tapeValues k cs).run k mul bs (solveEvents J cs rest)

end Own
end Pyadjoint
