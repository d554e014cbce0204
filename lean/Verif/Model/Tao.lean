import Verif.Model.ReducedApi
import Verif.Model.SecondOrder

/-!
# The PETSc/TAO interface

Models `PETScVecInterface`, `TAOObjective` and the callbacks that `TAOSolver` registers (`pyadjoint/optimization/tao_solver.py`), on one process.  A PETSc
vector is the list of its entries.  The iterations of TAO itself are not modelled: a solve is an arbitrary sequence of callbacks that ends with an arbitrary
vector and an arbitrary converged reason.
-/

namespace Pyadjoint.Tao

/-- Exceptions: `ValueError("Invalid length")`, `TypeError("Unexpected type")`, an error of PETSc for vectors of different size, the `RuntimeError` of
`new_dual_control_variable`, `TAOConvergenceError`, `AssertionError`.  `tao_solver.py:100-126, 402-440, 638-656`. -/
inductive TaoErr | valueError | typeError | petsc | runtimeError | convergence | assertion
  deriving DecidableEq

/-- `_ad_to_petsc` / `_ad_from_petsc` of an overloaded type (`overloaded_type.py:288-317`): the number of entries, the entries, and assignment of entries. -/
structure Codec (X K : Type*) where
  size : X → Nat
  enc : X → List K
  dec : X → List K → X

/-- What the two methods are documented to do: the entries are the object, and assignment sets all of them.
(Not in the code: the documented contract at `overloaded_type.py:288-318`.) -/
structure Codec.Lawful {X K : Type*} (c : Codec X K) : Prop where
  length : ∀ x, (c.enc x).length = c.size x
  size_dec : ∀ x l, c.size (c.dec x l) = c.size x
  enc_dec : ∀ x l, l.length = c.size x → c.enc (c.dec x l) = l
  dec_enc : ∀ x y, c.size x = c.size y → c.dec x (c.enc y) = y

variable {K : Type*}

/-- The index sets returned by `Vec.concatenate` (`tao_solver.py:52`): consecutive ranges, as offset and length, for objects of the given sizes. -/
def isets (sizes : List Nat) (off : Nat := 0) : List (Nat × Nat) :=
  match sizes with
  | [] => []
  | n :: ns => (off, n) :: isets ns (off + n)

/-- `self._N` (`tao_solver.py:50-51`); on one process `self._n` is the same. -/
def total (sizes : List Nat) : Nat := sizes.foldl (· + ·) 0

/-- `getSubVector(iset)`.  PETSc, used at `tao_solver.py:103, 120`. -/
def getSub (y : List K) (s : Nat × Nat) : List K := (y.drop s.1).take s.2

/-- The entries of `y` in the range are replaced.  PETSc, used at `tao_solver.py:120-127`. -/
def setSub (y : List K) (s : Nat × Nat) (sub : List K) : List K := y.take s.1 ++ sub ++ y.drop (s.1 + s.2)

/-- `PETScVecInterface.from_petsc` (`tao_solver.py:90-105`), its loop.  An object of another size than its range is an error of PETSc. -/
def fromLoop {X : Type*} (c : Codec X K) (y : List K) : List (Nat × Nat) → List X → Except TaoErr (List X)
  | s :: ss, x :: xs =>
    if c.size x ≠ (getSub y s).length then .error .petsc else
    match fromLoop c y ss xs with
    | .error e => .error e
    | .ok r => .ok (c.dec x (getSub y s) :: r)
  | _, _ => .ok []

/-- `PETScVecInterface.from_petsc` (`tao_solver.py:90-105`), with the new values of the objects as result. -/
def fromPetsc {X : Type*} (c : Codec X K) (sizes : List Nat) (y : List K) (xs : List X) : Except TaoErr (List X) :=
  if xs.length ≠ (isets sizes).length then .error .valueError else fromLoop c y (isets sizes) xs

/-- What `to_petsc` gets for one component (`tao_solver.py:121-126`): a number, an overloaded object (by its entries), or something else, such as `None`. -/
inductive Item (K : Type*)
  | num (k : K)
  | obj (l : List K)
  | other

/-- `PETScVecInterface.to_petsc` (`tao_solver.py:107-127`), its loop.  The sub-vector is given back to itself, not to `x` (line 127), so that the entries
written reach `x` only if the sub-vector shares its memory with `x`, which `shares` says. -/
def toLoop (shares : Bool) (x : List K) : List (Nat × Nat) → List (Item K) → Except TaoErr Unit × List K
  | s :: ss, i :: is =>
    match i with
    | .other => (.error .typeError, x)
    | .num k => toLoop shares (if shares then setSub x s (List.replicate (getSub x s).length k) else x) ss is
    | .obj l => if l.length ≠ (getSub x s).length then (.error .petsc, x) else toLoop shares (if shares then setSub x s l else x) ss is
  | _, _ => (.ok (), x)

/-- `PETScVecInterface.to_petsc` (`tao_solver.py:107-127`). -/
def toPetsc (shares : Bool) (sizes : List Nat) (x : List K) (ys : Arg (Item K)) : Except TaoErr Unit × List K :=
  let ys := (Enlist.of ys).items
  if ys.length ≠ (isets sizes).length then (.error .valueError, x) else toLoop shares x (isets sizes) ys

/-- The bound vectors (`tao_solver.py:544-560`): a missing bound is replaced by the least (or greatest) number. -/
def boundItems (extreme : K) (bs : List (Option (Item K))) : List (Item K) := bs.map fun b => b.getD (.num extreme)

/-! ### Callbacks -/

variable {V A : Type*}

/-- The reduced functional, tape, and layout a solver works with.  `cs` are the variables of the controls, `objs` the variables that the control objects
have now (`control.control.block_variable`, `tao_solver.py:362, 385, 417`): another one if a mutable object was changed after its control was made (`control.py:7-41`).  `conv` is `_ad_convert_type` with the options given to the solver, `seed`
is `1.0 * scale`, and `value` the scaled functional value as a number.  `tao_solver.py:336-337, 455-615`. -/
structure Solver (V A K : Type*) where
  bs : Blocks V V A
  J : BV
  cs : List BV
  objs : List BV
  seed : A
  value : V → K
  cV : Codec V K
  cA : Codec A K
  conv : A → V

/-- What the callbacks change: the tape, the vector of control variables cached in the Hessian context (`tao_solver.py:501-503`) and its shift. -/
structure State (V A K : Type*) where
  heap : Heap V V A
  m : Option (List V)
  shift : K

/-- `TAOObjective.new_control_variable` (`tao_solver.py:389-400`): copies of the control objects, which are the
outputs of the variables of the controls. -/
def Solver.newControl (S : Solver V A K) (h : Heap V V A) : List V := S.cs.map fun c => (h c).output

/-- The layout (`tao_solver.py:474-476`). -/
def Solver.sizes (S : Solver V A K) (h : Heap V V A) : List Nat := (S.newControl h).map S.cV.size

/-- An adjoint or Hessian value as `to_petsc` sees it: `None` is not an overloaded object.  `tao_solver.py:121-126`. -/
def Solver.item (S : Solver V A K) : Option A → Item K
  | none => .other
  | some a => .obj (S.cA.enc a)

/-- `TAOObjective.objective_gradient` (`tao_solver.py:347-364`): value, adjoint values of the controls and new tape.  `seed` is `1.0 * scale`. -/
def Solver.evalGrad [Add A] (S : Solver V A K) (m : List V) (h : Heap V V A) : K × List (Option A) × Heap V V A :=
  let h := rfEval S.bs S.cs m h
  let v := S.value (saved h S.J)
  let h := computeGradientState S.bs S.J S.cs S.seed h
  (v, S.objs.map (fun c => (h c).adj), h)

/-- `TAOObjective.hessian` (`tao_solver.py:366-387`). -/
def Solver.evalHess [Add V] [Add A] [Zero A] (S : Solver V A K) (m mdot : List V) (h : Heap V V A) : List (Option A) × Heap V V A :=
  let h := rfEval S.bs S.cs m h
  let h := computeGradientState S.bs S.J S.cs S.seed h
  let h := (computeHessianOf S.bs S.J S.cs mdot h).2
  (S.objs.map (fun c => (h c).hess), h)

/-- The callback `objective_gradient` (`tao_solver.py:482-487`); `g` is the vector to fill. -/
def Solver.objGrad [Add A] (S : Solver V A K) (x g : List K) (s : State V A K) : Except TaoErr (K × List K) × State V A K :=
  match fromPetsc S.cV (S.sizes s.heap) x (S.newControl s.heap) with
  | .error e => (.error e, s)
  | .ok m =>
    let r := S.evalGrad m s.heap
    match toPetsc true (S.sizes s.heap) g (.tuple (r.2.1.map S.item)) with
    | (.error e, _) => (.error e, { s with heap := r.2.2 })
    | (.ok _, g) => (.ok (r.1, g), { s with heap := r.2.2 })

/-- `Hessian._m` (`tao_solver.py:501-503`). -/
def Solver.cached (S : Solver V A K) (s : State V A K) : List V := s.m.getD (S.newControl s.heap)

/-- The callback `hessian` (`tao_solver.py:491-492, 505-507`).  If it raises, some of the cached variables may have been assigned; this is not modelled. -/
def Solver.setControl [Zero K] (S : Solver V A K) (x : List K) (s : State V A K) : Except TaoErr Unit × State V A K :=
  match fromPetsc S.cV (S.sizes s.heap) x (S.cached s) with
  | .error e => (.error e, { s with m := some (S.cached s) })
  | .ok m => (.ok (), { s with m := some m, shift := 0 })

/-- `Hessian.shift` (`tao_solver.py:509-510`). -/
def addShift [Add K] (alpha : K) (s : State V A K) : State V A K := { s with shift := s.shift + alpha }

/-- `y.axpy(a, x)`.  PETSc, used at `tao_solver.py:512-518`. -/
def axpy [Add K] [Mul K] (a : K) (x y : List K) : List K := List.zipWith (fun p q => q + a * p) x y

/-- `Hessian.mult` (`tao_solver.py:512-518`). -/
def Solver.mult [Add V] [Add A] [Zero A] [Add K] [Mul K] [Zero K] [DecidableEq K] (S : Solver V A K) (x y : List K) (s : State V A K) :
    Except TaoErr (List K) × State V A K :=
  match fromPetsc S.cV (S.sizes s.heap) x (S.newControl s.heap) with
  | .error e => (.error e, s)
  | .ok mdot =>
    let r := S.evalHess (S.cached s) mdot s.heap
    let s' := { s with heap := r.2, m := some (S.cached s) }
    match toPetsc true (S.sizes s.heap) y (.tuple (r.1.map S.item)) with
    | (.error e, _) => (.error e, s')
    | (.ok _, y) => (.ok (if s.shift ≠ 0 then axpy s.shift x y else y), s')

/-- The dual value of a control that `new_dual_control_variable` takes as a prototype (`tao_solver.py:409-417`). -/
def dualOf (v : Var V V A) : Option A :=
  match v.adj with
  | some a => some a
  | none => v.hess

/-- `TAOObjective.new_dual_control_variable` (`tao_solver.py:402-425`). -/
def Solver.newDual (S : Solver V A K) (h : Heap V V A) : Except TaoErr (List A) :=
  match S.objs.mapM fun c => dualOf (h c) with
  | none => .error .runtimeError
  | some l => .ok l

/-- `GradientNorm.mult` and `InitialHessianPreconditioner.apply` (`tao_solver.py:530-536, 574-580`). -/
def Solver.gradNorm (S : Solver V A K) (x y : List K) (s : State V A K) : Except TaoErr (List K) :=
  match S.newDual s.heap with
  | .error e => .error e
  | .ok d =>
    match fromPetsc S.cA (S.sizes s.heap) x d with
    | .error e => .error e
    | .ok d =>
      match toPetsc true (S.sizes s.heap) y (.tuple (d.map fun a => .obj (S.cV.enc (S.conv a)))) with
      | (.error e, _) => .error e
      | (.ok _, y) => .ok y

/-- The callbacks TAO can make.  `tao_solver.py:455-615`. -/
inductive Callback (K : Type*)
  | objGrad (x g : List K)
  | setControl (x : List K)
  | shift (alpha : K)
  | mult (x y : List K)
  | gradNorm (x y : List K)

/-- One callback; an exception leaves the state as it is at that moment.  `tao_solver.py:455-615`. -/
def Solver.callback [Add V] [Add A] [Zero A] [Add K] [Mul K] [Zero K] [DecidableEq K] (S : Solver V A K) (s : State V A K) : Callback K → State V A K
  | .objGrad x g => (S.objGrad x g s).2
  | .setControl x => (S.setControl x s).2
  | .shift a => addShift a s
  | .mult x y => (S.mult x y s).2
  | .gradNorm _ _ => s

/-- A sequence of callbacks.  (TAO's program, not in the code.) -/
def Solver.run [Add V] [Add A] [Zero A] [Add K] [Mul K] [Zero K] [DecidableEq K] (S : Solver V A K) (l : List (Callback K)) (s : State V A K) :
    State V A K := l.foldl S.callback s

/-- `TAOSolver.solve` (`tao_solver.py:638-656`).  `x` is the solver's vector before; TAO is a function that from the initial guess makes callbacks and leaves
a vector and a converged reason.  The result is delisted as `controls` were listed. -/
def Solver.solve [Add V] [Add A] [Zero A] [Add K] [Mul K] [Zero K] [DecidableEq K] (S : Solver V A K) (listed : Bool)
    (tao : List K → List (Callback K) × List K × Int) (x : List K) (s : State V A K) : Except TaoErr (Ret V) × State V A K :=
  let m := S.cs.map (saved s.heap)
  match toPetsc true (S.sizes s.heap) x (.tuple (m.map fun v => .obj (S.cV.enc v))) with
  | (.error e, _) => (.error e, s)
  | (.ok _, x) =>
    let t := tao x
    let s' := S.run t.1 s
    match fromPetsc S.cV (S.sizes s.heap) t.2.1 m with
    | .error e => (.error e, s')
    | .ok m =>
      if t.2.2 ≤ 0 then (.error .convergence, s') else
      match (Enlist.mk listed S.cs).delist m with
      | .error _ => (.error .assertion, s')
      | .ok r => (.ok r, s')

end Pyadjoint.Tao
