import Verif.Model.Constraints
import Mathlib.Algebra.Module.Basic
import Mathlib.Data.Real.Basic
import Mathlib.Analysis.SpecialFunctions.Pow.Real

/-!
# ROL vectors and constraints

Models `ROLVector` and `ROLConstraint` (`pyadjoint/optimization/rol_solver.py:65-139`).  A vector holds references to component
objects, and its methods change these objects in place.
-/

namespace Pyadjoint
namespace Rol

variable {E : Type*}

/-- A component object.  `immutable` is the case of `AdjFloat`; otherwise the object is of a type whose `_ad_iadd` and `_ad_imul`
change it in place, whose `_ad_copy` makes a new object, and which has the methods ROL needs beyond
those of `OverloadedType` (as finite element functions do).  Entries of `dat` (`rol_solver.py:66-69`). -/
structure Cell (E : Type*) where
  immutable : Bool
  val : E

/-- All component objects.  Entries of `dat` (`rol_solver.py:66-69`). -/
structure Mem (E : Type*) where
  cell : Nat → Cell E
  next : Nat

/-- `TypeError` (unexpected keyword argument), `AttributeError`, `NotImplementedError` and `IndexError`.
Raised by the calls at `rol_solver.py:71-119, 173-182`. -/
inductive VecErr | typeError | attributeError | notImplemented | indexError
  deriving DecidableEq

namespace Mem

/-- A new object (`_ad_copy` of a mutable type, contract at `overloaded_type.py:364-373`). -/
def alloc (m : Mem E) (x : E) : Nat × Mem E :=
  (m.next, { cell := Function.update m.cell m.next ⟨false, x⟩, next := m.next + 1 })

/-- Assignment to the contents of an object.  Assignment inside `_ad_iadd` and `_ad_imul` (`overloaded_type.py:208-254`). -/
def set (m : Mem E) (i : Nat) (x : E) : Mem E := { m with cell := Function.update m.cell i { m.cell i with val := x } }

/-- `_ad_iadd` (`overloaded_type.py:241-254`): `self += other` in the method rebinds the local name if the object is immutable. -/
def iadd [Add E] (m : Mem E) (i j : Nat) : Mem E :=
  if (m.cell i).immutable then m else m.set i ((m.cell i).val + (m.cell j).val)

/-- `_ad_imul` (`overloaded_type.py:208-221`) with a number, likewise. -/
def imul [SMul ℝ E] (m : Mem E) (a : ℝ) (i : Nat) : Mem E :=
  if (m.cell i).immutable then m else m.set i (a • (m.cell i).val)

/-- `_ad_copy` (`overloaded_type.py:364-373`); `AdjFloat` returns `self` (`adjfloat.py:125-126`). -/
def copy (m : Mem E) (i : Nat) : Nat × Mem E :=
  if (m.cell i).immutable then (i, m) else m.alloc (m.cell i).val

/-- `plus` (`rol_solver.py:71-73`). -/
def plus [Add E] (m : Mem E) (x y : List Nat) : Mem E := (x.zip y).foldl (fun m p => m.iadd p.1 p.2) m

/-- `scale` (`rol_solver.py:75-77`). -/
def scale [SMul ℝ E] (m : Mem E) (a : ℝ) (x : List Nat) : Mem E := x.foldl (fun m i => m.imul a i) m

/-- The loop of `clone` (`rol_solver.py:97-99`). -/
def copies (m : Mem E) : List Nat → List Nat × Mem E
  | [] => ([], m)
  | i :: l =>
    let (j, m) := m.copy i
    let (js, m) := m.copies l
    (j :: js, m)

/-- `clone` (`rol_solver.py:96-102`). -/
def clone [SMul ℝ E] (m : Mem E) (x : List Nat) : List Nat × Mem E :=
  let (ids, m) := m.copies x
  (ids, m.scale 0 ids)

/-- `dot` (`rol_solver.py:86-91`); `d` is `_ad_dot` of the component type.  That of `AdjFloat` has no parameter `options`
(`adjfloat.py:112-113`). -/
def dot (d : E → E → ℝ) (m : Mem E) (x y : List Nat) : Except VecErr ℝ :=
  (x.zip y).foldlM (fun r p => if (m.cell p.1).immutable then .error .typeError else .ok (r + d (m.cell p.1).val (m.cell p.2).val)) 0

/-- `norm` (`rol_solver.py:93-94`). -/
noncomputable def norm (d : E → E → ℝ) (m : Mem E) (x : List Nat) : Except VecErr ℝ :=
  (m.dot d x x).map fun r => r ^ (0.5 : ℝ)

/-- `dimension` (`rol_solver.py:104-105`); `dim` is `_ad_dim` of the component type, which `AdjFloat` does not implement
(`overloaded_type.py:375-384`). -/
def dimension (dim : E → Nat) (m : Mem E) (x : List Nat) : Except VecErr Nat :=
  x.foldlM (fun r i => if (m.cell i).immutable then .error .notImplemented else .ok (r + dim (m.cell i).val)) 0

/-- `reduce` (`rol_solver.py:107-111`); `red` is `_reduce(r, ·)` of the component type, which `AdjFloat` does not have. -/
def reduce (red : E → ℝ → ℝ) (m : Mem E) (x : List Nat) (r0 : ℝ) : Except VecErr ℝ :=
  x.foldlM (fun r i => if (m.cell i).immutable then .error .attributeError else .ok (red (m.cell i).val r)) r0

/-- `applyUnary` (`rol_solver.py:113-115`); `f` is `_applyUnary(f)` of the component type, which `AdjFloat` does not have. -/
def applyUnary (f : E → E) (m : Mem E) (x : List Nat) : Except VecErr (Mem E) :=
  x.foldlM (fun m i => if (m.cell i).immutable then .error .attributeError else .ok (m.set i (f (m.cell i).val))) m

/-- `applyBinary` (`rol_solver.py:117-119`), likewise. -/
def applyBinary (f : E → E → E) (m : Mem E) (x y : List Nat) : Except VecErr (Mem E) :=
  (x.zip y).foldlM (fun m p => if (m.cell p.1).immutable then .error .attributeError
    else .ok (m.set p.1 (f (m.cell p.1).val (m.cell p.2).val))) m

end Mem

/-- The calls ROL makes on vectors.  Vectors are numbered in the order in which they appear.  Methods of `rol_solver.py:71-119`. -/
inductive VOp (E : Type*)
  | clone (i : Nat)
  | plus (i j : Nat)
  | scale (i : Nat) (a : ℝ)
  | unary (i : Nat) (f : E → E)
  | binary (i : Nat) (f : E → E → E) (j : Nat)
  | dot (i j : Nat)
  | norm (i : Nat)
  | reduce (i : Nat) (red : E → ℝ → ℝ) (r0 : ℝ)

/-- The vectors, the objects, and the numbers returned so far.  (State of the solver, not in the code.) -/
structure VState (E : Type*) where
  vecs : List (List Nat)
  mem : Mem E
  out : List ℝ

/-- One call.  A vector that does not exist does not arise; here it has no components.  `rol_solver.py:71-119`. -/
noncomputable def VOp.step [Add E] [SMul ℝ E] (d : E → E → ℝ) (s : VState E) : VOp E → Except VecErr (VState E)
  | .clone i =>
    let (ids, m) := s.mem.clone (s.vecs.getD i [])
    .ok { s with vecs := s.vecs ++ [ids], mem := m }
  | .plus i j => .ok { s with mem := s.mem.plus (s.vecs.getD i []) (s.vecs.getD j []) }
  | .scale i a => .ok { s with mem := s.mem.scale a (s.vecs.getD i []) }
  | .unary i f => (s.mem.applyUnary f (s.vecs.getD i [])).map fun m => { s with mem := m }
  | .binary i f j => (s.mem.applyBinary f (s.vecs.getD i []) (s.vecs.getD j [])).map fun m => { s with mem := m }
  | .dot i j => (s.mem.dot d (s.vecs.getD i []) (s.vecs.getD j [])).map fun r => { s with out := s.out ++ [r] }
  | .norm i => (s.mem.norm d (s.vecs.getD i [])).map fun r => { s with out := s.out ++ [r] }
  | .reduce i red r0 => (s.mem.reduce red (s.vecs.getD i []) r0).map fun r => { s with out := s.out ++ [r] }

/-- Any number of calls.  (The solver's program, not in the code.) -/
noncomputable def VOp.run [Add E] [SMul ℝ E] (d : E → E → ℝ) (ops : List (VOp E)) (s : VState E) : Except VecErr (VState E) :=
  ops.foldlM (fun s o => o.step d s) s

/-! ## Constraints

Here the contents of objects suffice: `X` for a control, `W` for the value of a constraint. -/

/-- A constraint as ROL uses it (`constraints.py:9-53`): the methods get all controls `m` and store into `result`; what they store does
not depend on what was there before. -/
structure RConstr (X W : Type*) where
  function : List X → W
  jacAction : List X → X → W
  adjAction : List X → W → X
  hessAction : List X → X → W → X

section
variable {X W : Type*}

/-- `ROLConstraint.value` (`rol_solver.py:127-128`) with `MergedConstraints.function` (`constraints.py:82-83`): the new `cvec.dat`. -/
def value (cs : List (RConstr X W)) (x : List X) : List W := cs.map fun c => c.function x

/-- The loop of `MergedConstraints.jacobian_action` (`constraints.py:88-89`). -/
def jacLoop (x : List X) (v : X) : List (RConstr X W) → List W → Except ConstrErr (List W)
  | [], rs => .ok rs
  | _ :: _, [] => .error .indexError
  | c :: cs, _ :: rs => match jacLoop x v cs rs with
    | .error e => .error e
    | .ok rs' => .ok (c.jacAction x v :: rs')

/-- `ROLConstraint.applyJacobian` (`rol_solver.py:130-131`): the contents of `jv.dat` after the call. -/
def applyJacobian (cs : List (RConstr X W)) (jv : List W) (v x : List X) : Except ConstrErr (List W) :=
  match v with
  | [] => .error .indexError
  | v0 :: _ => jacLoop x v0 cs jv

/-- The loop of `MergedConstraints.jacobian_adjoint_action` (`constraints.py:95-97`). -/
def adjLoop [Add X] (x : List X) : List (RConstr X W) → List W → X → Except ConstrErr X
  | [], _, r => .ok r
  | _ :: _, [], _ => .error .indexError
  | c :: cs, w :: ws, r => adjLoop x cs ws (r + c.adjAction x w)

/-- `ROLConstraint.applyAdjointJacobian` (`rol_solver.py:133-135`): the new `jv.dat`; `riesz` is the Riesz map
(`rol_solver.py:79-84`).  Zero times the old contents of the first component is taken to be zero. -/
def applyAdjointJacobian [Add X] [Zero X] (riesz : X → X) (cs : List (RConstr X W)) (jv : List X) (v : List W) (x : List X) :
    Except ConstrErr (List X) :=
  match jv with
  | [] => .error .indexError
  | _ :: rest => match adjLoop x cs v 0 with
    | .error e => .error e
    | .ok r => .ok ((r :: rest).map riesz)

/-- The loop of `MergedConstraints.hessian_action` (`constraints.py:103-105`). -/
def hessLoop [Add X] (x : List X) (u : X) : List (RConstr X W) → List W → X → Except ConstrErr X
  | [], _, r => .ok r
  | _ :: _, [], _ => .error .indexError
  | c :: cs, w :: ws, r => hessLoop x u cs ws (r + c.hessAction x u w)

/-- `ROLConstraint.applyAdjointHessian` (`rol_solver.py:137-139`): the new `ahuv.dat`. -/
def applyAdjointHessian [Add X] [Zero X] (riesz : X → X) (cs : List (RConstr X W)) (ahuv u : List X) (v : List W) (x : List X) :
    Except ConstrErr (List X) :=
  match u, ahuv with
  | [], _ => .error .indexError
  | _ :: _, [] => .error .indexError
  | u0 :: _, _ :: rest => match hessLoop x u0 cs v 0 with
    | .error e => .error e
    | .ok r => .ok ((r :: rest).map riesz)

end

/-- A bound: a number or an object like the control (`rol_solver.py:174-182`). -/
inductive Bnd (E : Type*)
  | num (a : ℝ)
  | obj (e : E)

/-- One side of `__get_bounds` for one component (`rol_solver.py:175-182`): `_applyUnary` of a constant function (`const a` is the object
all entries of which are `a`) or `assign`; `AdjFloat` has neither. -/
def setBound (const : ℝ → E) (m : Mem E) (i : Nat) (b : Bnd E) : Except VecErr (Mem E) :=
  if (m.cell i).immutable then .error .attributeError
  else match b with
    | .num a => .ok (m.set i (const a))
    | .obj e => .ok (m.set i e)

/-- The loop of `__get_bounds` (`rol_solver.py:173-182`); fewer bounds than components raise (`bounds[i]`). -/
def boundLoop (const : ℝ → E) : Mem E → List Nat → List Nat → List (Bnd E × Bnd E) → Except VecErr (Mem E)
  | m, l :: ls, u :: us, b :: bs => do
    let m ← setBound const m l b.1
    let m ← setBound const m u b.2
    boundLoop const m ls us bs
  | m, [], _, _ => .ok m
  | _, _, _, _ => .error .indexError

/-- `__get_bounds` (`rol_solver.py:164-190`): the vectors of lower and upper bounds. -/
def getBounds [SMul ℝ E] (const : ℝ → E) (m : Mem E) (x : List Nat) (bounds : Option (List (Bnd E × Bnd E))) :
    Except VecErr (Option (List Nat × List Nat) × Mem E) :=
  match bounds with
  | none => .ok (none, m)
  | some bs =>
    let (lo, m) := m.clone x
    let (up, m) := m.clone x
    match boundLoop const m lo up bs with
    | .error e => .error e
    | .ok m => .ok (some (lo, up), m)

/-- `__get_constraints` (`rol_solver.py:192-217`) for the equality or the inequality constraints: `overloaded` says which workspaces are
of an `OverloadedType`; the multipliers. -/
def getConstraints {W : Type*} (overloaded : W → Bool) (ws : List W) : Except VecErr (List (List W)) :=
  if ws.isEmpty then .ok []
  else if ws.all overloaded then .ok [ws]
  else .error .typeError

end Rol
end Pyadjoint
