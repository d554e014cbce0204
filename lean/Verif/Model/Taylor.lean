import Verif.Model.Minimize
import Mathlib.Analysis.SpecialFunctions.Log.Base
import Mathlib.Data.EReal.Basic

/-!
# The Taylor test

Models `pyadjoint/verification.py` over the real numbers.  The printing and the machine-precision warning are not modelled.
-/

namespace Pyadjoint

/-- The exceptions a Taylor test can end with: the `ValueError` of lines 32, 39, 102 and 110, division by a zero residual (line
65), or an exception of the functional.  `verification.py:32, 39, 66, 110, 117`. -/
inductive TErr | valueError | zeroDivision | raised (e : ApiErr)
  deriving DecidableEq

/-- "Something with a similar interface" to `ReducedFunctional` (`verification.py:15-17`): evaluation, derivative and Hessian
action on a state `S`. -/
structure TaylorObj (C S : Type*) where
  call : Arg C → S → Except TErr (ℝ × S)
  derivative : S → Except TErr (Ret C × S)
  hessian : Arg C → S → Except TErr (Ret C × S)

/-- What a driver returned, as an argument for the next call.  As in `verification.py:7-110`. -/
def Ret.toArg {α : Type*} : Ret α → Arg α
  | .one a => .single a
  | .many l => .list l

/-- `perturbe` (`verification.py:44-46`, `126-128`): `m + eps h`, shaped like `m`. -/
def perturbe {C : Type*} [Add C] [SMul ℝ C] (ms : Enlist C) (hs : List C) (eps : ℝ) : Except TErr (Arg C) :=
  match ms.delist (List.zipWith (fun m h => m + eps • h) ms.items hs) with
  | .error e => .error (.raised e)
  | .ok r => .ok r.toArg

/-- `epsilons = [0.01 / 2 ** i for i in range(4)]` (`verification.py:50`, `135`). -/
noncomputable def epsilons : List ℝ := (List.range 4).map fun i => 0.01 / 2 ^ i

/-- `J(perturbe(eps))` for each `eps` (`verification.py:51-52`, `137-138`). -/
def perturbedValues {C S : Type*} [Add C] [SMul ℝ C] (J : TaylorObj C S) (ms : Enlist C) (hs : List C) :
    List ℝ → S → Except TErr (List ℝ × S)
  | [], s => .ok ([], s)
  | eps :: es, s =>
    match perturbe ms hs eps with
    | .error e => .error e
    | .ok x =>
      match J.call x s with
      | .error e => .error e
      | .ok (Jp, s) =>
        match perturbedValues J ms hs es s with
        | .error e => .error e
        | .ok (l, s) => .ok (Jp :: l, s)

/-- The residual `abs(Jp - Jm - eps * dJdm - 0.5 * eps ** 2 * Hm)` (`verification.py:53`, `141`). -/
noncomputable def residual (Jm dJdm Hm eps Jp : ℝ) : ℝ := |Jp - Jm - eps * dJdm - 0.5 * eps ^ 2 * Hm|

/-- One convergence rate (`verification.py:66-67`).  The quotient of two Python floats raises for a zero divisor; NumPy's
logarithm of zero is minus infinity.  Meant for nonnegative residuals and decreasing positive `eps`. -/
noncomputable def rate (E0 E1 eps0 eps1 : ℝ) : Except TErr EReal :=
  if E0 = 0 then .error .zeroDivision else
  if E1 = 0 then .ok (if eps1 < eps0 then ⊤ else ⊥) else
  .ok ((Real.log (E1 / E0) / Real.log (eps1 / eps0) : ℝ) : EReal)

/-- `convergence_rates` (`verification.py:62-70`): the loop over consecutive pairs.  `E_values` must be at least as long as
`eps_values` (otherwise the code raises `IndexError`; not reached from this file, and here the loop ends). -/
noncomputable def convergenceRates : List ℝ → List ℝ → Except TErr (List EReal)
  | E0 :: E1 :: Es, eps0 :: eps1 :: epss =>
    match rate E0 E1 eps0 eps1 with
    | .error e => .error e
    | .ok r =>
      match convergenceRates (E1 :: Es) (eps1 :: epss) with
      | .error e => .error e
      | .ok rs => .ok (r :: rs)
  | _, _ => .ok []

/-- Python's `min` of a list (`verification.py:59`), `ValueError` for an empty one. -/
noncomputable def pyMin : List EReal → Except TErr EReal
  | [] => .error .valueError
  | x :: xs => .ok (xs.foldl min x)

/-- `sum(hi._ad_dot(di) for hi, di in zip(hs, ds))` (`verification.py:42`, `115`, `120`). -/
noncomputable def dotSum {C : Type*} (dot : C → C → ℝ) (hs ds : List C) : ℝ := (List.zipWith dot hs ds).sum

/-- The directional derivative used: the one given, or `J.derivative()` applied to the direction (`verification.py:36-42`). -/
noncomputable def directional {C S : Type*} (dot : C → C → ℝ) (J : TaylorObj C S) (n : Nat) (hs : List C) :
    Option ℝ → S → Except TErr (ℝ × S)
  | some d, s => .ok (d, s)
  | none, s =>
    match J.derivative s with
    | .error e => .error e
    | .ok (r, s) => if r.items.length ≠ n then .error .valueError else .ok (dotSum dot hs r.items, s)

/-- `taylor_test` (`verification.py:7-59`). -/
noncomputable def taylorTest {C S : Type*} [Add C] [SMul ℝ C] (dot : C → C → ℝ) (J : TaylorObj C S) (m h : Arg C)
    (dJdm : Option ℝ) (Hm : ℝ) (s : S) : Except TErr (EReal × S) :=
  let hs := Enlist.of h
  let ms := Enlist.of m
  if hs.items.length ≠ ms.items.length then .error .valueError else
  match J.call m s with
  | .error e => .error e
  | .ok (Jm, s) =>
    match directional dot J ms.items.length hs.items dJdm s with
    | .error e => .error e
    | .ok (d, s) =>
      match perturbedValues J ms hs.items epsilons s with
      | .error e => .error e
      | .ok (Jps, s) =>
        match convergenceRates (List.zipWith (residual Jm d Hm) epsilons Jps) epsilons with
        | .error e => .error e
        | .ok rs =>
          match pyMin rs with
          | .error e => .error e
          | .ok r => .ok (r, s)

/-- The dictionary `taylor_to_dict` returns: `eps`, and residuals and rates for `R0`, `R1`, `R2`.  `verification.py:73-150`. -/
structure TaylorDict where
  eps : List ℝ
  residual : Fin 3 → List ℝ
  rate : Fin 3 → List EReal

/-- The three residual lists (`verification.py:139-143`). -/
noncomputable def dictResiduals (Jm d H : ℝ) (Jps : List ℝ) : Fin 3 → List ℝ
  | 0 => List.zipWith (fun _ Jp => |Jp - Jm|) epsilons Jps
  | 1 => List.zipWith (fun eps Jp => |Jp - Jm - eps * d|) epsilons Jps
  | 2 => List.zipWith (residual Jm d H) epsilons Jps

/-- The rates of the three lists (`verification.py:145-150`), in the order of the dictionary. -/
noncomputable def dictRates (R : Fin 3 → List ℝ) : Except TErr (Fin 3 → List EReal) :=
  match convergenceRates (R 0) epsilons with
  | .error e => .error e
  | .ok r0 =>
    match convergenceRates (R 1) epsilons with
    | .error e => .error e
    | .ok r1 =>
      match convergenceRates (R 2) epsilons with
      | .error e => .error e
      | .ok r2 => .ok fun i => match i with
        | 0 => r0
        | 1 => r1
        | 2 => r2

/-- `taylor_to_dict` (`verification.py:73-152`).  `J.hessian(hs)` passes the `Enlist` of the direction (line 119).  The last
`J(m)` (line 151) is outside `stop_annotating`, which makes no difference to an evaluation. -/
noncomputable def taylorToDict {C S : Type*} [Add C] [SMul ℝ C] (dot : C → C → ℝ) (J : TaylorObj C S) (m h : Arg C) (s : S) :
    Except TErr (TaylorDict × S) :=
  let hs := Enlist.of h
  let ms := Enlist.of m
  if hs.items.length ≠ ms.items.length then .error .valueError else
  match J.call m s with
  | .error e => .error e
  | .ok (Jm, s) =>
    match directional dot J ms.items.length hs.items none s with
    | .error e => .error e
    | .ok (d, s) =>
      match J.hessian (.enlist hs) s with
      | .error e => .error e
      | .ok (H, s) =>
        match perturbedValues J ms hs.items epsilons s with
        | .error e => .error e
        | .ok (Jps, s) =>
          let R := dictResiduals Jm d (dotSum dot hs.items H.items) Jps
          match dictRates R with
          | .error e => .error e
          | .ok rs =>
            match J.call m s with
            | .error e => .error e
            | .ok (_, s) => .ok (⟨epsilons, R, rs⟩, s)

/-- Exceptions of the functional, with the state.  (Python's propagation of exceptions, not in the code.) -/
def liftErr {α : Type*} : Except ApiErr α → Except TErr α
  | .error e => .error (.raised e)
  | .ok a => .ok a

/-- `RF.derivative` with its state.  The call of `J.derivative()` in `verification.py:7-150`. -/
def withState {α S : Type*} : Except ApiErr α × S → Except TErr (α × S)
  | (.error e, _) => .error (.raised e)
  | (.ok a, s) => .ok (a, s)

/-- A `ReducedFunctional` over a tape of floats, as the Taylor test uses it: `J(m)`, `J.derivative()` (adjoint input 1) and
`J.hessian(h)` (`reduced_functional.py:112-254`). -/
noncomputable def RF.taylor (rf : RF ℝ) (t : FTape) : TaylorObj ℝ FHeap where
  call x h := liftErr (rf.call t.blocks x h)
  derivative h := withState (rf.derivative t.blocks 1 h)
  hessian d h := liftErr (rf.hessian t d h)

end Pyadjoint
